import Verif.Lemmas.Normalize
import Verif.Spec.Network
import Mathlib.Analysis.Real.Sqrt
import Mathlib.Data.Real.Star
import Mathlib.LinearAlgebra.Matrix.ToLin
import Mathlib.Data.Complex.BigOperators

/-!
C18: `Tensor.normalize`.

`sqrt` is any square root with `SqrtOk`; the real and the complex numbers have one (`sqrtOk_real`, `sqrtOk_complex`).
-/

open scoped BigOperators

namespace Heap

open Py

variable {R : Type} [Field R] [StarRing R]

/-- A tensor with `axis`, whose slices along it are linearly independent: the new slices are orthonormal, and for
every `j` the first `j` new slices span what the first `j` old ones did. Nothing else changes. -/
theorem C18_axis {sqrt : R → R} (hq : SqrtOk sqrt) {h : Heap R} {t axis : ℕ} {A : Nd R} {forced : Bool}
    (hf : (h.node t).normalized = true ∨ forced = true) (hA : h.array t = some A) (hx : (h.node t).axis = some axis)
    (hax : axis < A.ndim) (hpos : ∀ d ∈ A.shape, 0 < d)
    (hli : LinearIndependent R fun i : Fin (A.shape.getD axis 1) => slice (A.shape.eraseIdx axis) A axis i) :
    ∃ B norms, normalize sqrt h t forced = .ok (h.setArray t (some B), some norms) ∧ B.Wf ∧ B.shape = A.shape ∧
      (h.setArray t (some B)).Canonical t axis ∧
      ∀ j ≤ A.shape.getD axis 1,
        Submodule.span R {x | ∃ i < j, x = slice (A.shape.eraseIdx axis) B axis i} =
          Submodule.span R {x | ∃ i < j, x = slice (A.shape.eraseIdx axis) A axis i} := by
  obtain ⟨v, v1, v2⟩ := normalizeArray_spec sqrt hax hpos
  set N := (A.shape.eraseIdx axis).prod with hN
  have hrho : ∀ i < A.shape.getD axis 1, rho N (v i) = slice (A.shape.eraseIdx axis) A axis i := by
    intro i hi
    funext q
    exact v1 i hi q q.2
  have hspan : ∀ k ≤ A.shape.getD axis 1, {x | ∃ i < k, x = rho N (v i)} =
      {x | ∃ i < k, x = slice (A.shape.eraseIdx axis) A axis i} := by
    intro k hk
    ext x
    constructor
    · rintro ⟨i, hi, rfl⟩; exact ⟨i, hi, hrho i (by omega)⟩
    · rintro ⟨i, hi, rfl⟩; exact ⟨i, hi, (hrho i (by omega)).symm⟩
  have hli' : ∀ k < A.shape.getD axis 1, rho N (v k) ∉ Submodule.span R {x | ∃ i < k, x = rho N (v i)} := by
    intro k hk
    rw [hspan k hk.le, hrho k hk]
    have := hli.notMem_span_image (s := {i : Fin (A.shape.getD axis 1) | i.1 < k}) (x := ⟨k, hk⟩) (by simp)
    intro hmem
    apply this
    refine Submodule.span_mono ?_ hmem
    rintro x ⟨i, hi, rfl⟩
    exact ⟨⟨i, by omega⟩, hi, rfl⟩
  obtain ⟨U, u1, u2, u3, u4⟩ := gramSchmidt_spec hq N hli' (le_refl _)
  obtain ⟨B, norms, b1, b2, b3, b4⟩ := v2 U u1
  have hax' : axis < A.shape.length := hax
  refine ⟨B, norms, ?_, b2, b3, ⟨B, ?_, ?_, ?_⟩, ?_⟩
  · unfold normalize
    rw [hA]
    simp only
    rw [if_neg (by rcases hf with e | e <;> simp [e]), hx]
    simp only
    rw [if_neg (by omega), b1]
    rfl
  · unfold setArray array Heap.upd; simp
  · unfold Nd.ndim; rw [b3]; exact hax'
  · intro z w hz hw
    rw [b3] at hz hw ⊢
    rw [sumIdx_eq_sum_range]
    have : (if z = w then (1 : R) else 0) = cdot N (U w) (U z) := by
      rw [u3 w hw z hz]
      simp only [eq_comm]
    rw [this]
    unfold cdot
    refine Finset.sum_congr rfl fun p hp => ?_
    have hp' := Finset.mem_range.1 hp
    rw [b4 z hz p hp', b4 w hw p hp', mul_comm]
  · intro j hj
    rw [← hspan j hj, ← u4 j hj]
    congr 1
    ext x
    have hU : ∀ i < A.shape.getD axis 1, slice (A.shape.eraseIdx axis) B axis i = rho N (U i) := by
      intro i hi
      funext q
      exact b4 i hi q q.2
    constructor
    · rintro ⟨i, hi, rfl⟩; exact ⟨i, hi, hU i (by omega)⟩
    · rintro ⟨i, hi, rfl⟩; exact ⟨i, hi, (hU i (by omega)).symm⟩

/-- A tensor without `axis` and with nonzero norm: the new array is the old one divided by its norm, and has norm 1.
(`aux` is overwritten, as `local_norm` does.) -/
theorem C18_root {sqrt : R → R} (hq : SqrtOk sqrt) {h : Heap R} {t : ℕ} {A : Nd R} {forced : Bool}
    (hf : (h.node t).normalized = true ∨ forced = true) (hA : h.array t = some A) (hx : (h.node t).axis = none)
    (hw : A.Wf) (h0 : sumIdx A.shape (fun p => A.get p * star (A.get p)) ≠ 0) :
    ∃ B c, c ≠ 0 ∧ c * c = sumIdx A.shape (fun p => A.get p * star (A.get p)) ∧
      normalize sqrt h t forced = .ok ((h.setAux t (some A.conj)).setArray t (some B), some [c]) ∧ B.Wf ∧
      B.shape = A.shape ∧ (∀ p, Valid A.shape p → B.get p = A.get p / c) ∧
      sumIdx B.shape (fun p => B.get p * star (B.get p)) = 1 := by
  have hconj : ∀ p, A.conj.get p = star (A.get p) := by
    intro p
    unfold Nd.conj Nd.get
    simp only [List.getD_eq_getElem?_getD, List.getElem?_map]
    cases A.data[ravel A.shape p]? <;> simp
  have e1 : sumIdx A.shape (fun p => A.get p * star (A.get p)) =
      cdot A.shape.prod (fun q => A.get (unravel A.shape q)) (fun q => A.get (unravel A.shape q)) := by
    rw [sumIdx_eq_sum_range]
    unfold cdot
    exact Finset.sum_congr rfl fun p _ => mul_comm _ _
  set S := sumIdx A.shape (fun p => A.get p * star (A.get p)) with hS
  have hsq : sqrt S * sqrt S = S := by rw [e1]; exact hq.square _ _
  have hreal : star (sqrt S) = sqrt S := by rw [e1]; exact hq.real _ _
  have hne : sqrt S ≠ 0 := by
    intro e; rw [e, mul_zero] at hsq; exact h0 hsq.symm
  have hget : ∀ p, Valid A.shape p → (⟨A.shape, A.data.map (· / sqrt S)⟩ : Nd R).get p = A.get p / sqrt S := by
    intro p _
    unfold Nd.get
    simp only [List.getD_eq_getElem?_getD, List.getElem?_map]
    cases A.data[ravel A.shape p]? <;> simp
  refine ⟨⟨A.shape, A.data.map (· / sqrt S)⟩, sqrt S, hne, hsq, ?_, by unfold Nd.Wf at hw ⊢; simpa using hw, rfl, hget, ?_⟩
  · unfold normalize
    rw [hA]
    simp only
    rw [if_neg (by rcases hf with e | e <;> simp [e]), hx]
    simp only
    unfold localNorm0
    rw [Tensor.partialTrace_none_spec A A.conj rfl]
    have hS' : sumIdx A.shape (fun p => A.get p * A.conj.get p) = S := by
      rw [hS]; exact sumIdx_congr fun p _ => by rw [hconj]
    simp only [hS']
    rfl
  · have : sumIdx A.shape (fun p => (⟨A.shape, A.data.map (· / sqrt S)⟩ : Nd R).get p *
        star ((⟨A.shape, A.data.map (· / sqrt S)⟩ : Nd R).get p)) =
        sumIdx A.shape (fun p => (A.get p * star (A.get p)) * S⁻¹) := by
      refine sumIdx_congr fun p hp => ?_
      rw [hget p hp, star_div₀, hreal, div_mul_div_comm, hsq, div_eq_mul_inv]
    change sumIdx A.shape _ = 1
    rw [this, sumIdx_mul_right, ← hS, mul_inv_cancel₀ h0]

/-- Without `forced`, a tensor that is not marked `normalized` is left alone; so is one without array. -/
theorem C18_skip (sqrt : R → R) (h : Heap R) (t : ℕ) (hn : (h.node t).normalized = false) :
    normalize sqrt h t false = .ok (h, none) := by
  unfold normalize
  cases h.array t with
  | none => rfl
  | some A => simp [hn]

theorem C18_no_array (sqrt : R → R) (h : Heap R) (t : ℕ) (forced : Bool) (hn : h.array t = none) :
    normalize sqrt h t forced = .ok (h, none) := by
  unfold normalize
  rw [hn]

/-! ### The numbers -/

theorem sqrtOk_real : SqrtOk (R := ℝ) Real.sqrt := by
  have h0 : ∀ (n : ℕ) (w : ℕ → ℝ), cdot n w w = ∑ p ∈ Finset.range n, w p * w p := fun n w => rfl
  have hnn : ∀ (n : ℕ) (w : ℕ → ℝ), 0 ≤ cdot n w w := fun n w => by
    rw [h0]; exact Finset.sum_nonneg fun p _ => mul_self_nonneg _
  refine ⟨fun n w hw p hp => ?_, fun n w => Real.mul_self_sqrt (hnn n w), fun n w => rfl⟩
  rw [h0, Finset.sum_eq_zero_iff_of_nonneg fun p _ => mul_self_nonneg _] at hw
  exact mul_self_eq_zero.1 (hw p (Finset.mem_range.2 hp))

theorem sqrtOk_complex : SqrtOk (R := ℂ) fun z => (Real.sqrt z.re : ℂ) := by
  have h0 : ∀ (n : ℕ) (w : ℕ → ℂ), cdot n w w = ((∑ p ∈ Finset.range n, Complex.normSq (w p) : ℝ) : ℂ) := by
    intro n w
    unfold cdot
    rw [Complex.ofReal_sum]
    refine Finset.sum_congr rfl fun p _ => ?_
    rw [Complex.normSq_eq_conj_mul_self]; rfl
  have hnn : ∀ (n : ℕ) (w : ℕ → ℂ), 0 ≤ ∑ p ∈ Finset.range n, Complex.normSq (w p) := fun n w =>
    Finset.sum_nonneg fun p _ => Complex.normSq_nonneg _
  refine ⟨fun n w hw p hp => ?_, fun n w => ?_, fun n w => Complex.conj_ofReal _⟩
  · rw [h0, Complex.ofReal_eq_zero, Finset.sum_eq_zero_iff_of_nonneg fun p _ => Complex.normSq_nonneg _] at hw
    exact Complex.normSq_eq_zero.1 (hw p (Finset.mem_range.2 hp))
  · rw [h0]
    simp only [Complex.ofReal_re]
    rw [← Complex.ofReal_mul, Real.mul_self_sqrt (hnn n w)]

/-! ### A case: a 2 × 2 array with `axis = 0`. -/

noncomputable def exNorm : Heap ℝ :=
  ⟨fun _ => Node.tensor none (some ⟨[2, 2], [1, 2, 3, 4]⟩) (some 0), 1⟩

theorem exNorm_li : LinearIndependent ℝ (M := Fin 2 → ℝ)
    fun i : Fin 2 => slice (R := ℝ) [2] ⟨[2, 2], [1, 2, 3, 4]⟩ 0 i := by
  refine Fintype.linearIndependent_iff.2 fun g hg => ?_
  rw [Fin.sum_univ_two] at hg
  have h0 : g 0 * 1 + g 1 * 3 = 0 := congrFun hg 0
  have h1 : g 0 * 2 + g 1 * 4 = 0 := congrFun hg 1
  intro i
  fin_cases i
  · change g 0 = 0; linarith
  · change g 1 = 0; linarith

example : ∃ B norms, normalize Real.sqrt exNorm 0 true = .ok (exNorm.setArray 0 (some B), some norms) ∧ B.Wf ∧
    B.shape = [2, 2] ∧ (exNorm.setArray 0 (some B)).Canonical 0 0 := by
  obtain ⟨B, norms, h1, h2, h3, h4, -⟩ := C18_axis sqrtOk_real (h := exNorm) (t := 0) (axis := 0)
    (A := ⟨[2, 2], [1, 2, 3, 4]⟩) (forced := true) (.inr rfl) rfl rfl (by decide) (by decide) exNorm_li
  exact ⟨B, norms, h1, h2, h3, h4⟩

end Heap
