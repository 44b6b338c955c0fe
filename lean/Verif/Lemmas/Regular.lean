import Verif.Lemmas.Density
import Verif.Spec.Regular
import Verif.Nd.AddLemmas
import Mathlib.LinearAlgebra.Matrix.NonsingularInverse

/-! Helper lemmas for C132: the inverse of a positive matrix plus a multiple of the identity. -/

open scoped BigOperators ComplexOrder
open Py

namespace ML

theorem toMat_mul (n : ℕ) (A B : Nd ℂ) (i j : Fin n) : (toMat n A * toMat n B) i j = ∑ c ∈ Finset.range n, A.get [i.1, c] * B.get [c, j.1] := by
  rw [Matrix.mul_apply, Finset.sum_range]; rfl

theorem leftInv_iff (n : ℕ) (A B : Nd ℂ) : LeftInv n (fun b c => A.get [b, c]) B ↔ toMat n A * toMat n B = 1 := by
  constructor
  · intro h
    ext i j
    rw [toMat_mul, h i.1 i.2 j.1 j.2, Matrix.one_apply]
    simp [Fin.ext_iff]
  · intro h b hb z hz
    have := congrFun (congrFun h ⟨b, hb⟩) ⟨z, hz⟩
    rw [toMat_mul] at this
    rw [this, Matrix.one_apply]
    simp [Fin.ext_iff]

theorem mulVec_mul {n : ℕ} {A B : Nd ℂ} (h : LeftInv n (fun b c => A.get [b, c]) B) (w : ℕ → ℂ) : ∀ b < n, mulVec n A (mulVec n B w) b = w b := by
  intro b hb
  unfold mulVec
  simp only [Finset.mul_sum]
  rw [Finset.sum_comm]
  simp only [← mul_assoc, ← Finset.sum_mul]
  rw [Finset.sum_eq_single b]
  · rw [h b hb b hb, if_pos rfl, one_mul]
  · intro z hz hzb
    rw [h b hb z (Finset.mem_range.1 hz), if_neg (Ne.symm hzb), zero_mul]
  · intro q; exact absurd (Finset.mem_range.2 hb) q

theorem normSq_sub_mul (a b : ℂ) (c : ℝ) : Complex.normSq (a - c * b) = Complex.normSq a + c ^ 2 * Complex.normSq b - 2 * c * (star b * a).re := by
  simp [Complex.normSq_apply]
  ring

theorem sqNorm_congr {n : ℕ} {v w : ℕ → ℂ} (h : ∀ b < n, v b = w b) : sqNorm n v = sqNorm n w :=
  Finset.sum_congr rfl fun b hb => by rw [h b (Finset.mem_range.1 hb)]

theorem sqNorm_nonneg (n : ℕ) (w : ℕ → ℂ) : 0 ≤ sqNorm n w := Finset.sum_nonneg fun _ _ => Complex.normSq_nonneg _

/-- A matrix that is at least `c` lengthens every vector by the factor `c`. -/
theorem lengthen {n : ℕ} {B : Nd ℂ} {c : ℝ} (hc : 0 ≤ c) (u : ℕ → ℂ) (h : c * sqNorm n u ≤ (quadForm n B u).re) :
    c ^ 2 * sqNorm n u ≤ sqNorm n (mulVec n B u) := by
  have h0 := sqNorm_nonneg n fun b => mulVec n B u b - c * u b
  have : sqNorm n (fun b => mulVec n B u b - c * u b) = sqNorm n (mulVec n B u) + c ^ 2 * sqNorm n u - 2 * c * (quadForm n B u).re := by
    unfold sqNorm quadForm
    rw [Complex.re_sum, Finset.mul_sum, Finset.mul_sum, ← Finset.sum_add_distrib, ← Finset.sum_sub_distrib]
    exact Finset.sum_congr rfl fun b _ => normSq_sub_mul _ _ _
  rw [this] at h0
  nlinarith [mul_le_mul_of_nonneg_left h hc]

/-- `d + eps 1` -/
theorem regular_sum {n : ℕ} {d : Nd ℂ} (h1 : d.Wf) (h2 : d.shape = [n, n]) (eps : ℂ) :
    ∃ B, d.add ⟨[n, n], (Nd.identity n : Nd ℂ).data.map (eps * ·)⟩ = .ok B ∧ B.Wf ∧ B.shape = [n, n] ∧
      ∀ b < n, ∀ z < n, B.get [b, z] = d.get [b, z] + if b = z then eps else 0 := by
  have hw : (⟨[n, n], (Nd.identity n : Nd ℂ).data.map (eps * ·)⟩ : Nd ℂ).Wf := by
    have : (Nd.identity n : Nd ℂ).Wf := Nd.ofFn_wf _ _
    unfold Nd.Wf at *
    simpa [Nd.identity, Nd.ofFn] using this
  obtain ⟨B, e1, e2, e3, e4⟩ := Nd.add_ok h1 hw h2
  refine ⟨B, e1, e2, e3.trans h2, fun b hb z hz => ?_⟩
  rw [e4 _ (by rw [h2]; simp [Valid, hb, hz])]
  have : (⟨[n, n], (Nd.identity n : Nd ℂ).data.map (eps * ·)⟩ : Nd ℂ).get [b, z] = eps * (Nd.identity n : Nd ℂ).get [b, z] := by
    unfold Nd.get
    simp only [List.getD_eq_getElem?_getD, List.getElem?_map]
    show (Option.map _ (Nd.identity n : Nd ℂ).data[ravel [n, n] [b, z]]?).getD 0 = eps * ((Nd.identity n : Nd ℂ).data[ravel [n, n] [b, z]]?).getD 0
    cases (Nd.identity n : Nd ℂ).data[ravel [n, n] [b, z]]? <;> simp
  rw [this, identity_get hb hz]
  split <;> simp

theorem mulVec_sum {n : ℕ} {d B : Nd ℂ} {eps : ℂ} (h : ∀ b < n, ∀ z < n, B.get [b, z] = d.get [b, z] + if b = z then eps else 0) (u : ℕ → ℂ) :
    ∀ b < n, mulVec n B u b = mulVec n d u b + eps * u b := by
  intro b hb
  unfold mulVec
  rw [Finset.sum_congr rfl fun c hc => by rw [h b hb c (Finset.mem_range.1 hc), add_mul], Finset.sum_add_distrib]
  congr 1
  rw [Finset.sum_eq_single b]
  · simp
  · intro c _ hc; rw [if_neg (Ne.symm hc), zero_mul]
  · intro q; exact absurd (Finset.mem_range.2 hb) q

theorem quadForm_sum {n : ℕ} {d B : Nd ℂ} {eps : ℝ} (h : ∀ b < n, ∀ z < n, B.get [b, z] = d.get [b, z] + if b = z then (eps : ℂ) else 0) (u : ℕ → ℂ) :
    (quadForm n B u).re = (quadForm n d u).re + eps * sqNorm n u := by
  unfold quadForm sqNorm
  rw [Complex.re_sum, Complex.re_sum, Finset.mul_sum, ← Finset.sum_add_distrib]
  refine Finset.sum_congr rfl fun b hb => ?_
  rw [mulVec_sum h u b (Finset.mem_range.1 hb), mul_add, Complex.add_re]
  congr 1
  simp [Complex.normSq_apply]
  ring

/-- The regularized inverse. -/
theorem invert_regular {lin : Linalg ℂ} {eps : ℝ} (h0 : 0 < eps) (hlin : lin.Regular eps) {n : ℕ} {d : Nd ℂ} (h1 : d.Wf) (h2 : d.shape = [n, n])
    (hp : ∀ w, 0 ≤ (quadForm n d w).re) :
    ∃ M, lin.invert (some d) n = .ok M ∧ M.Wf ∧ M.shape = [n, n] ∧
      (∀ b < n, ∀ z < n, ∑ c ∈ Finset.range n, M.get [b, c] * (d.get [c, z] + if c = z then (eps : ℂ) else 0) = if b = z then 1 else 0) ∧
      ∀ lam : ℝ, 0 ≤ lam → (∀ w, lam * sqNorm n w ≤ (quadForm n d w).re) → ∀ w, (lam + eps) ^ 2 * sqNorm n (mulVec n M w) ≤ sqNorm n w ∧
        (lam + eps) ^ 2 * sqNorm n (fun b => mulVec n M (mulVec n d w) b - w b) ≤ eps ^ 2 * sqNorm n w := by
  obtain ⟨B, e1, e2, e3, e4⟩ := regular_sum h1 h2 (eps : ℂ)
  have hinj : ∀ u : Fin n → ℂ, (toMat n B).mulVec u = 0 → u = 0 := by
    intro u hu
    set u' : ℕ → ℂ := fun k => if hk : k < n then u ⟨k, hk⟩ else 0 with hu'
    have hz : sqNorm n (mulVec n B u') = 0 := by
      refine Finset.sum_eq_zero fun b hb => ?_
      have hb' := Finset.mem_range.1 hb
      have := congrFun hu ⟨b, hb'⟩
      have e : mulVec n B u' b = (toMat n B).mulVec u ⟨b, hb'⟩ := by
        unfold mulVec
        rw [Finset.sum_range]
        refine Finset.sum_congr rfl fun c _ => ?_
        simp [hu', toMat]
      rw [e, this]; simp
    have := lengthen (n := n) (B := B) h0.le u' (by rw [quadForm_sum e4]; have := hp u'; linarith)
    rw [hz] at this
    have hn := sqNorm_nonneg n u'
    have h3 : sqNorm n u' = 0 := by
      have : 0 < eps ^ 2 := by positivity
      nlinarith
    funext k
    have h4 := (Finset.sum_eq_zero_iff_of_nonneg (fun b _ => Complex.normSq_nonneg (u' b))).1 h3 k.1 (Finset.mem_range.2 k.2)
    have := Complex.normSq_eq_zero.1 h4
    simpa [hu'] using this
  have hunit : IsUnit (toMat n B) := by
    rw [← Matrix.mulVec_injective_iff_isUnit]
    intro u v huv
    have := hinj (u - v) (by rw [Matrix.mulVec_sub, sub_eq_zero]; exact huv)
    exact sub_eq_zero.1 this
  have hex : ∃ N, LeftInv n N B := by
    refine ⟨fun b c => if hb : b < n then if hc : c < n then (toMat n B)⁻¹ ⟨b, hb⟩ ⟨c, hc⟩ else 0 else 0, fun b hb z hz => ?_⟩
    have h := congrFun (congrFun (Matrix.nonsing_inv_mul (toMat n B) ((Matrix.isUnit_iff_isUnit_det _).1 hunit)) ⟨b, hb⟩) ⟨z, hz⟩
    rw [Matrix.mul_apply, Matrix.one_apply] at h
    rw [Finset.sum_range]
    simp only [Fin.mk.injEq] at h
    rw [← h]
    refine Finset.sum_congr rfl fun c _ => ?_
    simp [hb, toMat]
  obtain ⟨M, m1, m2, m3, m4⟩ := hlin.inv n B e2 e3 hex
  have m5 : LeftInv n (fun b c => B.get [b, c]) M := (leftInv_iff n B M).2 (mul_eq_one_comm.1 ((leftInv_iff n M B).1 m4))
  refine ⟨M, ?_, m2, m3, fun b hb z hz => ?_, fun lam hl hlam w => ?_⟩
  · unfold Linalg.invert
    simp only
    rw [if_neg (by rw [hlin.pinv]; simp), hlin.err, e1]
    exact m1
  · rw [← m4 b hb z hz]
    exact Finset.sum_congr rfl fun c hc => by rw [e4 c (Finset.mem_range.1 hc) z hz]
  · have key : ∀ w, (lam + eps) ^ 2 * sqNorm n (mulVec n M w) ≤ sqNorm n w := fun w => by
      have := lengthen (n := n) (B := B) (c := lam + eps) (by linarith) (mulVec n M w) (by
        rw [quadForm_sum e4, add_mul]; have := hlam (mulVec n M w); linarith)
      rwa [sqNorm_congr (mulVec_mul m5 w)] at this
    refine ⟨key w, ?_⟩
    have hd : ∀ b < n, mulVec n M (mulVec n d w) b - w b = -(eps * mulVec n M w b) := by
      intro b hb
      have h3 := mulVec_mul m4 w b hb
      have h4 : mulVec n M (mulVec n B w) b = mulVec n M (mulVec n d w) b + eps * mulVec n M w b := by
        unfold mulVec
        rw [Finset.mul_sum, ← Finset.sum_add_distrib]
        refine Finset.sum_congr rfl fun c hc => ?_
        have := mulVec_sum e4 w c (Finset.mem_range.1 hc)
        unfold mulVec at this
        rw [this]; ring
      rw [h4] at h3
      linear_combination h3
    have h5 : sqNorm n (fun b => mulVec n M (mulVec n d w) b - w b) = eps ^ 2 * sqNorm n (mulVec n M w) := by
      rw [sqNorm_congr hd]
      unfold sqNorm
      rw [Finset.mul_sum]
      refine Finset.sum_congr rfl fun b _ => ?_
      rw [Complex.normSq_neg, Complex.normSq_mul, Complex.normSq_ofReal]; ring
    rw [h5]
    have := key w
    nlinarith [sq_nonneg eps]

end ML
