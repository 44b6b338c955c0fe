import Mathlib.Analysis.InnerProductSpace.PiL2
import Mathlib.Tactic.Linarith
import Mathlib.Tactic.Ring

/-!
The theorem of Eckart and Young: among the products of a matrix with `m` columns and one with `m` rows, the first `m` terms of a singular
value decomposition with falling singular values are nearest to the matrix.
-/

open scoped BigOperators

namespace EckartYoung

/-- Weights in `[0, 1]` with a sum of at most `m` catch at most the `m` largest numbers. -/
theorem weights {r m : ℕ} {q w : ℕ → ℝ} (hq : ∀ z, 0 ≤ q z) (hmono : ∀ z z', z ≤ z' → z' < r → q z' ≤ q z) (h0 : ∀ z < r, 0 ≤ w z)
    (h1 : ∀ z < r, w z ≤ 1) (hs : ∑ z ∈ Finset.range r, w z ≤ m) :
    ∑ z ∈ Finset.range r, q z * w z ≤ ∑ z ∈ Finset.range (min r m), q z := by
  rcases le_or_gt r m with h | h
  · rw [min_eq_left h]
    refine Finset.sum_le_sum fun z hz => ?_
    have := mul_le_mul_of_nonneg_left (h1 z (Finset.mem_range.1 hz)) (hq z)
    linarith
  · rw [min_eq_right h.le, ← Finset.sum_range_add_sum_Ico _ h.le]
    rw [← Finset.sum_range_add_sum_Ico _ h.le] at hs
    have k1 : ∑ z ∈ Finset.Ico m r, q z * w z ≤ q m * ∑ z ∈ Finset.Ico m r, w z := by
      rw [Finset.mul_sum]
      refine Finset.sum_le_sum fun z hz => ?_
      obtain ⟨a, b⟩ := Finset.mem_Ico.1 hz
      exact mul_le_mul_of_nonneg_right (hmono m z a b) (h0 z b)
    have k2 : q m * ∑ z ∈ Finset.Ico m r, w z ≤ q m * (m - ∑ z ∈ Finset.range m, w z) :=
      mul_le_mul_of_nonneg_left (by linarith) (hq m)
    have k3 : q m * (m - ∑ z ∈ Finset.range m, w z) = ∑ z ∈ Finset.range m, q m * (1 - w z) := by
      rw [← Finset.mul_sum, Finset.sum_sub_distrib]; simp
    have k4 : ∑ z ∈ Finset.range m, q z * w z + ∑ z ∈ Finset.range m, q m * (1 - w z) ≤ ∑ z ∈ Finset.range m, q z := by
      rw [← Finset.sum_add_distrib]
      refine Finset.sum_le_sum fun z hz => ?_
      have hz := Finset.mem_range.1 hz
      have := mul_le_mul_of_nonneg_right (hmono z m hz.le h) (sub_nonneg.2 (h1 z (by omega)))
      nlinarith
    linarith

local notation "⟪" x ", " y "⟫" => Inner.inner ℝ x y

/-- The part of a vector orthogonal to a space is no longer than its distance from any vector of the space. -/
theorem dist_ge {F : Type} [NormedAddCommGroup F] [InnerProductSpace ℝ F] {n : ℕ} {e : Fin n → F} (he : Orthonormal ℝ e) (v : F) (γ : Fin n → ℝ) :
    ‖v‖ ^ 2 - ∑ j, ⟪e j, v⟫ ^ 2 ≤ ‖v - ∑ j, γ j • e j‖ ^ 2 := by
  have h1 : ⟪v, ∑ j, γ j • e j⟫ = ∑ j, γ j * ⟪e j, v⟫ := by
    rw [inner_sum]
    exact Finset.sum_congr rfl fun j _ => by rw [real_inner_smul_right, real_inner_comm]
  have h2 : ‖∑ j, γ j • e j‖ ^ 2 = ∑ j, γ j ^ 2 := by
    rw [← real_inner_self_eq_norm_sq, he.inner_sum]
    simp [sq]
  rw [norm_sub_sq_real, h1, h2]
  have h3 : 0 ≤ ∑ j, (γ j - ⟪e j, v⟫) ^ 2 := Finset.sum_nonneg fun j _ => sq_nonneg _
  have h4 : ∑ j, (γ j - ⟪e j, v⟫) ^ 2 = ∑ j, γ j ^ 2 - 2 * ∑ j, γ j * ⟪e j, v⟫ + ∑ j, ⟪e j, v⟫ ^ 2 := by
    rw [Finset.mul_sum, ← Finset.sum_sub_distrib, ← Finset.sum_add_distrib]
    exact Finset.sum_congr rfl fun j _ => by ring
  linarith

/-- An orthonormal basis of the span of `m` vectors has at most `m` members. -/
theorem exists_basis {F : Type} [NormedAddCommGroup F] [InnerProductSpace ℝ F] {m : ℕ} (a : Fin m → F) :
    ∃ (n : ℕ) (e : Fin n → F), n ≤ m ∧ Orthonormal ℝ e ∧ ∀ β : Fin m → ℝ, ∃ γ : Fin n → ℝ, ∑ j, β j • a j = ∑ j, γ j • e j := by
  let W := Submodule.span ℝ (Set.range a)
  haveI : FiniteDimensional ℝ W := FiniteDimensional.span_of_finite ℝ (Set.finite_range a)
  let e := stdOrthonormalBasis ℝ W
  refine ⟨Module.finrank ℝ W, fun j => (e j : F), ?_, ?_, fun β => ?_⟩
  · have := finrank_range_le_card (R := ℝ) a
    rwa [Fintype.card_fin] at this
  · exact e.orthonormal.comp_linearIsometry W.subtypeₗᵢ
  · have hmem : ∑ j, β j • a j ∈ W := Submodule.sum_mem _ fun j _ => Submodule.smul_mem _ _ (Submodule.subset_span ⟨j, rfl⟩)
    refine ⟨fun j => ⟪e j, (⟨_, hmem⟩ : W)⟫, ?_⟩
    have := congrArg (Subtype.val) (e.sum_repr' (⟨_, hmem⟩ : W))
    refine (this.symm.trans ?_)
    simp

theorem main {M N r m : ℕ} {U V : ℕ → ℕ → ℝ} {s : ℕ → ℝ} (hU : ∀ z < r, ∀ w < r, ∑ x ∈ Finset.range M, U x z * U x w = if z = w then 1 else 0)
    (hV : ∀ z < r, ∀ w < r, ∑ y ∈ Finset.range N, V z y * V w y = if z = w then 1 else 0) (h0 : ∀ z < r, 0 ≤ s z)
    (hmono : ∀ z z', z ≤ z' → z' < r → s z' ≤ s z) (A B : ℕ → ℕ → ℝ) :
    ∑ z ∈ Finset.Ico (min r m) r, s z ^ 2 ≤ ∑ x ∈ Finset.range M, ∑ y ∈ Finset.range N,
      (∑ z ∈ Finset.range r, U x z * s z * V z y - ∑ j ∈ Finset.range m, A x j * B j y) ^ 2 := by
  let vec : (ℕ → ℝ) → EuclideanSpace ℝ (Fin M) := fun f => WithLp.toLp 2 fun x : Fin M => f x
  have hin : ∀ f g : ℕ → ℝ, ⟪vec f, vec g⟫ = ∑ x ∈ Finset.range M, f x * g x := by
    intro f g
    rw [Finset.sum_range]
    simp [vec, PiLp.inner_apply, mul_comm]
  have hno : ∀ f : ℕ → ℝ, ‖vec f‖ ^ 2 = ∑ x ∈ Finset.range M, f x ^ 2 := by
    intro f
    rw [← real_inner_self_eq_norm_sq, hin]
    exact Finset.sum_congr rfl fun x _ => by ring
  let u : ℕ → EuclideanSpace ℝ (Fin M) := fun z => vec fun x => U x z
  have hu : ∀ z < r, ∀ w < r, ⟪u z, u w⟫ = if z = w then 1 else 0 := fun z hz w hw => (hin _ _).trans (hU z hz w hw)
  have hort : Orthonormal ℝ fun z : Fin r => u z := by
    rw [orthonormal_iff_ite]
    intro z w
    rw [hu z z.2 w w.2]
    simp [Fin.ext_iff]
  obtain ⟨n, e, hn, he, hspan⟩ := exists_basis (m := m) fun j => vec fun x => A x j
  -- the columns
  let E : ℕ → EuclideanSpace ℝ (Fin M) := fun y => vec fun x => ∑ z ∈ Finset.range r, U x z * s z * V z y
  have hE : ∀ y, E y = ∑ z ∈ Finset.range r, (s z * V z y) • u z := by
    intro y
    ext x
    simp only [E, u, vec, WithLp.ofLp_sum, WithLp.ofLp_smul, Finset.sum_apply, Pi.smul_apply, smul_eq_mul]
    exact Finset.sum_congr rfl fun z _ => by ring
  have hcol : ∀ y, ∑ x ∈ Finset.range M, (∑ z ∈ Finset.range r, U x z * s z * V z y - ∑ j ∈ Finset.range m, A x j * B j y) ^ 2 =
      ‖E y - ∑ j : Fin m, B j y • vec fun x => A x j‖ ^ 2 := by
    intro y
    rw [← hno]
    congr 2
    ext x
    simp only [E, vec, WithLp.ofLp_sub, WithLp.ofLp_sum, WithLp.ofLp_smul, Finset.sum_apply, Pi.sub_apply, Pi.smul_apply, smul_eq_mul]
    rw [Finset.sum_range (n := m)]
    congr 1
    exact Finset.sum_congr rfl fun z _ => by ring
  -- sums over the columns
  have hsq : ∀ α : ℕ → ℝ, ∑ y ∈ Finset.range N, (∑ z ∈ Finset.range r, s z * V z y * α z) ^ 2 = ∑ z ∈ Finset.range r, s z ^ 2 * α z ^ 2 := by
    intro α
    have h1 : ∀ y, (∑ z ∈ Finset.range r, s z * V z y * α z) ^ 2 =
        ∑ z ∈ Finset.range r, ∑ w ∈ Finset.range r, s z * α z * (s w * α w) * (V z y * V w y) := by
      intro y
      rw [sq, Finset.sum_mul_sum]
      exact Finset.sum_congr rfl fun z _ => Finset.sum_congr rfl fun w _ => by ring
    simp only [h1]
    rw [Finset.sum_comm]
    refine Finset.sum_congr rfl fun z hz => ?_
    rw [Finset.sum_comm, Finset.sum_congr rfl fun w hw => by
      rw [← Finset.mul_sum, hV z (Finset.mem_range.1 hz) w (Finset.mem_range.1 hw)]]
    rw [Finset.sum_eq_single z]
    · rw [if_pos rfl]; ring
    · intro w _ hne; rw [if_neg (Ne.symm hne), mul_zero]
    · intro h; exact absurd hz h
  have hEn : ∑ y ∈ Finset.range N, ‖E y‖ ^ 2 = ∑ z ∈ Finset.range r, s z ^ 2 := by
    have h1 : ∀ y, ‖E y‖ ^ 2 = ∑ z ∈ Finset.range r, s z ^ 2 * (V z y * V z y) := by
      intro y
      rw [hE, ← real_inner_self_eq_norm_sq, sum_inner]
      refine Finset.sum_congr rfl fun z hz => ?_
      rw [inner_sum, Finset.sum_eq_single z]
      · rw [real_inner_smul_left, real_inner_smul_right, hu z (Finset.mem_range.1 hz) z (Finset.mem_range.1 hz), if_pos rfl]; ring
      · intro w hw hne
        rw [real_inner_smul_left, real_inner_smul_right, hu z (Finset.mem_range.1 hz) w (Finset.mem_range.1 hw), if_neg (Ne.symm hne)]; ring
      · intro h; exact absurd hz h
    simp only [h1]
    rw [Finset.sum_comm]
    refine Finset.sum_congr rfl fun z hz => ?_
    rw [← Finset.mul_sum, hV z (Finset.mem_range.1 hz) z (Finset.mem_range.1 hz), if_pos rfl, mul_one]
  have hEp : ∑ y ∈ Finset.range N, ∑ j, ⟪e j, E y⟫ ^ 2 = ∑ z ∈ Finset.range r, s z ^ 2 * ∑ j, ⟪e j, u z⟫ ^ 2 := by
    rw [Finset.sum_comm]
    simp only [Finset.mul_sum]
    rw [Finset.sum_comm (s := Finset.range r)]
    refine Finset.sum_congr rfl fun j _ => ?_
    rw [← hsq]
    refine Finset.sum_congr rfl fun y _ => ?_
    rw [hE, inner_sum]
    congr 1
    exact Finset.sum_congr rfl fun z _ => by rw [real_inner_smul_right]
  -- the weights
  have w1 : ∀ z < r, ∑ j, ⟪e j, u z⟫ ^ 2 ≤ 1 := by
    intro z hz
    have := he.sum_inner_products_le (x := u z) (s := Finset.univ)
    simp only [Real.norm_eq_abs, sq_abs] at this
    rwa [← real_inner_self_eq_norm_sq, hu z hz z hz, if_pos rfl] at this
  have w2 : ∑ z ∈ Finset.range r, ∑ j, ⟪e j, u z⟫ ^ 2 ≤ m := by
    rw [Finset.sum_comm]
    have h1 : ∀ j, ∑ z ∈ Finset.range r, ⟪e j, u z⟫ ^ 2 ≤ 1 := by
      intro j
      have := hort.sum_inner_products_le (x := e j) (s := Finset.univ)
      simp only [Real.norm_eq_abs, sq_abs] at this
      rw [he.1 j, one_pow] at this
      rw [Finset.sum_range]
      refine le_trans (le_of_eq (Finset.sum_congr rfl fun z _ => by rw [real_inner_comm])) this
    calc ∑ j, ∑ z ∈ Finset.range r, ⟪e j, u z⟫ ^ 2 ≤ ∑ _j : Fin n, (1 : ℝ) := Finset.sum_le_sum fun j _ => h1 j
      _ = n := by simp
      _ ≤ m := by exact_mod_cast hn
  have hw := weights (r := r) (m := m) (q := fun z => s z ^ 2) (w := fun z => ∑ j, ⟪e j, u z⟫ ^ 2) (fun z => sq_nonneg _)
    (fun z z' h h' => by
      have a := h0 z' h'
      have b := hmono z z' h h'
      nlinarith) (fun z _ => Finset.sum_nonneg fun j _ => sq_nonneg _) w1 w2
  have hsum := Finset.sum_range_add_sum_Ico (fun z => s z ^ 2) (min_le_left r m)
  rw [Finset.sum_comm]
  calc ∑ z ∈ Finset.Ico (min r m) r, s z ^ 2 = ∑ z ∈ Finset.range r, s z ^ 2 - ∑ z ∈ Finset.range (min r m), s z ^ 2 := by linarith
    _ ≤ ∑ y ∈ Finset.range N, ‖E y‖ ^ 2 - ∑ y ∈ Finset.range N, ∑ j, ⟪e j, E y⟫ ^ 2 := by rw [hEn, hEp]; linarith
    _ = ∑ y ∈ Finset.range N, (‖E y‖ ^ 2 - ∑ j, ⟪e j, E y⟫ ^ 2) := by rw [Finset.sum_sub_distrib]
    _ ≤ _ := by
      refine Finset.sum_le_sum fun y _ => ?_
      rw [hcol]
      obtain ⟨γ, hγ⟩ := hspan fun j => B j y
      rw [hγ]
      exact dist_ge he _ γ

end EckartYoung
