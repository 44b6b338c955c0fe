import Verif.Lemmas.EckartYoung

/-!
The theorem of Eckart and Young for real or complex matrices.
-/

open scoped BigOperators ComplexConjugate

namespace EckartYoung

variable {𝕜 : Type} [RCLike 𝕜]

local notation "⟪" x ", " y "⟫" => Inner.inner 𝕜 x y

theorem dist_geC {F : Type} [NormedAddCommGroup F] [InnerProductSpace 𝕜 F] {n : ℕ} {e : Fin n → F} (he : Orthonormal 𝕜 e) (v : F) (γ : Fin n → 𝕜) :
    ‖v‖ ^ 2 - ∑ j, ‖⟪e j, v⟫‖ ^ 2 ≤ ‖v - ∑ j, γ j • e j‖ ^ 2 := by
  have h1 : RCLike.re ⟪v, ∑ j, γ j • e j⟫ = ∑ j, RCLike.re ⟪⟪e j, v⟫, γ j⟫ := by
    rw [inner_sum, map_sum]
    refine Finset.sum_congr rfl fun j _ => ?_
    rw [inner_smul_right, ← inner_conj_symm v (e j)]
    rfl
  have h2 : ‖∑ j, γ j • e j‖ ^ 2 = ∑ j, ‖γ j‖ ^ 2 := by
    have h : ((‖∑ j, γ j • e j‖ ^ 2 : ℝ) : 𝕜) = ((∑ j, ‖γ j‖ ^ 2 : ℝ) : 𝕜) := by
      have := inner_self_eq_norm_sq_to_K (𝕜 := 𝕜) (∑ j, γ j • e j)
      rw [he.inner_sum] at this
      push_cast
      refine this.symm.trans (Finset.sum_congr rfl fun j _ => ?_)
      exact RCLike.conj_mul (γ j)
    exact_mod_cast h
  rw [norm_sub_sq (𝕜 := 𝕜), h2]
  have h1' : RCLike.re ⟪v, ∑ j, γ j • e j⟫ = ∑ j, RCLike.re ⟪⟪e j, v⟫, γ j⟫ := h1
  rw [h1']
  have h3 : 0 ≤ ∑ j, ‖⟪e j, v⟫ - γ j‖ ^ 2 := Finset.sum_nonneg fun j _ => sq_nonneg _
  have h4 : ∑ j, ‖⟪e j, v⟫ - γ j‖ ^ 2 = ∑ j, ‖⟪e j, v⟫‖ ^ 2 - 2 * ∑ j, RCLike.re ⟪⟪e j, v⟫, γ j⟫ + ∑ j, ‖γ j‖ ^ 2 := by
    rw [Finset.mul_sum, ← Finset.sum_sub_distrib, ← Finset.sum_add_distrib]
    exact Finset.sum_congr rfl fun j _ => norm_sub_sq (𝕜 := 𝕜) _ _
  linarith

theorem exists_basisC {F : Type} [NormedAddCommGroup F] [InnerProductSpace 𝕜 F] {m : ℕ} (a : Fin m → F) :
    ∃ (n : ℕ) (e : Fin n → F), n ≤ m ∧ Orthonormal 𝕜 e ∧ ∀ β : Fin m → 𝕜, ∃ γ : Fin n → 𝕜, ∑ j, β j • a j = ∑ j, γ j • e j := by
  let W := Submodule.span 𝕜 (Set.range a)
  haveI : FiniteDimensional 𝕜 W := FiniteDimensional.span_of_finite 𝕜 (Set.finite_range a)
  let e := stdOrthonormalBasis 𝕜 W
  refine ⟨Module.finrank 𝕜 W, fun j => (e j : F), ?_, ?_, fun β => ?_⟩
  · have := finrank_range_le_card (R := 𝕜) a
    rwa [Fintype.card_fin] at this
  · exact e.orthonormal.comp_linearIsometry W.subtypeₗᵢ
  · have hmem : ∑ j, β j • a j ∈ W := Submodule.sum_mem _ fun j _ => Submodule.smul_mem _ _ (Submodule.subset_span ⟨j, rfl⟩)
    refine ⟨fun j => ⟪e j, (⟨_, hmem⟩ : W)⟫, ?_⟩
    have := congrArg (Subtype.val) (e.sum_repr' (⟨_, hmem⟩ : W))
    refine (this.symm.trans ?_)
    simp

theorem mainC {M N r m : ℕ} {U V : ℕ → ℕ → 𝕜} {s : ℕ → ℝ}
    (hU : ∀ z < r, ∀ w < r, ∑ x ∈ Finset.range M, U x z * conj (U x w) = if z = w then 1 else 0)
    (hV : ∀ z < r, ∀ w < r, ∑ y ∈ Finset.range N, V z y * conj (V w y) = if z = w then 1 else 0) (h0 : ∀ z < r, 0 ≤ s z)
    (hmono : ∀ z z', z ≤ z' → z' < r → s z' ≤ s z) (A B : ℕ → ℕ → 𝕜) :
    ∑ z ∈ Finset.Ico (min r m) r, s z ^ 2 ≤ ∑ x ∈ Finset.range M, ∑ y ∈ Finset.range N,
      ‖∑ z ∈ Finset.range r, U x z * (s z : 𝕜) * V z y - ∑ j ∈ Finset.range m, A x j * B j y‖ ^ 2 := by
  let vec : (ℕ → 𝕜) → EuclideanSpace 𝕜 (Fin M) := fun f => WithLp.toLp 2 fun x : Fin M => f x
  have hin : ∀ f g : ℕ → 𝕜, ⟪vec f, vec g⟫ = ∑ x ∈ Finset.range M, g x * conj (f x) := by
    intro f g
    rw [Finset.sum_range]
    simp [vec, PiLp.inner_apply]
  have hno : ∀ f : ℕ → 𝕜, ‖vec f‖ ^ 2 = ∑ x ∈ Finset.range M, ‖f x‖ ^ 2 := by
    intro f
    rw [EuclideanSpace.norm_sq_eq, Finset.sum_range]
  let u : ℕ → EuclideanSpace 𝕜 (Fin M) := fun z => vec fun x => U x z
  have hu : ∀ z < r, ∀ w < r, ⟪u z, u w⟫ = if z = w then 1 else 0 := fun z hz w hw => by
    have h := hin (fun x => U x z) fun x => U x w
    rw [hU w hw z hz] at h
    exact h.trans (by simp only [eq_comm])
  have hort : Orthonormal 𝕜 fun z : Fin r => u z := by
    rw [orthonormal_iff_ite]
    intro z w
    rw [hu z z.2 w w.2]
    simp [Fin.ext_iff]
  obtain ⟨n, e, hn, he, hspan⟩ := exists_basisC (𝕜 := 𝕜) (m := m) fun j => vec fun x => A x j
  -- the columns
  let E : ℕ → EuclideanSpace 𝕜 (Fin M) := fun y => vec fun x => ∑ z ∈ Finset.range r, U x z * (s z : 𝕜) * V z y
  have hE : ∀ y, E y = ∑ z ∈ Finset.range r, ((s z : 𝕜) * V z y) • u z := by
    intro y
    ext x
    simp only [E, u, vec, WithLp.ofLp_sum, WithLp.ofLp_smul, Finset.sum_apply, Pi.smul_apply, smul_eq_mul]
    exact Finset.sum_congr rfl fun z _ => by ring
  have hcol : ∀ y, ∑ x ∈ Finset.range M, ‖∑ z ∈ Finset.range r, U x z * (s z : 𝕜) * V z y - ∑ j ∈ Finset.range m, A x j * B j y‖ ^ 2 =
      ‖E y - ∑ j : Fin m, B j y • vec fun x => A x j‖ ^ 2 := by
    intro y
    rw [← hno]
    congr 2
    ext x
    simp only [E, vec, WithLp.ofLp_sub, WithLp.ofLp_sum, WithLp.ofLp_smul, Finset.sum_apply, Pi.sub_apply, Pi.smul_apply, smul_eq_mul]
    rw [Finset.sum_range (n := m)]
    congr 1
    exact Finset.sum_congr rfl fun z _ => by ring
  -- sums over the columns
  have hsq : ∀ α : ℕ → 𝕜, ∑ y ∈ Finset.range N, ‖∑ z ∈ Finset.range r, (s z : 𝕜) * V z y * α z‖ ^ 2 = ∑ z ∈ Finset.range r, s z ^ 2 * ‖α z‖ ^ 2 := by
    intro α
    have h1 : ∀ y, ((‖∑ z ∈ Finset.range r, (s z : 𝕜) * V z y * α z‖ : ℝ) : 𝕜) ^ 2 =
        ∑ z ∈ Finset.range r, ∑ w ∈ Finset.range r, (s z : 𝕜) * α z * ((s w : 𝕜) * conj (α w)) * (V z y * conj (V w y)) := by
      intro y
      rw [← RCLike.mul_conj, map_sum, Finset.sum_mul_sum]
      refine Finset.sum_congr rfl fun z _ => Finset.sum_congr rfl fun w _ => ?_
      rw [map_mul, map_mul, RCLike.conj_ofReal]
      ring
    have h2 : ((∑ y ∈ Finset.range N, ‖∑ z ∈ Finset.range r, (s z : 𝕜) * V z y * α z‖ ^ 2 : ℝ) : 𝕜) =
        ((∑ z ∈ Finset.range r, s z ^ 2 * ‖α z‖ ^ 2 : ℝ) : 𝕜) := by
      push_cast
      simp only [h1]
      rw [Finset.sum_comm]
      refine Finset.sum_congr rfl fun z hz => ?_
      rw [Finset.sum_comm, Finset.sum_congr rfl fun w hw => by
        rw [← Finset.mul_sum, hV z (Finset.mem_range.1 hz) w (Finset.mem_range.1 hw)]]
      rw [Finset.sum_eq_single z]
      · rw [if_pos rfl, ← RCLike.mul_conj]; ring
      · intro w _ hne; rw [if_neg (Ne.symm hne), mul_zero]
      · intro h; exact absurd hz h
    exact_mod_cast h2
  have hEn : ∑ y ∈ Finset.range N, ‖E y‖ ^ 2 = ∑ z ∈ Finset.range r, s z ^ 2 := by
    have h1 : ∀ y, ((‖E y‖ ^ 2 : ℝ) : 𝕜) = ∑ z ∈ Finset.range r, (s z : 𝕜) ^ 2 * (V z y * conj (V z y)) := by
      intro y
      have h := inner_self_eq_norm_sq_to_K (𝕜 := 𝕜) (E y)
      push_cast
      refine h.symm.trans ?_
      rw [hE, sum_inner]
      refine Finset.sum_congr rfl fun z hz => ?_
      rw [inner_sum, Finset.sum_eq_single z]
      · rw [inner_smul_left, inner_smul_right, hu z (Finset.mem_range.1 hz) z (Finset.mem_range.1 hz), if_pos rfl, map_mul, RCLike.conj_ofReal]; ring
      · intro w hw hne
        rw [inner_smul_left, inner_smul_right, hu z (Finset.mem_range.1 hz) w (Finset.mem_range.1 hw), if_neg (Ne.symm hne)]; ring
      · intro h; exact absurd hz h
    have h2 : ((∑ y ∈ Finset.range N, ‖E y‖ ^ 2 : ℝ) : 𝕜) = ((∑ z ∈ Finset.range r, s z ^ 2 : ℝ) : 𝕜) := by
      rw [RCLike.ofReal_sum, Finset.sum_congr rfl fun y _ => h1 y, Finset.sum_comm, RCLike.ofReal_sum]
      refine Finset.sum_congr rfl fun z hz => ?_
      rw [← Finset.mul_sum, hV z (Finset.mem_range.1 hz) z (Finset.mem_range.1 hz), if_pos rfl, mul_one]
      push_cast
      rfl
    exact_mod_cast h2
  have hEp : ∑ y ∈ Finset.range N, ∑ j, ‖⟪e j, E y⟫‖ ^ 2 = ∑ z ∈ Finset.range r, s z ^ 2 * ∑ j, ‖⟪e j, u z⟫‖ ^ 2 := by
    rw [Finset.sum_comm]
    simp only [Finset.mul_sum]
    rw [Finset.sum_comm (s := Finset.range r)]
    refine Finset.sum_congr rfl fun j _ => ?_
    rw [← hsq]
    refine Finset.sum_congr rfl fun y _ => ?_
    rw [hE, inner_sum]
    congr 2
    exact Finset.sum_congr rfl fun z _ => by rw [inner_smul_right]
  -- the weights
  have w1 : ∀ z < r, ∑ j, ‖⟪e j, u z⟫‖ ^ 2 ≤ 1 := by
    intro z hz
    have := he.sum_inner_products_le (x := u z) (s := Finset.univ)
    have hn1 : ‖u z‖ = 1 := hort.1 ⟨z, hz⟩
    rwa [hn1, one_pow] at this
  have w2 : ∑ z ∈ Finset.range r, ∑ j, ‖⟪e j, u z⟫‖ ^ 2 ≤ m := by
    rw [Finset.sum_comm]
    have h1 : ∀ j, ∑ z ∈ Finset.range r, ‖⟪e j, u z⟫‖ ^ 2 ≤ 1 := by
      intro j
      have := hort.sum_inner_products_le (x := e j) (s := Finset.univ)
      rw [he.1 j, one_pow] at this
      rw [Finset.sum_range]
      refine le_trans (le_of_eq (Finset.sum_congr rfl fun z _ => by rw [norm_inner_symm])) this
    calc ∑ j, ∑ z ∈ Finset.range r, ‖⟪e j, u z⟫‖ ^ 2 ≤ ∑ _j : Fin n, (1 : ℝ) := Finset.sum_le_sum fun j _ => h1 j
      _ = n := by simp
      _ ≤ m := by exact_mod_cast hn
  have hw := weights (r := r) (m := m) (q := fun z => s z ^ 2) (w := fun z => ∑ j, ‖⟪e j, u z⟫‖ ^ 2) (fun z => sq_nonneg _)
    (fun z z' h h' => by
      have a := h0 z' h'
      have b := hmono z z' h h'
      nlinarith) (fun z _ => Finset.sum_nonneg fun j _ => sq_nonneg _) w1 w2
  have hsum := Finset.sum_range_add_sum_Ico (fun z => s z ^ 2) (min_le_left r m)
  rw [Finset.sum_comm]
  calc ∑ z ∈ Finset.Ico (min r m) r, s z ^ 2 = ∑ z ∈ Finset.range r, s z ^ 2 - ∑ z ∈ Finset.range (min r m), s z ^ 2 := by linarith
    _ ≤ ∑ y ∈ Finset.range N, ‖E y‖ ^ 2 - ∑ y ∈ Finset.range N, ∑ j, ‖⟪e j, E y⟫‖ ^ 2 := by rw [hEn, hEp]; linarith
    _ = ∑ y ∈ Finset.range N, (‖E y‖ ^ 2 - ∑ j, ‖⟪e j, E y⟫‖ ^ 2) := by rw [Finset.sum_sub_distrib]
    _ ≤ _ := by
      refine Finset.sum_le_sum fun y _ => ?_
      rw [hcol]
      obtain ⟨γ, hγ⟩ := hspan fun j => B j y
      rw [hγ]
      exact dist_geC he _ γ

end EckartYoung
