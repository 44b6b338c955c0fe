import Verif.Lemmas.DmrgForm
import Mathlib.Analysis.Matrix.Spectrum
import Mathlib.Topology.MetricSpace.ProperSpace.Real
import Mathlib.Topology.Algebra.MvPolynomial

/-!
An exact singular value decomposition and an exact eigensolver exist, so the assumptions on the libraries can be met.
-/

open scoped BigOperators
open Py

namespace Dmrg

/-- The singular value decomposition of a wide real matrix. -/
theorem svd_wide {m n : ℕ} (h : m ≤ n) (a : Fin m → Fin n → ℝ) :
    ∃ (U : Fin m → Fin m → ℝ) (S : Fin m → ℝ) (V : Fin m → Fin n → ℝ), (∀ x y, ∑ z, U x z * S z * V z y = a x y) ∧
      (∀ z w, ∑ x, U x z * U x w = if z = w then 1 else 0) ∧ (∀ z w, ∑ y, V z y * V w y = if z = w then 1 else 0) := by
  let A : Matrix (Fin m) (Fin n) ℝ := Matrix.of a
  have hG : (A * A.transpose).IsHermitian := by
    unfold Matrix.IsHermitian
    rw [Matrix.conjTranspose_eq_transpose_of_trivial, Matrix.transpose_mul, Matrix.transpose_transpose]
  let U : Matrix (Fin m) (Fin m) ℝ := hG.eigenvectorUnitary
  have u1 : U.transpose * U = 1 := by
    have := Unitary.coe_star_mul_self hG.eigenvectorUnitary
    simpa [Matrix.star_eq_conjTranspose] using this
  have u2 : U * U.transpose = 1 := by
    have := Unitary.coe_mul_star_self hG.eigenvectorUnitary
    simpa [Matrix.star_eq_conjTranspose] using this
  have hev : ∀ z w, ((A.transpose * U).transpose * (A.transpose * U)) z w = if z = w then hG.eigenvalues z else 0 := by
    intro z w
    have e : (A.transpose * U).transpose * (A.transpose * U) = U.transpose * ((A * A.transpose) * U) := by
      simp [Matrix.transpose_mul, Matrix.mul_assoc]
    have e2 : (A * A.transpose) * U = U * Matrix.diagonal hG.eigenvalues := by
      ext i j
      have := congrFun (hG.mulVec_eigenvectorBasis j) i
      rw [Matrix.mul_diagonal, Matrix.mul_apply]
      simp only [Matrix.mulVec, dotProduct, Pi.smul_apply, smul_eq_mul] at this
      rw [mul_comm]
      exact this
    rw [e, e2, ← Matrix.mul_assoc, u1, Matrix.one_mul, Matrix.diagonal_apply]
  let w : Fin m → EuclideanSpace ℝ (Fin n) := fun z => WithLp.toLp 2 fun y => (A.transpose * U) y z
  have hw : ∀ z w', Inner.inner ℝ (w z) (w w') = if z = w' then hG.eigenvalues z else 0 := by
    intro z w'
    rw [← hev, Matrix.mul_apply, PiLp.inner_apply]
    refine Finset.sum_congr rfl fun y _ => ?_
    simp [w, mul_comm]
  have h0 : ∀ z, hG.eigenvalues z = 0 → w z = 0 := by
    intro z hz
    have := hw z z
    rw [if_pos rfl, hz] at this
    exact inner_self_eq_zero.1 this
  have hpos : ∀ z, 0 ≤ hG.eigenvalues z := by
    intro z
    have := hw z z
    rw [if_pos rfl] at this
    rw [← this]
    exact real_inner_self_nonneg
  let S : Fin m → ℝ := fun z => Real.sqrt (hG.eigenvalues z)
  have hS : ∀ z, S z * S z = hG.eigenvalues z := fun z => Real.mul_self_sqrt (hpos z)
  let v : Fin n → EuclideanSpace ℝ (Fin n) := fun i => if hi : i.1 < m then (S ⟨i, hi⟩)⁻¹ • w ⟨i, hi⟩ else 0
  let s : Set (Fin n) := {i | ∃ hi : i.1 < m, hG.eigenvalues ⟨i, hi⟩ ≠ 0}
  have hv : Orthonormal ℝ (s.domRestrict v) := by
    rw [orthonormal_iff_ite]
    rintro ⟨i, hi, hi'⟩ ⟨j, hj, hj'⟩
    have ev : ∀ (k : Fin n) (hk : k.1 < m), v k = (S ⟨k, hk⟩)⁻¹ • w ⟨k, hk⟩ := fun k hk => dif_pos hk
    rw [Set.domRestrict_apply, Set.domRestrict_apply, ev i hi, ev j hj, inner_smul_left, inner_smul_right, hw]
    by_cases e : i = j
    · subst e
      have hne : S ⟨i, hi⟩ ≠ 0 := fun hc => hi' (by rw [← hS, hc, mul_zero])
      simp only [if_true]
      rw [← hS]
      simp only [conj_trivial]
      field_simp
    · rw [if_neg (fun hc => e (Fin.ext (Fin.mk.inj_iff.1 hc))), if_neg (fun hc => e (Subtype.mk.inj hc))]
      simp
  obtain ⟨b, hb⟩ := hv.exists_orthonormalBasis_extension_of_card_eq (by simp)
  have hbw : ∀ (z : Fin m), w z = S z • b (Fin.castLE h z) := by
    intro z
    by_cases hz : hG.eigenvalues z = 0
    · rw [h0 z hz]
      have : S z = 0 := by simp [S, hz]
      rw [this, zero_smul]
    · rw [hb (Fin.castLE h z) ⟨z.2, hz⟩]
      have hne : S z ≠ 0 := fun hc => hz (by rw [← hS, hc, mul_zero])
      have e : v (Fin.castLE h z) = (S z)⁻¹ • w z := by
        simp only [v]
        rw [dif_pos (show (Fin.castLE h z).1 < m from z.2)]
        rfl
      rw [e, smul_smul, mul_inv_cancel₀ hne, one_smul]
  refine ⟨U, S, fun z y => b (Fin.castLE h z) y, fun x y => ?_, fun z w' => ?_, fun z w' => ?_⟩
  · have e1 : ∀ z, S z * b (Fin.castLE h z) y = (A.transpose * U) y z := by
      intro z
      have := congrArg (fun t : EuclideanSpace ℝ (Fin n) => t y) (hbw z)
      simp only [PiLp.smul_apply, smul_eq_mul] at this
      exact this.symm
    have e2 : A = U * (U.transpose * A) := by rw [← Matrix.mul_assoc, u2, Matrix.one_mul]
    have e3 : a x y = (U * (U.transpose * A)) x y := by rw [← e2]; rfl
    rw [e3, Matrix.mul_apply]
    refine Finset.sum_congr rfl fun z _ => ?_
    rw [mul_assoc, e1]
    congr 1
    rw [Matrix.mul_apply, Matrix.mul_apply]
    exact Finset.sum_congr rfl fun k _ => mul_comm _ _
  · have := congrFun (congrFun u1 z) w'
    rw [Matrix.mul_apply, Matrix.one_apply] at this
    exact this
  · have := (orthonormal_iff_ite.1 b.orthonormal) (Fin.castLE h z) (Fin.castLE h w')
    rw [PiLp.inner_apply] at this
    simp only [Fin.castLE_inj] at this
    rw [← this]
    refine Finset.sum_congr rfl fun y _ => ?_
    simp [mul_comm]

/-- Every real matrix. -/
theorem svd_any (m n : ℕ) (a : ℕ → ℕ → ℝ) :
    ∃ (U : ℕ → ℕ → ℝ) (S : ℕ → ℝ) (V : ℕ → ℕ → ℝ),
      (∀ x < m, ∀ y < n, ∑ z ∈ Finset.range (min m n), U x z * S z * V z y = a x y) ∧
      (∀ z < min m n, ∀ w < min m n, ∑ x ∈ Finset.range m, U x z * U x w = if z = w then 1 else 0) ∧
      (∀ z < min m n, ∀ w < min m n, ∑ y ∈ Finset.range n, V z y * V w y = if z = w then 1 else 0) := by
  have wide : ∀ m n : ℕ, m ≤ n → ∀ a : ℕ → ℕ → ℝ, ∃ (U : ℕ → ℕ → ℝ) (S : ℕ → ℝ) (V : ℕ → ℕ → ℝ),
      (∀ x < m, ∀ y < n, ∑ z ∈ Finset.range m, U x z * S z * V z y = a x y) ∧
      (∀ z < m, ∀ w < m, ∑ x ∈ Finset.range m, U x z * U x w = if z = w then 1 else 0) ∧
      (∀ z < m, ∀ w < m, ∑ y ∈ Finset.range n, V z y * V w y = if z = w then 1 else 0) := by
    intro m n h a
    obtain ⟨U, S, V, h1, h2, h3⟩ := svd_wide h fun x y => a x y
    refine ⟨fun x z => if h : x < m ∧ z < m then U ⟨x, h.1⟩ ⟨z, h.2⟩ else 0, fun z => if h : z < m then S ⟨z, h⟩ else 0,
      fun z y => if h : z < m ∧ y < n then V ⟨z, h.1⟩ ⟨y, h.2⟩ else 0, fun x hx y hy => ?_, fun z hz w hw => ?_, fun z hz w hw => ?_⟩
    · rw [← h1 ⟨x, hx⟩ ⟨y, hy⟩, Finset.sum_range]
      refine Finset.sum_congr rfl fun z _ => ?_
      simp [hx, hy]
    · have := h2 ⟨z, hz⟩ ⟨w, hw⟩
      simp only [Fin.mk.injEq] at this
      rw [← this, Finset.sum_range]
      refine Finset.sum_congr rfl fun x _ => ?_
      simp [hz, hw]
    · have := h3 ⟨z, hz⟩ ⟨w, hw⟩
      simp only [Fin.mk.injEq] at this
      rw [← this, Finset.sum_range]
      refine Finset.sum_congr rfl fun x _ => ?_
      simp [hz, hw]
  rcases Nat.le_total m n with h | h
  · rw [min_eq_left h]; exact wide m n h a
  · rw [min_eq_right h]
    obtain ⟨U, S, V, h1, h2, h3⟩ := wide n m h fun x y => a y x
    refine ⟨fun x z => V z x, S, fun z y => U y z, fun x hx y hy => ?_, h3, h2⟩
    rw [← h1 y hy x hx]
    exact Finset.sum_congr rfl fun z _ => by ring

/-- There is an exact decomposition. -/
theorem exists_svd : ∃ svd : SvdFn ℝ, SvdShape svd ∧ SvdExact svd ∧ SvdIso svd := by
  choose U S V h1 h2 h3 using svd_any
  let svd : SvdFn ℝ := fun a =>
    let m := a.dim 0
    let n := a.dim 1
    let f : ℕ → ℕ → ℝ := fun x y => a.get [x, y]
    (Nd.ofFn [m, min m n] fun p => U m n f (p.getD 0 0) (p.getD 1 0), (List.range (min m n)).map (S m n f),
      Nd.ofFn [min m n, n] fun p => V m n f (p.getD 0 0) (p.getD 1 0))
  have dims : ∀ {a : Nd ℝ} {m n : ℕ}, a.shape = [m, n] → a.dim 0 = m ∧ a.dim 1 = n := by
    intro a m n h
    simp [Nd.dim, h]
  have gU : ∀ {a : Nd ℝ} {m n : ℕ}, a.shape = [m, n] → ∀ x < m, ∀ z < min m n,
      (svd a).1.get [x, z] = U m n (fun x y => a.get [x, y]) x z := by
    intro a m n ha x hx z hz
    obtain ⟨d0, d1⟩ := dims ha
    simp only [svd, d0, d1]
    rw [Nd.get_ofFn _ (valid2 hx hz)]
    rfl
  have gV : ∀ {a : Nd ℝ} {m n : ℕ}, a.shape = [m, n] → ∀ z < min m n, ∀ y < n,
      (svd a).2.2.get [z, y] = V m n (fun x y => a.get [x, y]) z y := by
    intro a m n ha x hx z hz
    obtain ⟨d0, d1⟩ := dims ha
    simp only [svd, d0, d1]
    rw [Nd.get_ofFn _ (valid2 hx hz)]
    rfl
  refine ⟨svd, fun a m n _ ha => ?_, fun a m n _ ha x hx y hy => ?_, fun a m n _ ha z hz w hw => ⟨?_, ?_⟩⟩
  · obtain ⟨d0, d1⟩ := dims ha
    simp [svd, d0, d1, Nd.ofFn_wf]
  · rw [← h1 m n (fun x y => a.get [x, y]) x hx y hy]
    refine Finset.sum_congr rfl fun z hz => ?_
    have hz' := Finset.mem_range.1 hz
    rw [gU ha x hx z hz', gV ha z hz' y hy]
    obtain ⟨d0, d1⟩ := dims ha
    have : (svd a).2.1.getD z 0 = S m n (fun x y => a.get [x, y]) z := by
      simp [svd, d0, d1, List.getD_eq_getElem?_getD, lt_min_iff.1 hz']
    rw [this]
  · rw [← h2 m n (fun x y => a.get [x, y]) z hz w hw]
    refine Finset.sum_congr rfl fun x hx => ?_
    rw [gU ha x (Finset.mem_range.1 hx) z hz, gU ha x (Finset.mem_range.1 hx) w hw]
  · rw [← h3 m n (fun x y => a.get [x, y]) z hz w hw]
    refine Finset.sum_congr rfl fun x hx => ?_
    rw [gV ha z hz x (Finset.mem_range.1 hx), gV ha w hw x (Finset.mem_range.1 hx)]

theorem continuous_sumIdx {X : Type} [TopologicalSpace X] : ∀ (sh : List ℕ) {f : X → List ℕ → ℝ}, (∀ p, Continuous fun x => f x p) →
    Continuous fun x => sumIdx sh (f x)
  | [], _, h => h []
  | d :: sh, _, h => by
    simp only [sumIdx_cons]
    exact continuous_finsetSum _ fun k _ => continuous_sumIdx sh fun p => h (k :: p)

/-- The vector of the numbers `x`. -/
def vec {n : ℕ} (x : Fin n → ℝ) : Nd ℝ := ⟨[n], List.ofFn x⟩

theorem vec_isVec {n : ℕ} (x : Fin n → ℝ) : IsVec n (vec x) := ⟨by simp [vec, Nd.Wf], rfl⟩

theorem vec_surj {n : ℕ} {u : Nd ℝ} (h : IsVec n u) : ∃ x : Fin n → ℝ, vec x = u := by
  obtain ⟨hw, hs⟩ := h
  have hl : u.data.length = n := by rw [hw, hs]; simp
  cases u with
  | mk sh data =>
    simp only at hl hs
    subst hl
    exact ⟨data.get, by rw [vec, hs, List.ofFn_get]⟩

theorem inner_vec {n : ℕ} (x y : Fin n → ℝ) : inner (vec x) (vec y) = ∑ i, x i * y i := by
  unfold inner
  have : (vec x).data.length = n := by simp [vec]
  rw [this, Finset.sum_range]
  refine Finset.sum_congr rfl fun i _ => ?_
  simp [vec, List.getD_eq_getElem?_getD]

theorem continuous_getD {n : ℕ} (k : ℕ) : Continuous fun x : Fin n → ℝ => (List.ofFn x).getD k 0 := by
  by_cases h : k < n
  · have : (fun x : Fin n → ℝ => (List.ofFn x).getD k 0) = fun x => x ⟨k, h⟩ := by
      funext x; simp [List.getD_eq_getElem?_getD, h]
    rw [this]
    exact continuous_apply _
  · have : (fun x : Fin n → ℝ => (List.ofFn x).getD k 0) = fun _ => 0 := by
      funext x; simp [List.getD_eq_getElem?_getD, h]
    rw [this]
    exact continuous_const

/-- A unit vector with the least Rayleigh quotient. -/
theorem exists_ground {L W Rt : Nd ℝ} {d l r : ℕ} (h : EnvShape L W Rt d l r) (hpos : 0 < d * l * r) :
    ∃ e, IsVec (d * l * r) e ∧ inner e e = 1 ∧ ∀ u, IsVec (d * l * r) u → inner u u = 1 → effective L W Rt e e ≤ effective L W Rt u u := by
  obtain ⟨a, b, hL, hW, hR⟩ := h
  have hc : Continuous fun x : Fin (d * l * r) → ℝ => effective L W Rt (vec x) (vec x) := by
    have : (fun x : Fin (d * l * r) → ℝ => effective L W Rt (vec x) (vec x)) =
        fun x => form a b d l r L W Rt ⟨[d, l, r], List.ofFn x⟩ ⟨[d, l, r], List.ofFn x⟩ := by
      funext x
      rw [effective_eq hL hW hR (vec_isVec x) (vec_isVec x)]
      rfl
    rw [this]
    unfold form site
    have hget : ∀ q, Continuous fun x : Fin (d * l * r) → ℝ => (⟨[d, l, r], List.ofFn x⟩ : Nd ℝ).get q := fun q => by
      unfold Nd.get; exact continuous_getD (ravel [d, l, r] q)
    refine continuous_sumIdx _ fun p => continuous_sumIdx _ fun q => ?_
    refine (continuous_const.mul ?_).mul continuous_const
    refine continuous_finsetSum _ fun s _ => continuous_finsetSum _ fun t _ => ?_
    exact ((hget _).mul continuous_const).mul (hget _)
  let K : Set (Fin (d * l * r) → ℝ) := {x | ∑ i, x i * x i = 1}
  have hK : IsCompact K := by
    refine Metric.isCompact_of_isClosed_isBounded ?_ ?_
    · exact isClosed_eq (continuous_finsetSum _ fun i _ => (continuous_apply i).mul (continuous_apply i)) continuous_const
    · refine (Metric.isBounded_iff_subset_closedBall 0).2 ⟨1, fun x hx => ?_⟩
      rw [Metric.mem_closedBall, dist_pi_le_iff (by norm_num)]
      intro i
      have h1 : x i * x i ≤ 1 := by
        rw [← show ∑ i, x i * x i = 1 from hx]
        exact Finset.single_le_sum (f := fun i => x i * x i) (fun j _ => mul_self_nonneg _) (Finset.mem_univ i)
      rw [Pi.zero_apply, Real.dist_eq, sub_zero]
      exact abs_le_of_sq_le_sq' (by nlinarith) (by norm_num) |> abs_le.2
  have hne : K.Nonempty := by
    refine ⟨fun i => if i = ⟨0, hpos⟩ then 1 else 0, ?_⟩
    simp [K]
  obtain ⟨x, hx, hmin⟩ := hK.exists_isMinOn hne hc.continuousOn
  refine ⟨vec x, vec_isVec x, by rw [inner_vec]; exact hx, fun u hu hn => ?_⟩
  obtain ⟨y, rfl⟩ := vec_surj hu
  exact hmin (show y ∈ K by rw [inner_vec] at hn; exact hn)

/-- There is an exact eigensolver. -/
theorem exists_eig : ∃ eig : EigFn ℝ, EigSize eig ∧ EigGround eig := by
  have key : ∀ L W Rt v : Nd ℝ, ∃ e : Nd ℝ, (e.Wf ∧ e.shape.prod = v.shape.prod) ∧
      ∀ d l r, EnvShape L W Rt d l r → 0 < d * l * r → IsVec (d * l * r) v → IsVec (d * l * r) e ∧ inner e e = 1 ∧
        ∀ u, IsVec (d * l * r) u → inner u u = 1 → effective L W Rt e e ≤ effective L W Rt u u := by
    intro L W Rt v
    by_cases h : ∃ d l r, EnvShape L W Rt d l r ∧ 0 < d * l * r ∧ IsVec (d * l * r) v
    · obtain ⟨d, l, r, hE, hp, hv⟩ := h
      obtain ⟨e, h1, h2, h3⟩ := exists_ground hE hp
      refine ⟨e, ⟨h1.1, by rw [h1.2, hv.2]⟩, fun d' l' r' _ _ hv' => ?_⟩
      have : d' * l' * r' = d * l * r := by
        have := hv'.2.symm.trans hv.2
        simpa using this
      rw [this]
      exact ⟨h1, h2, h3⟩
    · exact ⟨Nd.ofFn v.shape fun _ => 0, ⟨Nd.ofFn_wf _ _, by simp⟩, fun d l r h1 h2 h3 => (h ⟨d, l, r, h1, h2, h3⟩).elim⟩
  choose eig h1 h2 using key
  exact ⟨eig, h1, fun L W Rt v d l r hE hp hv _ => h2 L W Rt v d l r hE hp hv⟩

end Dmrg
