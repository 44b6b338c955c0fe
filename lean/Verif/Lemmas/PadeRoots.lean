import Verif.Lemmas.Continuant
import Mathlib.Data.List.Sort
import Mathlib.Analysis.Complex.Basic
import Mathlib.LinearAlgebra.Lagrange
import Mathlib.LinearAlgebra.Matrix.Charpoly.Coeff
import Mathlib.Analysis.Complex.Polynomial.Basic
import Mathlib.Algebra.Polynomial.FieldDivision

/-!
The roots of the characteristic polynomials of symmetric tridiagonal matrices with zero diagonal, and partial fractions.
-/

open scoped BigOperators
open Polynomial

namespace Pade

/-- The monic polynomial with the roots in the list. -/
noncomputable def fromRoots (L : List ℝ) : ℝ[X] := (L.map fun x => X - C x).prod

theorem roots_fromRoots (L : List ℝ) : (fromRoots L).roots = (L : Multiset ℝ) := by
  unfold fromRoots
  rw [← Multiset.prod_coe, ← Multiset.map_coe, roots_multiset_prod_X_sub_C]

theorem fromRoots_ne (L : List ℝ) : fromRoots L ≠ 0 := by
  unfold fromRoots
  rw [← Multiset.prod_coe, ← Multiset.map_coe]
  exact (monic_multiset_prod_of_monic _ _ fun x _ => monic_X_sub_C x).ne_zero

theorem natDegree_fromRoots (L : List ℝ) : (fromRoots L).natDegree = L.length := by
  unfold fromRoots
  rw [← Multiset.prod_coe, ← Multiset.map_coe, natDegree_multiset_prod_X_sub_C_eq_card]
  simp

theorem fromRoots_perm {L L' : List ℝ} (h : fromRoots L = fromRoots L') : L.Perm L' := by
  have := congrArg roots h
  rw [roots_fromRoots, roots_fromRoots] at this
  exact Multiset.coe_eq_coe.1 this

theorem eval_fromRoots {K : Type*} [Field K] [Algebra ℝ K] (x : K) : ∀ L : List ℝ, aeval x (fromRoots L) = (L.map fun a => x - algebraMap ℝ K a).prod
  | [] => by simp [fromRoots]
  | a :: L => by
    have := eval_fromRoots x L
    unfold fromRoots at this ⊢
    simp [this]

theorem eval_neg_list (x : ℝ) : ∀ L : List ℝ, (L.map fun a => x - -a).prod = (-1) ^ L.length * (L.map fun a => -x - a).prod
  | [] => by simp
  | a :: L => by
    simp only [List.map_cons, List.prod_cons, List.length_cons, pow_succ, eval_neg_list x L]
    ring

theorem length_of_jac {m : ℕ} {a : ℕ → ℝ} {L : List ℝ} (hL : fromRoots L = jac m a) : L.length = m := by
  have h1 := natDegree_fromRoots L
  rw [hL, ← charpoly_jacobi, Matrix.charpoly_natDegree_eq_dim, Fintype.card_fin] at h1
  exact h1.symm

/-- The list of the roots is symmetric. -/
theorem symm {m : ℕ} {a : ℕ → ℝ} {L : List ℝ} (hL : fromRoots L = jac m a) (hs : L.Pairwise (· ≥ ·)) : L = (L.map (- ·)).reverse := by
  have hlen := length_of_jac hL
  have hp : fromRoots (L.map (- ·)).reverse = fromRoots L := by
    apply Polynomial.funext
    intro x
    have e1 := eval_fromRoots (K := ℝ) x (L.map (- ·)).reverse
    have e2 := eval_fromRoots (K := ℝ) (-x) L
    have e3 := jac_neg m a x
    simp only [coe_aeval_eq_eval, Algebra.algebraMap_self, RingHom.id_apply] at e1 e2
    rw [e1, List.map_reverse, List.prod_reverse, List.map_map]
    change (L.map fun a => x - -a).prod = _
    rw [eval_neg_list, ← e2, hL, e3, ← mul_assoc, hlen, ← mul_pow]
    simp
  have := fromRoots_perm hp
  refine List.Perm.eq_of_pairwise (le := (· ≥ ·)) (fun a b _ _ h1 h2 => le_antisymm h2 h1) hs ?_ this.symm
  rw [List.pairwise_reverse, List.pairwise_map]
  exact hs.imp fun h => neg_le_neg h

theorem jac_nodup {m : ℕ} {a : ℕ → ℝ} (ha : ∀ i, a i ≠ 0) {L : List ℝ} (hL : fromRoots L = jac m a) : L.Nodup := by
  have h := roots_fromRoots L
  have : (fromRoots L).roots.Nodup := by
    rw [Multiset.nodup_iff_count_le_one]
    intro x
    rw [count_roots]
    by_contra hc
    have hc : 1 < rootMultiplicity x (fromRoots L) := not_le.1 hc
    rw [one_lt_rootMultiplicity_iff_isRoot (fromRoots_ne L), hL] at hc
    obtain ⟨h1, h2⟩ := hc
    rcases m with _ | m
    · simp [jac] at h1
    · have := jac_wronskian m ha x
      rw [show eval x (jac (m + 1) a) = 0 from h1, show eval x (derivative (jac (m + 1) a)) = 0 from h2] at this
      simp at this
  rw [h] at this
  exact Multiset.coe_nodup.1 this

/-- The first half of a symmetric list without repetitions is positive. -/
theorem take_pos {L : List ℝ} (hs : L.Pairwise (· ≥ ·)) (hn : L.Nodup) (hL : L = (L.map (- ·)).reverse) {n : ℕ} (h : 2 * n ≤ L.length) :
    ∀ x ∈ L.take n, 0 < x := by
  intro x hx
  obtain ⟨i, hi, rfl⟩ := List.mem_iff_getElem.1 hx
  rw [List.length_take] at hi
  have hi1 : i < L.length := by omega
  have hi2 : L.length - 1 - i < L.length := by omega
  rw [List.getElem_take]
  have e : L[i] = -L[L.length - 1 - i] := by
    have : L[i]? = ((L.map (- ·)).reverse)[i]? := by rw [← hL]
    rw [List.getElem?_reverse (by simpa using hi1)] at this
    simp only [List.length_map, List.getElem?_map] at this
    rw [List.getElem?_eq_getElem hi1, List.getElem?_eq_getElem hi2] at this
    simpa using this
  have h1 : L[i] ≥ L[L.length - 1 - i] := List.pairwise_iff_getElem.1 hs i (L.length - 1 - i) hi1 hi2 (by omega)
  have h2 : L[i] ≠ L[L.length - 1 - i] := fun h => by
    have := (List.Nodup.getElem_inj_iff hn).1 h
    omega
  have := lt_of_le_of_ne h1 h2.symm
  linarith

/-- The second half. -/
theorem drop_eq {L : List ℝ} (hL : L = (L.map (- ·)).reverse) {n k : ℕ} (h : n + k = L.length) : L.drop k = ((L.take n).map (- ·)).reverse := by
  conv_lhs => rw [hL]
  rw [List.drop_reverse, List.map_take, List.length_map]
  congr 2
  omega

theorem prod_pairs {K : Type*} [Field K] [Algebra ℝ K] (x : K) : ∀ l : List ℝ,
    (l.map fun a => x - algebraMap ℝ K a).prod * (l.map fun a => x - algebraMap ℝ K (-a)).prod = (l.map fun a => x ^ 2 - algebraMap ℝ K a ^ 2).prod
  | [] => by simp
  | a :: l => by
    simp only [List.map_cons, List.prod_cons, ← prod_pairs x l, map_neg]
    ring

/-- The characteristic polynomial of even order. -/
theorem eval_even {n : ℕ} {a : ℕ → ℝ} {L : List ℝ} (hL : fromRoots L = jac (2 * n) a) (hs : L.Pairwise (· ≥ ·)) {K : Type*} [Field K]
    [Algebra ℝ K] (x : K) : aeval x (jac (2 * n) a) = ((L.take n).map fun a => x ^ 2 - algebraMap ℝ K a ^ 2).prod := by
  have hl := length_of_jac hL
  rw [← hL, eval_fromRoots]
  conv_lhs => rw [← List.take_append_drop n L, drop_eq (symm hL hs) (n := n) (k := n) (by omega)]
  rw [List.map_append, List.prod_append, List.map_reverse, List.prod_reverse, List.map_map]
  exact prod_pairs x _

/-- The characteristic polynomial of odd order. -/
theorem eval_odd {n : ℕ} {a : ℕ → ℝ} {L : List ℝ} (hL : fromRoots L = jac (2 * n + 1) a) (hs : L.Pairwise (· ≥ ·)) {K : Type*} [Field K]
    [Algebra ℝ K] (x : K) : aeval x (jac (2 * n + 1) a) = x * ((L.take n).map fun a => x ^ 2 - algebraMap ℝ K a ^ 2).prod := by
  have hl := length_of_jac hL
  have hsy := symm hL hs
  have hn : n < L.length := by omega
  have hmid : L[n] = 0 := by
    have : L[n]? = ((L.map (- ·)).reverse)[n]? := by rw [← hsy]
    rw [List.getElem?_reverse (by simpa using hn)] at this
    simp only [List.length_map, List.getElem?_map] at this
    rw [show L.length - 1 - n = n by omega, List.getElem?_eq_getElem hn] at this
    simp only [Option.map_some, Option.some.injEq] at this
    linarith
  rw [← hL, eval_fromRoots]
  conv_lhs => rw [← List.take_append_drop n L, List.drop_eq_getElem_cons hn, hmid, drop_eq hsy (n := n) (k := n + 1) (by omega)]
  rw [List.map_append, List.prod_append, List.map_cons, List.prod_cons, List.map_reverse, List.prod_reverse, List.map_map, map_zero, sub_zero,
    mul_left_comm]
  congr 1
  exact prod_pairs x _

theorem prod_scale {K : Type*} [Field K] {x w : K} (hw : w * x ^ 2 = -1) : ∀ l : List K,
    (l.map fun a => x ^ 2 - a ^ 2).prod = (x ^ 2) ^ l.length * (l.map fun a => 1 + w * a ^ 2).prod
  | [] => by simp
  | a :: l => by
    rw [List.map_cons, List.prod_cons, List.length_cons, pow_succ (x ^ 2), prod_scale hw l, List.map_cons, List.prod_cons]
    linear_combination (-a ^ 2 * (x ^ 2) ^ l.length * (l.map fun a => 1 + w * a ^ 2).prod) * hw

theorem cont_zero {R : Type*} [CommRing R] : ∀ (m : ℕ) (b : ℕ → R), cont 0 m b = ∏ i ∈ Finset.range m, b i
  | 0, b => by simp [cont]
  | 1, b => by simp [cont]
  | m + 2, b => by rw [cont, cont_zero (m + 1), zero_mul, add_zero, Finset.prod_range_succ' _ (m + 1), mul_comm]

/-- The continuant of even order in factors. -/
theorem cont_even {n : ℕ} {b : ℕ → ℝ} (hb : ∀ i, 0 < b i) {L : List ℝ} (hL : fromRoots L = jac (2 * n) (sub b)) (hs : L.Pairwise (· ≥ ·)) (w : ℂ) :
    cont w (2 * n) (fun i => (b i : ℂ)) = (∏ i ∈ Finset.range (2 * n), (b i : ℂ)) * ((L.take n).map fun a : ℝ => 1 + w * (a : ℂ) ^ 2).prod := by
  rcases eq_or_ne w 0 with rfl | hw
  · simp [cont_zero]
  · obtain ⟨x, hx⟩ := IsAlgClosed.exists_pow_nat_eq (-1 / w) (n := 2) (by norm_num)
    have hwx : w * x ^ 2 = -1 := by rw [hx]; field_simp
    have hx0 : x ≠ 0 := by rintro rfl; simp at hwx
    have h := jac_cont hwx (2 * n) hb
    have hl : (L.take n).length = n := by rw [List.length_take, length_of_jac hL]; omega
    rw [eval_even hL hs] at h
    have hsc := prod_scale hwx ((L.take n).map (algebraMap ℝ ℂ))
    rw [List.map_map, List.map_map, List.length_map, hl] at hsc
    change ((L.take n).map fun a => x ^ 2 - algebraMap ℝ ℂ a ^ 2).prod = _ * ((L.take n).map fun a => 1 + w * (algebraMap ℝ ℂ a) ^ 2).prod at hsc
    rw [hsc, ← pow_mul] at h
    have := pow_ne_zero (2 * n) hx0
    simp only [Complex.coe_algebraMap] at h
    apply mul_left_cancel₀ this
    rw [← h]
    ring

/-- The continuant of odd order in factors. -/
theorem cont_odd {n : ℕ} {b : ℕ → ℝ} (hb : ∀ i, 0 < b i) {L : List ℝ} (hL : fromRoots L = jac (2 * n + 1) (sub b)) (hs : L.Pairwise (· ≥ ·)) (w : ℂ) :
    cont w (2 * n + 1) (fun i => (b i : ℂ)) =
      (∏ i ∈ Finset.range (2 * n + 1), (b i : ℂ)) * ((L.take n).map fun a : ℝ => 1 + w * (a : ℂ) ^ 2).prod := by
  rcases eq_or_ne w 0 with rfl | hw
  · simp [cont_zero]
  · obtain ⟨x, hx⟩ := IsAlgClosed.exists_pow_nat_eq (-1 / w) (n := 2) (by norm_num)
    have hwx : w * x ^ 2 = -1 := by rw [hx]; field_simp
    have hx0 : x ≠ 0 := by rintro rfl; simp at hwx
    have h := jac_cont hwx (2 * n + 1) hb
    have hl : (L.take n).length = n := by rw [List.length_take, length_of_jac hL]; omega
    rw [eval_odd hL hs] at h
    have hsc := prod_scale hwx ((L.take n).map (algebraMap ℝ ℂ))
    rw [List.map_map, List.map_map, List.length_map, hl] at hsc
    change ((L.take n).map fun a => x ^ 2 - algebraMap ℝ ℂ a ^ 2).prod = _ * ((L.take n).map fun a => 1 + w * (algebraMap ℝ ℂ a) ^ 2).prod at hsc
    rw [hsc, ← pow_mul] at h
    have := pow_ne_zero (2 * n + 1) hx0
    simp only [Complex.coe_algebraMap] at h
    apply mul_left_cancel₀ this
    rw [← h, pow_succ x]
    ring

theorem prod_at_zero : ∀ l : List ℝ, (l.map fun a => (0 : ℝ) ^ 2 - a ^ 2).prod = (-1) ^ l.length * (l.map fun a => a ^ 2).prod
  | [] => by simp
  | a :: l => by
    rw [List.map_cons, List.prod_cons, List.length_cons, pow_succ (-1 : ℝ), prod_at_zero l, List.map_cons, List.prod_cons]
    ring

/-- The product of the squared eigenvalues, even order. -/
theorem roots_even {n : ℕ} {b : ℕ → ℝ} (hb : ∀ i, 0 < b i) {L : List ℝ} (hL : fromRoots L = jac (2 * n) (sub b)) (hs : L.Pairwise (· ≥ ·)) :
    ((L.take n).map fun a => a ^ 2).prod * ∏ i ∈ Finset.range (2 * n), b i = 1 := by
  have h := jac_zero n hb
  have e := eval_even hL hs (0 : ℝ)
  have hl : (L.take n).length = n := by rw [List.length_take, length_of_jac hL]; omega
  simp only [coe_aeval_eq_eval, Algebra.algebraMap_self, RingHom.id_apply] at e
  rw [prod_at_zero, hl] at e
  rw [coeff_zero_eq_eval_zero, e, mul_assoc] at h
  exact mul_left_cancel₀ (pow_ne_zero n (by norm_num : (-1 : ℝ) ≠ 0)) (by rw [h, mul_one])

/-- The product of the squared nonzero eigenvalues, odd order. -/
theorem roots_odd {n : ℕ} {b : ℕ → ℝ} (hb : ∀ i, 0 < b i) {L : List ℝ} (hL : fromRoots L = jac (2 * n + 1) (sub b)) (hs : L.Pairwise (· ≥ ·)) :
    ((L.take n).map fun a => a ^ 2).prod * ∏ i ∈ Finset.range (2 * n + 1), b i = ∑ i ∈ Finset.range (n + 1), b (2 * i) := by
  have h := jac_one n hb
  have hl : (L.take n).length = n := by rw [List.length_take, length_of_jac hL]; omega
  have e : jac (2 * n + 1) (sub b) = X * ((L.take n).map fun a => (X ^ 2 - C (a ^ 2) : ℝ[X])).prod := by
    apply Polynomial.funext
    intro x
    have e := eval_odd hL hs x
    simp only [coe_aeval_eq_eval, Algebra.algebraMap_self, RingHom.id_apply] at e
    rw [e, eval_mul, eval_X, eval_list_prod, List.map_map]
    congr 3
    funext a
    simp
  rw [e, coeff_X_mul, coeff_zero_eq_eval_zero, eval_list_prod, List.map_map] at h
  have e2 : (fun a : ℝ => eval 0 (X ^ 2 - C (a ^ 2) : ℝ[X])) = fun a => (0 : ℝ) ^ 2 - a ^ 2 := by funext a; simp
  change ((L.take n).map fun a : ℝ => eval 0 (X ^ 2 - C (a ^ 2) : ℝ[X])).prod * _ = _ at h
  rw [e2, prod_at_zero, hl, mul_assoc] at h
  exact mul_left_cancel₀ (pow_ne_zero n (by norm_num : (-1 : ℝ) ≠ 0)) h

/-- Partial fractions. -/
theorem partial_fractions {n : ℕ} {P : ℕ → ℂ} (Q : ℕ → ℂ) (hP : Set.InjOn P (Finset.range (n + 1))) {y : ℂ} (hy : ∀ i < n + 1, y + P i ≠ 0) :
    (∏ k ∈ Finset.range n, (Q k + y)) / ∏ i ∈ Finset.range (n + 1), (y + P i) =
      ∑ i ∈ Finset.range (n + 1), (∏ k ∈ Finset.range n, (Q k - P i)) / (∏ l ∈ (Finset.range (n + 1)).erase i, (P l - P i)) / (y + P i) := by
  have hf : (∏ k ∈ Finset.range n, (X + C (Q k))).degree < ((Finset.range (n + 1)).card : WithBot ℕ) := by
    rw [degree_prod]
    simp only [degree_X_add_C, Finset.sum_const, Finset.card_range]
    simp
    exact_mod_cast Nat.lt_succ_self n
  have h := Lagrange.eq_interpolate (v := fun i => -P i) (s := Finset.range (n + 1)) (f := ∏ k ∈ Finset.range n, (X + C (Q k)))
    (fun i hi j hj hij => hP hi hj (neg_injective hij)) hf
  have h2 := congrArg (eval y) h
  rw [Lagrange.eval_interpolate_not_at_node _ (fun i hi he => hy i (Finset.mem_range.1 hi) (by rw [he]; ring)), Lagrange.eval_nodal] at h2
  simp only [eval_prod, eval_add, eval_X, eval_C, sub_neg_eq_add, Lagrange.nodalWeight] at h2
  have hne : ∏ i ∈ Finset.range (n + 1), (y + P i) ≠ 0 := Finset.prod_ne_zero_iff.2 fun i hi => hy i (Finset.mem_range.1 hi)
  have h3 : ∏ k ∈ Finset.range n, (Q k + y) = ∏ k ∈ Finset.range n, (y + Q k) := Finset.prod_congr rfl fun _ _ => add_comm _ _
  rw [h3, h2, mul_div_cancel_left₀ _ hne]
  refine Finset.sum_congr rfl fun i _ => ?_
  rw [Finset.prod_inv_distrib]
  have e1 : ∏ l ∈ (Finset.range (n + 1)).erase i, (-P i + P l) = ∏ l ∈ (Finset.range (n + 1)).erase i, (P l - P i) :=
    Finset.prod_congr rfl fun _ _ => by ring
  have e2 : ∏ k ∈ Finset.range n, (-P i + Q k) = ∏ k ∈ Finset.range n, (Q k - P i) := Finset.prod_congr rfl fun _ _ => by ring
  rw [e1, e2]
  ring

end Pade
