import Verif.Spec.Normalize
import Verif.Lemmas.Contract
import Mathlib.LinearAlgebra.LinearIndependent.Lemmas
import Mathlib.Algebra.BigOperators.Ring.Finset
import Mathlib.Algebra.Star.BigOperators
import Mathlib.Tactic.FieldSimp
import Mathlib.Tactic.Ring

/-!
Lemmas about `normalize` and `projector`.
-/

open scoped BigOperators
open Py

namespace Heap

variable {R : Type} [Field R] [StarRing R]

/-- The first `n` entries. -/
def rho (n : ℕ) (f : ℕ → R) : Fin n → R := fun q => f q

theorem star_cdot (n : ℕ) (u v : ℕ → R) : star (cdot n u v) = cdot n v u := by
  unfold cdot
  rw [star_sum]
  refine Finset.sum_congr rfl fun p _ => ?_
  rw [star_mul, star_star]

theorem cdot_sub_right (n : ℕ) (u v w : ℕ → R) (c : R) :
    cdot n u (fun q => v q - w q * c) = cdot n u v - cdot n u w * c := by
  unfold cdot
  rw [Finset.sum_mul, ← Finset.sum_sub_distrib]
  exact Finset.sum_congr rfl fun p _ => by ring

theorem cdot_div_right (n : ℕ) (u v : ℕ → R) (c : R) : cdot n u (fun q => v q / c) = cdot n u v / c := by
  unfold cdot
  rw [div_eq_mul_inv, Finset.sum_mul]
  exact Finset.sum_congr rfl fun p _ => by ring

/-- The orthogonalized vector is orthogonal to the given ones, and differs from the old one by a combination. -/
theorem orthogonalize_spec (n : ℕ) {us : List (ℕ → R)}
    (ho : us.Pairwise fun u v => cdot n v u = 0) (hu : ∀ u ∈ us, cdot n u u = 1) (v : ℕ → R) :
    (∀ u ∈ us, cdot n u (orthogonalize n us v) = 0) ∧
      ∃ s ∈ Submodule.span R {x | ∃ u ∈ us, x = rho n u}, rho n (orthogonalize n us v) = rho n v - s := by
  induction us using List.reverseRecOn with
  | nil => exact ⟨by simp, 0, Submodule.zero_mem _, by simp [orthogonalize]⟩
  | append_singleton us u ih =>
    rw [List.pairwise_append] at ho
    obtain ⟨h1, s, hs, h2⟩ := ih ho.1 fun x hx => hu x (by simp [hx])
    have he : orthogonalize n (us ++ [u]) v = fun q => orthogonalize n us v q - u q * cdot n u (orthogonalize n us v) := by
      unfold orthogonalize; rw [List.foldl_append]; rfl
    rw [he]
    refine ⟨fun x hx => ?_, s + cdot n u (orthogonalize n us v) • rho n u, ?_, ?_⟩
    · rw [cdot_sub_right]
      rcases List.mem_append.1 hx with hx | hx
      · have hxu := ho.2.2 x hx u (by simp)
        have hux : cdot n x u = 0 := by rw [← star_cdot, hxu, star_zero]
        rw [h1 x hx, hux]; ring
      · rw [List.mem_singleton] at hx; subst hx
        rw [hu x (by simp)]; ring
    · refine Submodule.add_mem _ (Submodule.span_mono ?_ hs) (Submodule.smul_mem _ _ (Submodule.subset_span ⟨u, by simp, rfl⟩))
      rintro x ⟨y, hy, rfl⟩
      exact ⟨y, by simp [hy], rfl⟩
    · funext q
      have := congrFun h2 q
      simp only [rho, Pi.sub_apply, Pi.add_apply, Pi.smul_apply, smul_eq_mul] at this ⊢
      rw [this]; ring

theorem span_step {V : Type*} [AddCommGroup V] [Module R V] {W : Submodule R V} {x y s : V} {c : R} (hc : c ≠ 0)
    (hs : s ∈ W) (hx : c • x = y - s) : Submodule.span R {x} ⊔ W = Submodule.span R {y} ⊔ W := by
  apply le_antisymm
  · refine sup_le ?_ le_sup_right
    rw [Submodule.span_singleton_le_iff_mem]
    have : x = c⁻¹ • y - c⁻¹ • s := by rw [← smul_sub, ← hx, smul_smul, inv_mul_cancel₀ hc, one_smul]
    rw [this]
    exact Submodule.sub_mem _ (Submodule.mem_sup_left (Submodule.smul_mem _ _ (Submodule.mem_span_singleton_self y)))
      (Submodule.mem_sup_right (Submodule.smul_mem _ _ hs))
  · refine sup_le ?_ le_sup_right
    rw [Submodule.span_singleton_le_iff_mem]
    have : y = c • x + s := by rw [hx]; abel
    rw [this]
    exact Submodule.add_mem _ (Submodule.mem_sup_left (Submodule.smul_mem _ _ (Submodule.mem_span_singleton_self x)))
      (Submodule.mem_sup_right hs)

theorem range_lt_succ (f : ℕ → ℕ → R) (n k : ℕ) :
    Submodule.span R {x | ∃ i < k + 1, x = rho n (f i)} =
      Submodule.span R {rho n (f k)} ⊔ Submodule.span R {x | ∃ i < k, x = rho n (f i)} := by
  rw [← Submodule.span_union]
  congr 1
  ext x
  simp only [Set.mem_setOf_eq, Set.mem_union, Set.mem_singleton_iff]
  constructor
  · rintro ⟨i, hi, rfl⟩
    rcases Nat.lt_succ_iff_lt_or_eq.1 hi with h | rfl
    · exact .inr ⟨i, h, rfl⟩
    · exact .inl rfl
  · rintro (rfl | ⟨i, hi, rfl⟩)
    · exact ⟨k, by omega, rfl⟩
    · exact ⟨i, by omega, rfl⟩

/-- Gram-Schmidt on linearly independent rows. -/
theorem gramSchmidt_spec {sqrt : R → R} (hq : SqrtOk sqrt) (n : ℕ) {d : ℕ} {v : ℕ → ℕ → R}
    (hli : ∀ k < d, rho n (v k) ∉ Submodule.span R {x | ∃ i < k, x = rho n (v i)}) {k : ℕ} (hk : k ≤ d) :
    ∃ U : ℕ → ℕ → R, (gramSchmidt sqrt n ((List.range k).map v)).1 = (List.range k).map U ∧
      (gramSchmidt sqrt n ((List.range k).map v)).2.length = k ∧
      (∀ i < k, ∀ j < k, cdot n (U i) (U j) = if i = j then 1 else 0) ∧
      ∀ j ≤ k, Submodule.span R {x | ∃ i < j, x = rho n (U i)} = Submodule.span R {x | ∃ i < j, x = rho n (v i)} := by
  induction k with
  | zero =>
    refine ⟨v, rfl, rfl, by intro i hi; omega, fun j hj => ?_⟩
    obtain rfl : j = 0 := by omega
    rfl
  | succ k ih =>
    obtain ⟨U, u1, u2, u3, u4⟩ := ih (by omega)
    have hgs : gramSchmidt sqrt n ((List.range (k + 1)).map v) =
        ((gramSchmidt sqrt n ((List.range k).map v)).1 ++ [fun q =>
          orthogonalize n (gramSchmidt sqrt n ((List.range k).map v)).1 (v k) q /
            sqrt (cdot n (orthogonalize n (gramSchmidt sqrt n ((List.range k).map v)).1 (v k))
              (orthogonalize n (gramSchmidt sqrt n ((List.range k).map v)).1 (v k)))],
         (gramSchmidt sqrt n ((List.range k).map v)).2 ++
          [sqrt (cdot n (orthogonalize n (gramSchmidt sqrt n ((List.range k).map v)).1 (v k))
              (orthogonalize n (gramSchmidt sqrt n ((List.range k).map v)).1 (v k)))]) := by
      unfold gramSchmidt
      rw [List.range_succ, List.map_append, List.foldl_append]
      rfl
    rw [hgs, u1]
    set w := orthogonalize n ((List.range k).map U) (v k) with hw
    set nrm := sqrt (cdot n w w) with hnrm
    obtain ⟨o1, s, o2, o3⟩ := orthogonalize_spec n (us := (List.range k).map U) (by
      rw [List.pairwise_map]
      refine List.Pairwise.imp_of_mem ?_ List.pairwise_lt_range
      intro a b ha hb hab
      rw [u3 b (List.mem_range.1 hb) a (List.mem_range.1 ha), if_neg (by omega)]) (by
      intro u hu
      obtain ⟨i, hi, rfl⟩ := List.mem_map.1 hu
      rw [List.mem_range] at hi
      rw [u3 i hi i hi, if_pos rfl]) (v k)
    have hs' : s ∈ Submodule.span R {x | ∃ i < k, x = rho n (v i)} := by
      rw [← u4 k (le_refl _)]
      refine Submodule.span_mono ?_ o2
      rintro x ⟨u, hu, rfl⟩
      obtain ⟨i, hi, rfl⟩ := List.mem_map.1 hu
      exact ⟨i, List.mem_range.1 hi, rfl⟩
    have hne : cdot n w w ≠ 0 := by
      intro h0
      have hz : rho n w = 0 := funext fun q => hq.definite n w h0 q q.2
      rw [o3] at hz
      have : rho n (v k) = s := sub_eq_zero.1 hz
      exact hli k (by omega) (this ▸ hs')
    have hnne : nrm ≠ 0 := by
      intro h0
      apply hne
      rw [← hq.square n w, ← hnrm, h0, mul_zero]
    refine ⟨fun i => if i < k then U i else fun q => w q / nrm, ?_, ?_, ?_, ?_⟩
    · rw [List.range_succ, List.map_append]
      refine congrArg₂ (· ++ ·) (List.map_congr_left fun i hi => ?_) (by simp)
      rw [if_pos (List.mem_range.1 hi)]
    · simp [u2]
    · have hwU : ∀ i < k, cdot n (U i) w = 0 := fun i hi => o1 _ (List.mem_map.2 ⟨i, List.mem_range.2 hi, rfl⟩)
      intro i hi j hj
      by_cases hik : i < k <;> by_cases hjk : j < k
      · simp only [hik, hjk, if_true]; exact u3 i hik j hjk
      · obtain rfl : j = k := by omega
        simp only [hik, if_true, lt_irrefl, if_false]
        rw [cdot_div_right, hwU i hik, zero_div, if_neg (by omega)]
      · obtain rfl : i = k := by omega
        simp only [hjk, if_true, lt_irrefl, if_false]
        rw [← star_cdot, cdot_div_right, hwU j hjk, zero_div, star_zero, if_neg (by omega)]
      · obtain rfl : i = k := by omega
        obtain rfl : j = i := by omega
        simp only [lt_irrefl, if_false, if_true]
        rw [cdot_div_right, ← star_cdot, cdot_div_right, star_div₀, star_cdot, hnrm, hq.real, ← hnrm,
          div_div, div_eq_one_iff_eq (mul_ne_zero hnne hnne)]
        rw [hnrm, hq.square]
    · intro j hj
      rcases Nat.lt_or_ge j (k + 1) with hjk | hjk
      · have : {x | ∃ i < j, x = rho n (if i < k then U i else fun q => w q / nrm)} = {x | ∃ i < j, x = rho n (U i)} := by
          ext x
          constructor
          · rintro ⟨i, hi, rfl⟩
            rw [if_pos (by omega)]; exact ⟨i, hi, rfl⟩
          · rintro ⟨i, hi, rfl⟩
            exact ⟨i, hi, by rw [if_pos (by omega)]⟩
        simp only [this]
        exact u4 j (by omega)
      · obtain rfl : j = k + 1 := by omega
        rw [range_lt_succ (fun i => if i < k then U i else fun q => w q / nrm), range_lt_succ v]
        have : {x | ∃ i < k, x = rho n (if i < k then U i else fun q => w q / nrm)} = {x | ∃ i < k, x = rho n (U i)} := by
          ext x
          constructor
          · rintro ⟨i, hi, rfl⟩
            rw [if_pos (by omega)]; exact ⟨i, hi, rfl⟩
          · rintro ⟨i, hi, rfl⟩
            exact ⟨i, hi, by rw [if_pos (by omega)]⟩
        simp only [this, lt_irrefl, if_false]
        rw [u4 k (le_refl _)]
        refine span_step hnne hs' ?_
        rw [← o3]
        funext q
        simp only [rho, Pi.smul_apply, smul_eq_mul]
        field_simp
        rfl

theorem valid2 {a b x y : ℕ} (hx : x < a) (hy : y < b) : Valid [a, b] [x, y] :=
  List.Forall₂.cons hx (List.Forall₂.cons hy List.Forall₂.nil)

theorem prod_pos_of {l : List ℕ} (h : ∀ d ∈ l, 0 < d) : 0 < l.prod := by
  induction l with
  | nil => simp
  | cons a l ih =>
    rw [List.prod_cons]
    exact Nat.mul_pos (h a (by simp)) (ih fun d hd => h d (by simp [hd]))

theorem normalizeArray_spec (sqrt : R → R) {A : Nd R} {axis : ℕ} (hax : axis < A.ndim)
    (hpos : ∀ d ∈ A.shape, 0 < d) :
    ∃ v : ℕ → ℕ → R, (∀ i < A.shape.getD axis 1, ∀ q < (A.shape.eraseIdx axis).prod,
        v i q = A.get ((unravel (A.shape.eraseIdx axis) q).insertIdx axis i)) ∧
      ∀ U : ℕ → ℕ → R, (gramSchmidt sqrt (A.shape.eraseIdx axis).prod
        ((List.range (A.shape.getD axis 1)).map v)).1 = (List.range (A.shape.getD axis 1)).map U →
      ∃ B norms, normalizeArray sqrt A axis = .ok (B, norms) ∧ B.Wf ∧ B.shape = A.shape ∧
        ∀ i < A.shape.getD axis 1, ∀ q < (A.shape.eraseIdx axis).prod,
          B.get ((unravel (A.shape.eraseIdx axis) q).insertIdx axis i) = U i q := by
  have hax' : axis < A.shape.length := hax
  have hd : 0 < A.shape.getD axis 1 := by
    rw [List.getD_eq_getElem _ _ hax']
    exact hpos _ (List.getElem_mem _)
  have hN : 0 < (A.shape.eraseIdx axis).prod :=
    prod_pos_of fun d hd => hpos d (List.mem_of_mem_eraseIdx hd)
  obtain ⟨a, a1, a2, a3, a4⟩ := Tensor.moveaxis_reshape_head A hax (by omega)
  obtain ⟨a0, b1, b2⟩ := bind_eq_ok.1 a1
  set d := A.shape.getD axis 1 with hdd
  set sh := A.shape.eraseIdx axis with hsh
  refine ⟨fun i q => a.get [i, q], fun i hi q hq => a4 i q hi hq, fun U hU => ?_⟩
  have hdim0 : a.dim 0 = d := by unfold Nd.dim; rw [a3]; rfl
  have hdim1 : a.dim 1 = sh.prod := by unfold Nd.dim; rw [a3]; rfl
  set S := stack sh.prod ((List.range d).map U) with hS
  have hSs : S.shape = [d, sh.prod] := by simp [hS, stack, Nd.ofFn]
  have hSw : S.Wf := Nd.ofFn_wf _ _
  set T : Nd R := ⟨d :: sh, S.data⟩ with hT
  have hTr : S.reshapeInfer [] sh = .ok T := by
    unfold Nd.reshapeInfer
    simp only [List.prod_nil, one_mul, hSs, List.prod_cons, mul_one]
    rw [if_neg (by rw [Nat.mul_mod_left]; rintro (h | h) <;> omega), Nat.mul_div_cancel _ hN]
    rfl
  have hTn : T.ndim = A.ndim := by
    change sh.length + 1 = A.shape.length
    rw [hsh, List.length_eraseIdx_of_lt hax']; omega
  have hTm : T.moveaxis 0 axis = .ok (T.moveaxisCore 0 axis) := by
    unfold Nd.moveaxis
    rw [if_pos ⟨by omega, by omega⟩]
  refine ⟨T.moveaxisCore 0 axis, (gramSchmidt sqrt sh.prod ((List.range d).map fun i q => a.get [i, q])).2, ?_,
    Nd.moveaxisCore_wf _ _ _, ?_, ?_⟩
  · unfold normalizeArray
    simp only [← hdd, ← hsh, b1, ok_bind, b2, hdim1, rowsOf, hdim0, hU, ← hS, hTr, hTm]
    rfl
  · rw [Nd.moveaxisCore_shape]
    simp only [hT, List.eraseIdx_cons_zero, List.getD_cons_zero]
    rw [hdd, hsh]
    exact insertIdx_eraseIdx_getD hax' 1
  · intro i hi q hq
    have hv := valid_unravel (shape := sh) hq
    have := Nd.get_moveaxisCore_insert T (s := 0) (d := axis) (x := i) (p := unravel sh q) (by omega) (by omega)
      (by simpa [hT] using hv) (by simpa [hT] using hi)
    rw [this]
    have e1 : T.get ((unravel sh q).insertIdx 0 i) = S.get [i, q] := by
      simp only [List.insertIdx_zero, Nd.get, hT, hSs, ravel, List.prod_cons, List.prod_nil, mul_one, add_zero]
      rw [ravel_unravel hq]
    rw [e1]
    have e2 : S.get [i, q] = (((List.range d).map U).getD i (fun _ => 0)) q := by
      refine Nd.get_ofFn _ ?_
      simp only [List.length_map, List.length_range]
      exact valid2 hi hq
    rw [e2, List.getD_eq_getElem _ _ (by simpa using hi)]
    simp

end Heap
