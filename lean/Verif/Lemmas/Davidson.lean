import Verif.Spec.Davidson
import Mathlib.Tactic.Ring
import Mathlib.Tactic.Linarith
import Mathlib.Tactic.FieldSimp
import Mathlib.Tactic.LinearCombination
import Mathlib.Data.List.GetD
import Mathlib.Algebra.BigOperators.Ring.Finset

open Py
open scoped BigOperators

namespace Davidson

variable {N : ℕ}

theorem dot_comm (u v : Vec N) : dot u v = dot v u := Finset.sum_congr rfl fun _ _ => mul_comm _ _

theorem dot_sub_scale (c u v : Vec N) (k : ℝ) : dot c (fun i => v i - k * u i) = dot c v - k * dot c u := by
  unfold dot
  rw [Finset.mul_sum, ← Finset.sum_sub_distrib]
  exact Finset.sum_congr rfl fun _ _ => by ring

theorem dot_scale (c u : Vec N) (k : ℝ) : dot c (scale k u) = k * dot c u := by
  unfold dot scale
  rw [Finset.mul_sum]
  exact Finset.sum_congr rfl fun _ _ => by ring

theorem dot_add (c u v : Vec N) : dot c (fun i => u i + v i) = dot c u + dot c v := by
  unfold dot
  rw [← Finset.sum_add_distrib]
  exact Finset.sum_congr rfl fun _ _ => by ring

theorem dot_zero (c : Vec N) : dot c (fun _ => 0) = 0 := by simp [dot]

theorem dot_self_nonneg (u : Vec N) : 0 ≤ dot u u := Finset.sum_nonneg fun i _ => mul_self_nonneg _

theorem norm_sq (u : Vec N) : norm u * norm u = dot u u := Real.mul_self_sqrt (dot_self_nonneg u)

theorem normalised {u : Vec N} (h : norm u ≠ 0) : dot (scale (1 / norm u) u) (scale (1 / norm u) u) = 1 := by
  rw [dot_scale, dot_comm, dot_scale, ← norm_sq]
  field_simp

/-! ### Orthogonalisation -/

theorem fold_keeps (L : List (Vec N)) (c v : Vec N) (h : ∀ u ∈ L, dot c u = 0) :
    dot c (L.foldl (fun v (u : Vec N) i => v i - dot u v * u i) v) = dot c v := by
  induction L generalizing v with
  | nil => rfl
  | cons u L ih =>
    rw [List.foldl_cons, ih _ fun u hu => h u (List.mem_cons_of_mem _ hu), dot_sub_scale, h u List.mem_cons_self, mul_zero, sub_zero]

theorem fold_orth (L : List (Vec N)) (h : Orthonormal L) (v : Vec N) :
    ∀ u ∈ L, dot u (L.foldl (fun v (u : Vec N) i => v i - dot u v * u i) v) = 0 := by
  induction L generalizing v with
  | nil => intro u hu; cases hu
  | cons w L ih =>
    obtain ⟨h1, h2⟩ := h
    rw [List.pairwise_cons] at h2
    intro u hu
    rw [List.foldl_cons]
    rcases List.mem_cons.mp hu with rfl | hu
    · rw [fold_keeps _ _ _ h2.1, dot_sub_scale, h1 u List.mem_cons_self]; ring
    · exact ih ⟨fun u hu => h1 u (List.mem_cons_of_mem _ hu), h2.2⟩ _ u hu

theorem fold_swap (L : List (Vec N)) (v : Vec N) :
    L.foldl (fun v (u : Vec N) i => v i - u i * dot u v) v = L.foldl (fun v (u : Vec N) i => v i - dot u v * u i) v := by
  congr 1; funext v u i; ring

theorem orthonormal_append {L M : List (Vec N)} :
    Orthonormal (L ++ M) ↔ Orthonormal L ∧ Orthonormal M ∧ ∀ u ∈ L, ∀ v ∈ M, dot u v = 0 := by
  unfold Orthonormal
  rw [List.pairwise_append]
  constructor
  · rintro ⟨h1, h2, h3, h4⟩
    exact ⟨⟨fun u hu => h1 u (List.mem_append_left _ hu), h2⟩, ⟨fun u hu => h1 u (List.mem_append_right _ hu), h3⟩, h4⟩
  · rintro ⟨⟨h1, h2⟩, ⟨h3, h4⟩, h5⟩
    exact ⟨fun u hu => (List.mem_append.mp hu).elim (h1 u) (h3 u), h2, h4, h5⟩

theorem orthonormal_nil : Orthonormal ([] : List (Vec N)) := ⟨(fun _ h => by cases h), List.Pairwise.nil⟩

theorem keep_ok (vecs : List (Vec N)) (v : Vec N) (h : Orthonormal vecs) :
    Orthonormal (keep vecs v) ∧ (keep vecs v).length ≤ vecs.length + 1 ∧
      ∀ b, (∀ x ∈ vecs, dot b x = 0) → dot b v = 0 → ∀ q ∈ keep vecs v, dot b q = 0 := by
  unfold keep
  simp only [fold_swap]
  split
  · rename_i hn
    have hn0 : norm (vecs.foldl (fun v (u : Vec N) i => v i - dot u v * u i) v) ≠ 0 := by
      intro h0; rw [h0] at hn; norm_num at hn
    refine ⟨orthonormal_append.mpr ⟨h, ⟨?_, List.pairwise_singleton _ _⟩, ?_⟩, by simp, ?_⟩
    · intro u hu; rw [List.mem_singleton.mp hu]; exact normalised hn0
    · intro u hu w hw
      rw [List.mem_singleton.mp hw, dot_scale, fold_orth _ h _ u hu, mul_zero]
    · intro b hb hv q hq
      rcases List.mem_append.mp hq with hq | hq
      · exact hb q hq
      · rw [List.mem_singleton.mp hq, dot_scale, fold_keeps _ _ _ hb, hv, mul_zero]
  · exact ⟨h, by omega, fun b hb _ => hb⟩

theorem keepAll_ok (L vecs : List (Vec N)) (h : Orthonormal vecs) :
    Orthonormal (L.foldl keep vecs) ∧ (L.foldl keep vecs).length ≤ vecs.length + L.length ∧
      ∀ b, (∀ x ∈ vecs, dot b x = 0) → (∀ x ∈ L, dot b x = 0) → ∀ q ∈ L.foldl keep vecs, dot b q = 0 := by
  induction L generalizing vecs with
  | nil => exact ⟨h, by simp, fun b hb _ => hb⟩
  | cons v L ih =>
    obtain ⟨h1, h2, h3⟩ := keep_ok vecs v h
    obtain ⟨g1, g2, g3⟩ := ih _ h1
    refine ⟨g1, by rw [List.foldl_cons, List.length_cons]; omega, fun b hb hL => ?_⟩
    exact g3 b (h3 b hb (hL v List.mem_cons_self)) fun x hx => hL x (List.mem_cons_of_mem _ hx)

/-- The Gram-Schmidt loop of search mode satisfies what is assumed of `scipy.linalg.orth`. -/
theorem gramSchmidt_orthOk : OrthOk fun L : List (Vec N) => L.foldl keep [] where
  length L := by simpa using (keepAll_ok L [] orthonormal_nil).2.1
  orthonormal L := (keepAll_ok L [] orthonormal_nil).1
  span L b := (keepAll_ok L [] orthonormal_nil).2.2 b (fun _ h => by cases h)

/-! ### The projected matrix -/

section extend

variable (Good : ℕ → ℕ → ℝ → Prop)

/-- Entries that are right stay right. -/
def Le (a a' : ℕ → ℕ → ℝ) : Prop := ∀ p q, Good p q (a p q) → Good p q (a' p q)

variable {Good}

theorem Le.refl (a : ℕ → ℕ → ℝ) : Le Good a a := fun _ _ h => h
theorem Le.trans {a b c : ℕ → ℕ → ℝ} (h : Le Good a b) (k : Le Good b c) : Le Good a c := fun p q x => k p q (h p q x)

theorem foldlM_le {ι : Type} (f : (ℕ → ℕ → ℝ) → ι → Res (ℕ → ℕ → ℝ)) (Done : ι → (ℕ → ℕ → ℝ) → Prop)
    (mono : ∀ {i a a'}, Le Good a a' → Done i a → Done i a') (l : List ι)
    (h : ∀ a, ∀ i ∈ l, ∃ a', f a i = .ok a' ∧ Le Good a a' ∧ Done i a') :
    ∀ a, ∃ a', l.foldlM f a = .ok a' ∧ Le Good a a' ∧ ∀ i ∈ l, Done i a' := by
  induction l with
  | nil => exact fun a => ⟨a, rfl, Le.refl a, fun _ h => by cases h⟩
  | cons i l ih =>
    intro a
    obtain ⟨b, hb, hab, hi⟩ := h a i List.mem_cons_self
    obtain ⟨c, hc, hbc, hl⟩ := ih (fun a j hj => h a j (List.mem_cons_of_mem _ hj)) b
    refine ⟨c, by rw [List.foldlM_cons, hb]; exact hc, hab.trans hbc, fun j hj => ?_⟩
    rcases List.mem_cons.mp hj with rfl | hj
    · exact mono hbc hi
    · exact hl j hj

theorem setItem_le {n : ℕ} (a : ℕ → ℕ → ℝ) {i j : ℕ} {x : ℝ} (hi : i < n) (hj : j < n) (hx : Good i j x) :
    ∃ a', setItem n a i j x = .ok a' ∧ Le Good a a' ∧ a' i j = x := by
  refine ⟨_, if_pos ⟨hi, hj⟩, fun p q h => ?_, by simp⟩
  beta_reduce
  split
  · rename_i hpq; obtain ⟨rfl, rfl⟩ := hpq; exact hx
  · exact h

variable {v av : List (Vec N)} (hval : ∀ i j, i < v.length → j < v.length → Good i j (dot (v.getD i 0) (av.getD j 0)))
  (hsymm : ∀ i j, ∀ x, i < v.length → j < v.length → Good i j x → Good j i x)

include hval hsymm

theorem setPair_le {n : ℕ} (hn : v.length ≤ n) (a : ℕ → ℕ → ℝ) {i j : ℕ} (hi : i < v.length) (hj : j < v.length) :
    ∃ a', setPair n v av a i j = .ok a' ∧ Le Good a a' ∧ Good i j (a' i j) ∧ Good j i (a' j i) := by
  obtain ⟨b, hb, hab, hbx⟩ := setItem_le (n := n) a (by omega : i < n) (by omega : j < n) (hval i j hi hj)
  obtain ⟨c, hc, hbc, hcx⟩ := setItem_le (n := n) (Good := Good) b (x := b i j) (by omega : j < n) (by omega : i < n)
    (hsymm i j _ hi hj (by rw [hbx]; exact hval i j hi hj))
  refine ⟨c, ?_, hab.trans hbc, hbc _ _ (by rw [hbx]; exact hval i j hi hj), ?_⟩
  · unfold setPair
    rw [hb]
    show (do let x ← getItem n b i j; setItem n b j i x) = _
    rw [getItem, if_pos ⟨by omega, by omega⟩]
    exact hc
  · rw [hcx]; exact hsymm i j _ hi hj (by rw [hbx]; exact hval i j hi hj)

theorem setRow_le {n head : ℕ} (hn : v.length ≤ n) (a : ℕ → ℕ → ℝ) {i : ℕ} (hi : i < v.length) :
    ∃ a', setRow n v av head a i = .ok a' ∧ Le Good a a' ∧
      ∀ j, head ≤ j → j ≤ i → Good i j (a' i j) ∧ Good j i (a' j i) := by
  obtain ⟨b, hb, hab, hbx⟩ := foldlM_le (Good := Good) (fun a j => setPair n v av a i j) (fun j a => Good i j (a i j) ∧ Good j i (a j i))
    (fun h k => ⟨h _ _ k.1, h _ _ k.2⟩) (List.range' head (i - head))
    (fun a j hj => setPair_le hval hsymm hn a hi (by rw [List.mem_range'_1] at hj; omega)) a
  obtain ⟨c, hc, hbc, hcx⟩ := setItem_le (n := n) b (by omega : i < n) (by omega : i < n) (hval i i hi hi)
  refine ⟨c, by unfold setRow; rw [hb]; exact hc, hab.trans hbc, fun j h1 h2 => ?_⟩
  by_cases hji : j = i
  · subst hji
    rw [hcx]
    exact ⟨hval j j hi hi, hval j j hi hi⟩
  · have := hbx j (by rw [List.mem_range'_1]; omega)
    exact ⟨hbc _ _ this.1, hbc _ _ this.2⟩

end extend

theorem extendSpace_ok (Good : ℕ → ℕ → ℝ → Prop) (s : State N) (hn : (s.search ++ s.trial).length ≤ s.maxSpace)
    (hval : ∀ i j, i < (s.search ++ s.trial).length → j < (s.search ++ s.trial).length →
      Good i j (dot ((s.search ++ s.trial).getD i 0) ((s.column ++ s.trial.map s.matvec).getD j 0)))
    (hsymm : ∀ i j x, i < (s.search ++ s.trial).length → j < (s.search ++ s.trial).length → Good i j x → Good j i x)
    (hold : ∀ i < s.search.length, ∀ j < s.search.length, Good i j (s.sub i j)) :
    ∃ a, extendSpace s = .ok { s with search := s.search ++ s.trial, column := s.column ++ s.trial.map s.matvec, sub := a } ∧
      ∀ i < (s.search ++ s.trial).length, ∀ j < (s.search ++ s.trial).length, Good i j (a i j) := by
  have hlen : (s.search ++ s.trial).length = s.search.length + s.trial.length := List.length_append
  obtain ⟨a, ha, hla, hda⟩ := foldlM_le (Good := Good)
    (fun a i => (List.range' s.search.length ((s.search ++ s.trial).length - s.search.length)).foldlM
      (fun a j => setPair s.maxSpace (s.search ++ s.trial) (s.column ++ s.trial.map s.matvec) a i j) a)
    (fun i a => ∀ j ∈ List.range' s.search.length ((s.search ++ s.trial).length - s.search.length), Good i j (a i j) ∧ Good j i (a j i))
    (fun h k j hj => ⟨h _ _ (k j hj).1, h _ _ (k j hj).2⟩) (List.range s.search.length)
    (fun a i hi => foldlM_le (Good := Good) _ (fun j a => Good i j (a i j) ∧ Good j i (a j i)) (fun h k => ⟨h _ _ k.1, h _ _ k.2⟩) _
      (fun a j hj => setPair_le hval hsymm hn a (by rw [List.mem_range] at hi; omega) (by rw [List.mem_range'_1] at hj; omega)) a) s.sub
  obtain ⟨b, hb, hlb, hdb⟩ := foldlM_le (Good := Good)
    (fun a i => setRow s.maxSpace (s.search ++ s.trial) (s.column ++ s.trial.map s.matvec) s.search.length a i)
    (fun i a => ∀ j, s.search.length ≤ j → j ≤ i → Good i j (a i j) ∧ Good j i (a j i))
    (fun h k j h1 h2 => ⟨h _ _ (k j h1 h2).1, h _ _ (k j h1 h2).2⟩)
    (List.range' s.search.length ((s.search ++ s.trial).length - s.search.length))
    (fun a i hi => setRow_le hval hsymm hn a (by rw [List.mem_range'_1] at hi; omega)) a
  refine ⟨b, ?_, fun i hi j hj => ?_⟩
  · unfold extendSpace
    dsimp only
    rw [ha, ok_bind, hb]
    rfl
  · by_cases h1 : i < s.search.length
    · by_cases h2 : j < s.search.length
      · exact hlb _ _ (hla _ _ (hold i h1 j h2))
      · exact hlb _ _ (hda i (List.mem_range.mpr h1) j (by rw [List.mem_range'_1]; omega)).1
    · by_cases h2 : j < s.search.length
      · exact hlb _ _ (hda j (List.mem_range.mpr h2) i (by rw [List.mem_range'_1]; omega)).2
      · by_cases h3 : j ≤ i
        · exact (hdb i (by rw [List.mem_range'_1]; omega) j (by omega) h3).1
        · exact (hdb j (by rw [List.mem_range'_1]; omega) i (by omega) (by omega)).2

theorem getD_map {α β : Type} (f : α → β) (L : List α) (x : α) (y : β) {i : ℕ} (h : i < L.length) : (L.map f).getD i y = f (L.getD i x) := by
  rw [List.getD_eq_getElem _ _ (by simpa using h), List.getD_eq_getElem _ _ h, List.getElem_map]

/-! ### Linear combinations -/

theorem dot_foldl (c : Vec N) (l : List (Vec N)) (a : Vec N) :
    dot c (l.foldl (fun a b i => a i + b i) a) = dot c a + (l.map (dot c)).sum := by
  induction l generalizing a with
  | nil => simp
  | cons b l ih => rw [List.foldl_cons, ih, dot_add, List.map_cons, List.sum_cons]; ring

theorem zipWith_sum (f : Vec N → ℝ) (x : List ℝ) (S : List (Vec N)) (h : x.length = S.length) :
    (List.zipWith (fun c u => c * f u) x S).sum = ∑ p ∈ Finset.range S.length, x.getD p 0 * f (S.getD p 0) := by
  induction S generalizing x with
  | nil => simp
  | cons u S ih =>
    cases x with
    | nil => simp at h
    | cons c x =>
      rw [List.zipWith_cons_cons, List.sum_cons, ih x (by simpa using h), List.length_cons, Finset.sum_range_succ']
      simp [add_comm]

theorem dot_transVec (c : Vec N) (x : List ℝ) (S : List (Vec N)) (h : x.length = S.length) :
    dot c (transVec x S) = ∑ p ∈ Finset.range S.length, x.getD p 0 * dot c (S.getD p 0) := by
  rw [transVec, dot_foldl, dot_zero, zero_add, ← zipWith_sum _ _ _ h, List.map_zipWith]
  congr 2; funext k u; exact dot_scale _ _ _

theorem Orthonormal.getD {L : List (Vec N)} (h : Orthonormal L) {i j : ℕ} (hi : i < L.length) (hj : j < L.length) :
    dot (L.getD i 0) (L.getD j 0) = if i = j then 1 else 0 := by
  rw [List.getD_eq_getElem _ _ hi, List.getD_eq_getElem _ _ hj]
  split
  · rename_i h1; subst h1; exact h.1 _ (List.getElem_mem _)
  · rename_i h1
    rcases Nat.lt_or_gt_of_ne h1 with h1 | h1
    · exact List.pairwise_iff_getElem.mp h.2 i j hi hj h1
    · rw [dot_comm]; exact List.pairwise_iff_getElem.mp h.2 j i hj hi h1

theorem orthonormal_of_getD {L : List (Vec N)} (h : ∀ i < L.length, ∀ j < L.length, dot (L.getD i 0) (L.getD j 0) = if i = j then 1 else 0) :
    Orthonormal L := by
  refine ⟨fun u hu => ?_, List.pairwise_iff_getElem.mpr fun i j hi hj hij => ?_⟩
  · obtain ⟨i, hi, rfl⟩ := List.mem_iff_getElem.mp hu
    have := h i hi i hi
    rwa [List.getD_eq_getElem _ _ hi, if_pos rfl] at this
  · have := h i hi j hj
    rwa [List.getD_eq_getElem _ _ hi, List.getD_eq_getElem _ _ hj, if_neg (by omega)] at this

theorem transVec_dot {S : List (Vec N)} (hS : Orthonormal S) {x y : List ℝ} (hx : x.length = S.length) (hy : y.length = S.length) :
    dot (transVec x S) (transVec y S) = ∑ p ∈ Finset.range S.length, x.getD p 0 * y.getD p 0 := by
  rw [dot_transVec _ _ _ hy]
  refine Finset.sum_congr rfl fun p hp => ?_
  rw [dot_comm, dot_transVec _ _ _ hx, Finset.sum_eq_single p]
  · rw [hS.getD (Finset.mem_range.mp hp) (Finset.mem_range.mp hp), if_pos rfl]; ring
  · intro q hq hqp
    rw [hS.getD (Finset.mem_range.mp hp) (Finset.mem_range.mp hq), if_neg (Ne.symm hqp), mul_zero]
  · intro h; exact absurd hp h

theorem transVec_op {A : Vec N → Vec N} (hA : Symmetric A) {S : List (Vec N)} {x y : List ℝ} (hx : x.length = S.length)
    (hy : y.length = S.length) :
    dot (transVec x S) (A (transVec y S)) =
      ∑ p ∈ Finset.range S.length, x.getD p 0 * ∑ q ∈ Finset.range S.length, dot (S.getD p 0) (A (S.getD q 0)) * y.getD q 0 := by
  rw [dot_comm, dot_transVec _ _ _ hx]
  refine Finset.sum_congr rfl fun p _ => ?_
  rw [dot_comm, hA, dot_transVec _ _ _ hy]
  congr 1
  refine Finset.sum_congr rfl fun q _ => ?_
  rw [← hA]; ring

end Davidson
