import Verif.Model.Triangular
import Mathlib.Data.List.Nodup
import Mathlib.Data.List.Perm.Basic
import Mathlib.Data.List.GetD
import Mathlib.Algebra.BigOperators.Ring.List
import Mathlib.Tactic.Ring
import Mathlib.Tactic.Linarith

/-!
C22: `triangular(n_list)` yields every natural number below the product of `n_list` exactly once, starting with 0, in
order of nondecreasing total quantum number.
-/

namespace Triangular

/-- The total quantum number of the basis state number `v`: the sum of its digits in the mixed radix `nl` (least
significant digit first). -/
def quanta : List ℕ → ℕ → ℕ
  | [], _ => 0
  | n :: nl, v => v % n + quanta nl (v / n)

/-- `case` is a list of quantum numbers, each below its dimension. -/
private def Valid (nl case : List ℕ) : Prop := List.Forall₂ (· < ·) case nl

/-- Number of a case. -/
private def num : List ℕ → List ℕ → ℕ
  | n :: nl, i :: c => i + n * num nl c
  | _, _ => 0

private theorem foldl_prod (nl pre : List ℕ) (p : ℕ) :
    nl.foldl (fun l n => l ++ [l.getLastD 0 * n]) (pre ++ [p]) = pre ++ (nl.foldl (fun l n => l ++ [l.getLastD 0 * n]) [p]) := by
  induction nl generalizing pre p with
  | nil => rfl
  | cons n nl ih =>
    simp only [List.foldl_cons]
    rw [show (pre ++ [p]) ++ [(pre ++ [p]).getLastD 0 * n] = (pre ++ [p]) ++ [p * n] by simp, ih,
      show [p] ++ [[p].getLastD 0 * n] = [p] ++ [p * n] by simp, ih [p]]
    simp

private def run (p : ℕ) (nl : List ℕ) : List ℕ := nl.foldl (fun l n => l ++ [l.getLastD 0 * n]) [p]

private theorem run_cons (p n : ℕ) (nl : List ℕ) : run p (n :: nl) = p :: run (p * n) nl := by
  unfold run
  rw [List.foldl_cons, show [p] ++ [[p].getLastD 0 * n] = [p] ++ [p * n] by simp, foldl_prod]
  rfl

private theorem run_ne (p : ℕ) (nl : List ℕ) : run p nl ≠ [] := by
  cases nl with
  | nil => simp [run]
  | cons n nl => rw [run_cons]; simp

private theorem run_last (p : ℕ) (nl : List ℕ) : (run p nl).getLastD 0 = p * nl.prod := by
  induction nl generalizing p with
  | nil => simp [run]
  | cons n nl ih =>
    rw [run_cons]
    have h : (p :: run (p * n) nl).getLastD 0 = (run (p * n) nl).getLastD 0 := by
      cases hr : run (p * n) nl with
      | nil => exact absurd hr (run_ne _ _)
      | cons a l => simp
    rw [h, ih, List.prod_cons]; ring

private theorem prodList_last (nl : List ℕ) : (prodList nl).getLastD 0 = nl.prod := by
  have := run_last 1 nl
  rw [one_mul] at this
  exact this

private theorem run_key (p : ℕ) (nl c : List ℕ) (h : c.length ≤ nl.length) :
    (((run p nl).zip c).map fun x => x.1 * x.2).sum = p * num nl c := by
  induction c generalizing p nl with
  | nil => cases nl <;> simp [num]
  | cons i c ih =>
    cases nl with
    | nil => simp at h
    | cons n nl =>
      simp only [List.length_cons] at h
      rw [run_cons]
      simp only [List.zip_cons_cons, List.map_cons, List.sum_cons, num]
      rw [ih _ _ (by omega)]; ring

private theorem key_eq {nl c : List ℕ} (h : c.length ≤ nl.length) : key nl c = num nl c := by
  have := run_key 1 nl c h
  rw [one_mul] at this
  exact this

private theorem num_lt {nl c : List ℕ} (h : Valid nl c) : num nl c < nl.prod := by
  induction h with
  | nil => simp [num]
  | @cons i n c nl hi _ ih =>
    simp only [num, List.prod_cons]
    have : n * num nl c + n ≤ n * nl.prod := by nlinarith
    omega

private theorem num_inj {nl c c' : List ℕ} (h : Valid nl c) (h' : Valid nl c') (e : num nl c = num nl c') : c = c' := by
  induction h generalizing c' with
  | nil => cases h'; rfl
  | @cons i n c nl hi hc ih =>
    cases h' with
    | @cons i' _ c' _ hi' hc' =>
      simp only [num] at e
      have h1 : (i + n * num nl c) % n = (i' + n * num nl c') % n := by rw [e]
      rw [Nat.add_mul_mod_self_left, Nat.add_mul_mod_self_left, Nat.mod_eq_of_lt hi, Nat.mod_eq_of_lt hi'] at h1
      subst h1
      have h2 : num nl c = num nl c' := by
        have hn : 0 < n := by omega
        exact Nat.eq_of_mul_eq_mul_left hn (by omega)
      rw [ih hc' h2]

private theorem quanta_num {nl c : List ℕ} (h : Valid nl c) : quanta nl (num nl c) = c.sum := by
  induction h with
  | nil => rfl
  | @cons i n c nl hi hc ih =>
    simp only [quanta, num, List.sum_cons]
    rw [Nat.add_mul_mod_self_left, Nat.mod_eq_of_lt hi, Nat.add_mul_div_left _ _ (by omega), Nat.div_eq_of_lt hi,
      Nat.zero_add, ih]

private theorem num_surj {nl : List ℕ} {v : ℕ} (hv : v < nl.prod) : ∃ c, Valid nl c ∧ num nl c = v := by
  induction nl generalizing v with
  | nil =>
    simp only [List.prod_nil] at hv
    exact ⟨[], List.Forall₂.nil, by simp only [num]; omega⟩
  | cons n nl ih =>
    rw [List.prod_cons] at hv
    have hn : 0 < n := by
      rcases Nat.eq_zero_or_pos n with h | h
      · simp [h] at hv
      · exact h
    obtain ⟨c, c1, c2⟩ := ih (v := v / n) (by rw [Nat.div_lt_iff_lt_mul hn]; rwa [Nat.mul_comm])
    exact ⟨v % n :: c, List.Forall₂.cons (Nat.mod_lt _ hn) c1, by simp only [num]; rw [c2]; exact Nat.mod_add_div v n⟩

private theorem sum_lt {nl c : List ℕ} (h : Valid nl c) : c.sum < nl.prod := by
  induction h with
  | nil => simp
  | @cons i n c nl hi hc ih =>
    simp only [List.sum_cons, List.prod_cons]
    have h1 : 1 ≤ n := by omega
    have h2 : 1 ≤ nl.prod := by omega
    nlinarith

private theorem mem_unique_aux (l acc : List (List ℕ)) (c : List ℕ) :
    c ∈ l.foldl (fun acc case => if case ∈ acc then acc else acc ++ [case]) acc ↔ c ∈ acc ∨ c ∈ l := by
  induction l generalizing acc with
  | nil => simp
  | cons a l ih =>
    rw [List.foldl_cons, ih]
    by_cases h : a ∈ acc
    · rw [if_pos h, List.mem_cons]
      constructor
      · rintro (q | q)
        · exact .inl q
        · exact .inr (.inr q)
      · rintro (q | rfl | q)
        · exact .inl q
        · exact .inl h
        · exact .inr q
    · rw [if_neg h, List.mem_append, List.mem_singleton, List.mem_cons, or_assoc]

private theorem nodup_unique_aux (l acc : List (List ℕ)) (h : acc.Nodup) :
    (l.foldl (fun acc case => if case ∈ acc then acc else acc ++ [case]) acc).Nodup := by
  induction l generalizing acc with
  | nil => exact h
  | cons a l ih =>
    rw [List.foldl_cons]
    by_cases ha : a ∈ acc
    · rw [if_pos ha]; exact ih _ h
    · rw [if_neg ha]
      refine ih _ ?_
      rw [List.nodup_append]
      exact ⟨h, by simp, fun x hx y hy => by rw [List.mem_singleton] at hy; subst hy; rintro rfl; exact ha hx⟩

private theorem mem_unique {l : List (List ℕ)} {c : List ℕ} : c ∈ unique l ↔ c ∈ l := by
  unfold unique; rw [mem_unique_aux]; simp

private theorem bump_eq {c : List ℕ} {j : ℕ} (hj : j < c.length) :
    c.take j ++ [c.getD j 0 + 1] ++ c.drop (j + 1) = c.set j (c.getD j 0 + 1) := by
  rw [List.set_eq_take_append_cons_drop, if_pos hj]; simp

private theorem sum_set_succ {c : List ℕ} {j : ℕ} (hj : j < c.length) : (c.set j (c.getD j 0 + 1)).sum = c.sum + 1 := by
  induction c generalizing j with
  | nil => simp at hj
  | cons a c ih =>
    cases j with
    | zero => simp; omega
    | succ j =>
      simp only [List.length_cons] at hj
      have := ih (j := j) (by omega)
      simp only [List.set_cons_succ, List.sum_cons, List.getD_cons_succ] at this ⊢
      rw [this]; omega

private theorem valid_iff {nl c : List ℕ} : Valid nl c ↔ c.length = nl.length ∧ ∀ j < nl.length, c.getD j 0 < nl.getD j 0 := by
  constructor
  · intro h
    induction h with
    | nil => simp
    | @cons i n c nl hi _ ih =>
      refine ⟨by simp [ih.1], fun j hj => ?_⟩
      cases j with
      | zero => simpa using hi
      | succ j =>
        simp only [List.length_cons] at hj
        simpa only [List.getD_cons_succ] using ih.2 j (by omega)
  · induction c generalizing nl with
    | nil =>
      rintro ⟨h1, -⟩
      cases nl with
      | nil => exact List.Forall₂.nil
      | cons _ _ => simp at h1
    | cons i c ih =>
      rintro ⟨h1, h2⟩
      cases nl with
      | nil => simp at h1
      | cons n nl =>
        simp only [List.length_cons] at h1 h2
        refine List.Forall₂.cons (by simpa using h2 0 (by omega)) (ih ⟨by omega, fun j hj => ?_⟩)
        simpa only [List.getD_cons_succ] using h2 (j + 1) (by omega)

private theorem getD_set (c : List ℕ) (j k v : ℕ) (hj : j < c.length) :
    (c.set j v).getD k 0 = if j = k then v else c.getD k 0 := by
  simp only [List.getD_eq_getElem?_getD, List.getElem?_set]
  by_cases h : j = k
  · subst h; simp [hj]
  · simp [h]

private theorem mem_level {nl : List ℕ} (hn : ∀ j < nl.length, 0 < nl.getD j 0) {m : ℕ} {c : List ℕ} :
    c ∈ level nl m ↔ Valid nl c ∧ c.sum = m := by
  induction m generalizing c with
  | zero =>
    simp only [level, List.mem_singleton]
    constructor
    · rintro rfl
      refine ⟨valid_iff.2 ⟨by simp, fun j hj => ?_⟩, by simp⟩
      have : (List.replicate nl.length 0).getD j 0 = 0 := by
        simp [List.getD_eq_getElem?_getD, hj]
      rw [this]; exact hn j hj
    · rintro ⟨h1, h2⟩
      rw [List.eq_replicate_iff]
      exact ⟨(valid_iff.1 h1).1, fun x hx => List.sum_eq_zero_iff_forall_eq_nat.1 h2 x hx⟩
  | succ m ih =>
    unfold level
    rw [mem_unique]
    unfold permutation
    rw [List.mem_flatMap]
    constructor
    · rintro ⟨c', h1, h2⟩
      obtain ⟨v, s⟩ := ih.1 h1
      have hv := valid_iff.1 v
      rw [List.mem_filterMap] at h2
      obtain ⟨j, hj, e⟩ := h2
      rw [List.mem_range] at hj
      split at e
      · rename_i hlt
        cases e
        have hjc : j < c'.length := by rw [hv.1]; exact hj
        rw [bump_eq hjc]
        refine ⟨valid_iff.2 ⟨by rw [List.length_set]; exact hv.1, fun k hk => ?_⟩, by rw [sum_set_succ hjc, s]⟩
        rw [getD_set _ _ _ _ hjc]
        split
        · rename_i q; subst q; exact hlt
        · exact hv.2 k hk
      · cases e
    · rintro ⟨v, s⟩
      have hv := valid_iff.1 v
      obtain ⟨j, hj, hp⟩ : ∃ j, j < c.length ∧ 0 < c.getD j 0 := by
        by_contra hcon
        push Not at hcon
        have : c = List.replicate c.length 0 := by
          rw [List.eq_replicate_iff]
          refine ⟨rfl, fun x hx => ?_⟩
          obtain ⟨i, hi, rfl⟩ := List.mem_iff_getElem.1 hx
          have := hcon i hi
          rw [List.getD_eq_getElem _ _ hi] at this
          omega
        rw [this] at s
        simp at s
      set c' := c.set j (c.getD j 0 - 1) with hc'
      have hjc' : j < c'.length := by rw [hc', List.length_set]; exact hj
      have hg : c'.getD j 0 + 1 = c.getD j 0 := by
        rw [hc', getD_set _ _ _ _ hj, if_pos rfl]; omega
      have hback : c'.set j (c'.getD j 0 + 1) = c := by
        rw [hg, hc', List.set_set]
        rw [List.getD_eq_getElem _ _ hj, List.set_getElem_self]
      have hjn : j < nl.length := by rw [← hv.1]; exact hj
      refine ⟨c', ih.2 ⟨valid_iff.2 ⟨by rw [hc', List.length_set]; exact hv.1, fun k hk => ?_⟩, ?_⟩, ?_⟩
      · rw [hc', getD_set _ _ _ _ hj]
        split
        · rename_i q; subst q
          have := hv.2 j hk
          omega
        · exact hv.2 k hk
      · have := sum_set_succ hjc'
        rw [hback] at this
        omega
      · rw [List.mem_filterMap]
        refine ⟨j, List.mem_range.2 hjn, ?_⟩
        rw [hg, if_pos (hv.2 j hjn), ← hg, bump_eq hjc', hback]

private theorem nodup_level (nl : List ℕ) (m : ℕ) : (level nl m).Nodup := by
  cases m with
  | zero => simp [level]
  | succ m => exact nodup_unique_aux _ _ List.nodup_nil

private theorem pos_of_prod {nl : List ℕ} (h : nl.prod ≠ 0) : ∀ j < nl.length, 0 < nl.getD j 0 := by
  intro j hj
  rw [List.getD_eq_getElem _ _ hj]
  rcases Nat.eq_zero_or_pos nl[j] with q | q
  · exact absurd (List.prod_eq_zero_iff.2 (q ▸ List.getElem_mem hj)) h
  · exact q

private theorem mem_triangular {nl : List ℕ} (h : nl.prod ≠ 0) {v : ℕ} : v ∈ triangular nl ↔ v < nl.prod := by
  have hn := pos_of_prod h
  unfold triangular
  rw [prodList_last, List.mem_flatMap]
  constructor
  · rintro ⟨m, -, hv⟩
    obtain ⟨c, hc, rfl⟩ := List.mem_map.1 hv
    obtain ⟨c1, -⟩ := (mem_level hn).1 hc
    rw [key_eq (valid_iff.1 c1).1.le]
    exact num_lt c1
  · intro hv
    obtain ⟨c, c1, c2⟩ := num_surj hv
    refine ⟨c.sum, List.mem_range.2 (sum_lt c1), List.mem_map.2 ⟨c, (mem_level hn).2 ⟨c1, rfl⟩, ?_⟩⟩
    rw [key_eq (valid_iff.1 c1).1.le, c2]

private theorem quanta_of_mem {nl : List ℕ} (h : nl.prod ≠ 0) {m v : ℕ} (hv : v ∈ (level nl m).map (key nl)) :
    quanta nl v = m := by
  obtain ⟨c, hc, rfl⟩ := List.mem_map.1 hv
  obtain ⟨c1, c2⟩ := (mem_level (pos_of_prod h)).1 hc
  rw [key_eq (valid_iff.1 c1).1.le, quanta_num c1, c2]

/-- The numbers below the product of the dimensions, each exactly once. -/
theorem C22_permutation (nl : List ℕ) : (triangular nl).Perm (List.range nl.prod) := by
  by_cases h : nl.prod = 0
  · have : triangular nl = [] := by unfold triangular; rw [prodList_last, h]; rfl
    rw [this, h]; exact .refl _
  · have hn := pos_of_prod h
    refine (List.perm_ext_iff_of_nodup ?_ List.nodup_range).2 fun v => by rw [mem_triangular h, List.mem_range]
    unfold triangular
    rw [List.nodup_flatMap]
    constructor
    · intro m _
      refine (List.nodup_map_iff_inj_on (nodup_level nl m)).2 fun c hc c' hc' e => ?_
      obtain ⟨c1, -⟩ := (mem_level hn).1 hc
      obtain ⟨c1', -⟩ := (mem_level hn).1 hc'
      rw [key_eq (valid_iff.1 c1).1.le, key_eq (valid_iff.1 c1').1.le] at e
      exact num_inj c1 c1' e
    · refine List.pairwise_lt_range.imp fun {a b} hab => ?_
      intro v h1 h2
      have := quanta_of_mem h h1
      have := quanta_of_mem h h2
      omega

/-- In order of nondecreasing total quantum number. -/
theorem C22_sorted (nl : List ℕ) : (triangular nl).Pairwise fun a b => quanta nl a ≤ quanta nl b := by
  by_cases h : nl.prod = 0
  · have : triangular nl = [] := by unfold triangular; rw [prodList_last, h]; rfl
    rw [this]; exact List.Pairwise.nil
  · unfold triangular
    rw [List.pairwise_flatMap]
    constructor
    · intro m _
      refine List.pairwise_of_forall_mem_list fun a ha b hb => ?_
      rw [quanta_of_mem h ha, quanta_of_mem h hb]
    · refine List.pairwise_lt_range.imp fun {a b} hab x hx y hy => ?_
      rw [quanta_of_mem h hx, quanta_of_mem h hy]
      omega

/-- Starting with 0. -/
theorem C22_first {nl : List ℕ} (h : nl.prod ≠ 0) : (triangular nl).head? = some 0 := by
  obtain ⟨p, hp⟩ : ∃ p, nl.prod = p + 1 := ⟨nl.prod - 1, by omega⟩
  unfold triangular
  rw [prodList_last, hp, List.range_succ_eq_map, List.flatMap_cons]
  have hk : key nl (List.replicate nl.length 0) = 0 := by
    unfold key
    refine List.sum_eq_zero fun x hx => ?_
    obtain ⟨y, hy, rfl⟩ := List.mem_map.1 hx
    have := (List.of_mem_zip hy).2
    rw [(List.mem_replicate.1 this).2]
    rfl
  simp [level, hk]

/-! A case. -/

example : triangular [2, 3, 2] = [0, 1, 2, 6, 3, 7, 4, 8, 5, 9, 10, 11] ∧
    (triangular [2, 3, 2]).map (quanta [2, 3, 2]) = [0, 1, 1, 1, 2, 2, 2, 2, 3, 3, 3, 4] := by decide +kernel

end Triangular
