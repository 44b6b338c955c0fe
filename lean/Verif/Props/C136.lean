import Verif.Model.Unzip
import Mathlib.Data.List.Count
import Mathlib.Data.List.Basic
import Mathlib.Logic.Function.Basic
import Mathlib.Tactic.Linarith

/-!
C136: `unzip` gives the columns, in whatever order they are read, and reads no row before it is needed.
-/

open Py

namespace Unzip

variable {A : Type}

/-! ### Specification -/

/-- What the `k`-th call of `next` on column `i` gives: the entry of row `k`; `IndexError` if that row is too short; `StopIteration` after
the last row. -/
def entry (rows : List (List A)) (i k : ℕ) : Res A :=
  match rows[k]? with
  | none => .error .stopIteration
  | some row =>
    match row[i]? with
    | some a => .ok a
    | none => .error .indexError

/-! ### Lemmas -/

/-- The rows from `p` to `q` -/
private def window (rows : List (List A)) (p q : ℕ) : List (List A) := (rows.drop p).take (q - p)

private theorem window_self (rows : List (List A)) (p : ℕ) : window rows p p = [] := by simp [window]

private theorem window_cons {rows : List (List A)} {p q : ℕ} (h : p < q) (hq : q ≤ rows.length) :
    window rows p q = rows[p]'(by omega) :: window rows (p + 1) q := by
  unfold window
  rw [List.drop_eq_getElem_cons (by omega), show q - p = (q - (p + 1)) + 1 by omega, List.take_succ_cons]

private theorem window_snoc {rows : List (List A)} {p q : ℕ} (h : p ≤ q) (hq : q < rows.length) :
    window rows p q ++ [rows[q]] = window rows p (q + 1) := by
  unfold window
  rw [show q + 1 - p = (q - p) + 1 by omega, List.take_add_one, List.getElem?_drop, show p + (q - p) = q by omega,
    List.getElem?_eq_getElem hq]
  rfl

/-- The pair of iterators after `q` calls on the second one -/
private def PairAt (rows : List (List A)) (q : ℕ) (t : Tee (List (List A)) (List A)) : Prop :=
  ∃ q0, t = ⟨rows.drop (max 1 q), [q0, window rows q (max 1 q)]⟩

private theorem pair_next {rows : List (List A)} {q : ℕ} {t : Tee (List (List A)) (List A)} (ht : PairAt rows q t) (hq : q < rows.length) :
    ∃ t', t.next drawList 1 = (some rows[q], t') ∧ PairAt rows (q + 1) t' := by
  obtain ⟨q0, rfl⟩ := ht
  rcases Nat.eq_zero_or_pos q with rfl | h
  · refine ⟨⟨rows.drop 1, [q0, []]⟩, ?_, q0, by simp [window_self]⟩
    rw [show max 1 0 = 1 from rfl, window_cons (by omega) (by omega), window_self]
    rfl
  · have e : max 1 q = q := by omega
    have e' : max 1 (q + 1) = q + 1 := by omega
    refine ⟨⟨rows.drop (q + 1), [q0 ++ [rows[q]], []]⟩, ?_, q0 ++ [rows[q]], by rw [e', window_self]⟩
    rw [e, window_self, List.drop_eq_getElem_cons hq]
    rfl

private theorem pair_stop {rows : List (List A)} (h : rows ≠ []) {t : Tee (List (List A)) (List A)} (ht : PairAt rows rows.length t) :
    t.next drawList 1 = (none, t) := by
  obtain ⟨q0, rfl⟩ := ht
  have := List.length_pos_iff.2 h
  rw [show max 1 rows.length = rows.length by omega, window_self, List.drop_length]
  rfl

/-- The state after `n i` calls on column `i` -/
private def At (rows : List (List A)) (w : ℕ) (n : ℕ → ℕ) (c : Columns A) : Prop :=
  ∃ q, q ≤ rows.length ∧ (∀ i < w, min (n i) rows.length ≤ q) ∧ (q = 0 ∨ ∃ i < w, q ≤ n i) ∧ PairAt rows q c.src ∧
    c.queues = (List.range w).map fun i => window rows (min (n i) rows.length) q

private theorem next_ok {rows : List (List A)} (h : rows ≠ []) {w : ℕ} {n : ℕ → ℕ} {c : Columns A} (hc : At rows w n c) {i : ℕ} (hi : i < w) :
    ∃ c', c.next i = (entry rows i (n i), c') ∧ At rows w (Function.update n i (n i + 1)) c' := by
  obtain ⟨q, q1, q2, q3, q4, q5⟩ := hc
  have hk : c.queues[i]? = some (window rows (min (n i) rows.length) q) := by
    rw [q5, List.getElem?_map, List.getElem?_range hi]; rfl
  obtain ⟨src, queues⟩ := c
  dsimp only at q4 q5 hk
  have upd : ∀ k, Function.update n i (n i + 1) k = if k = i then n i + 1 else n k := fun k => by
    by_cases e : k = i
    · subst e; simp
    · simp [e]
  rcases lt_or_ge (min (n i) rows.length) q with lt | ge
  · -- the queue is not empty
    have hn : n i < rows.length := by omega
    have e1 : min (n i) rows.length = n i := by omega
    rw [e1] at hk lt
    rw [window_cons lt q1] at hk
    refine ⟨⟨src, queues.set i (window rows (n i + 1) q)⟩, ?_, q, q1, fun k hk => ?_, ?_, q4, ?_⟩
    · unfold Columns.next Tee.next
      simp only [hk]
      unfold entry
      rw [List.getElem?_eq_getElem hn]
      dsimp only
      cases rows[n i][i]? <;> rfl
    · rw [upd]
      split
      · omega
      · exact q2 k hk
    · rcases q3 with q3 | ⟨k, k1, k2⟩
      · exact Or.inl q3
      · refine Or.inr ⟨k, k1, ?_⟩
        rw [upd]
        split
        · rename_i e; subst e; omega
        · exact k2
    · dsimp only
      rw [q5]
      refine List.ext_getElem (by simp) fun k k1 k2 => ?_
      rw [List.getElem_set, List.getElem_map, List.getElem_map, List.getElem_range, upd]
      by_cases e : i = k
      · rw [if_pos e, if_pos e.symm, show min (n i + 1) rows.length = n i + 1 by omega]
      · rw [if_neg e, if_neg (Ne.symm e)]
  · have eq : min (n i) rows.length = q := le_antisymm (q2 i hi) ge
    rw [eq, window_self] at hk
    rcases lt_or_ge (n i) rows.length with hn | hn
    · -- one more row is drawn
      have e1 : q = n i := by omega
      subst e1
      obtain ⟨t', t1, t2⟩ := pair_next q4 hn
      refine ⟨⟨t', (queues.map (· ++ [rows[n i]])).set i (((queues.map (· ++ [rows[n i]]))[i]?).getD []).tail⟩, ?_,
        n i + 1, by omega, fun k hk => ?_, Or.inr ⟨i, hi, ?_⟩, t2, ?_⟩
      · unfold Columns.next Tee.next
        simp only [hk]
        unfold Tee.next at t1
        rw [t1]
        unfold entry
        rw [List.getElem?_eq_getElem hn]
        dsimp only
        cases rows[n i][i]? <;> rfl
      · rw [upd]
        split
        · omega
        · have := q2 k hk; omega
      · rw [upd, if_pos rfl]
      · dsimp only
        have hl : ((queues.map (· ++ [rows[n i]]))[i]?).getD [] = [rows[n i]] := by
          rw [List.getElem?_map, hk]; rfl
        rw [hl, q5]
        refine List.ext_getElem (by simp) fun k k1 k2 => ?_
        have kw : k < w := by simpa using k2
        rw [List.getElem_set, List.getElem_map, List.getElem_map, List.getElem_map, List.getElem_range, upd]
        by_cases e : i = k
        · rw [if_pos e, if_pos e.symm, show min (n i + 1) rows.length = n i + 1 by omega, window_self]
          rfl
        · rw [if_neg e, if_neg (Ne.symm e)]
          exact window_snoc (q2 k kw) hn
    · -- the end
      have e1 : q = rows.length := by omega
      subst e1
      have t1 := pair_stop h q4
      refine ⟨⟨src, queues⟩, ?_, rows.length, le_rfl, fun k _ => by omega, ?_, q4, ?_⟩
      · unfold Columns.next Tee.next
        simp only [hk]
        unfold Tee.next at t1
        rw [t1]
        unfold entry
        rw [List.getElem?_eq_none hn]
      · refine Or.inr ⟨i, hi, ?_⟩
        rw [upd, if_pos rfl]; omega
      · dsimp only
        rw [q5]
        refine List.map_congr_left fun k _ => ?_
        rw [upd]
        split
        · rename_i e; subst e; rw [show min (n k + 1) rows.length = min (n k) rows.length by omega]
        · rfl

private theorem run_ok {rows : List (List A)} (h : rows ≠ []) {w : ℕ} (is : List ℕ) (his : ∀ i ∈ is, i < w) {n : ℕ → ℕ} {c : Columns A}
    (hc : At rows w n c) :
    At rows w (fun k => n k + is.count k) (c.run is).2 ∧
      ∀ m i, is[m]? = some i → (c.run is).1[m]? = some (entry rows i (n i + (is.take m).count i)) := by
  induction is generalizing n c with
  | nil => exact ⟨by simpa [Columns.run] using hc, fun m i e => by simp at e⟩
  | cons j is ih =>
    obtain ⟨c', c1, c2⟩ := next_ok h hc (his j (by simp))
    obtain ⟨i1, i2⟩ := ih (fun i hi => his i (by simp [hi])) c2
    have run : c.run (j :: is) = (entry rows j (n j) :: (c'.run is).1, (c'.run is).2) := by
      rw [Columns.run, c1]
    rw [run]
    have cnt : ∀ (l : List ℕ) k, Function.update n j (n j + 1) k + l.count k = n k + (j :: l).count k := fun l k => by
      by_cases e : k = j
      · subst e; simp; omega
      · rw [Function.update_of_ne e, List.count_cons_of_ne (Ne.symm e)]
    refine ⟨?_, fun m i e => ?_⟩
    · simp only [cnt] at i1; exact i1
    · cases m with
      | zero =>
        simp only [List.getElem?_cons_zero, Option.some.injEq] at e
        subst e
        simp
      | succ m =>
        rw [List.getElem?_cons_succ] at e ⊢
        rw [i2 m i e, cnt, List.take_succ_cons]

private theorem start {rows : List (List A)} (first : List A) (rest : List (List A)) (h : rows = first :: rest) :
    ∃ c, unzip rows = .ok c ∧ At rows first.length (fun _ => 0) c := by
  subst h
  refine ⟨_, rfl, 0, by omega, fun _ _ => by simp, Or.inl rfl, ⟨[], ?_⟩, ?_⟩
  · rfl
  · dsimp only
    refine List.ext_getElem (by simp) fun k k1 k2 => ?_
    simp [window]

/-! ### The property -/

/-- There are as many columns as the first row has entries, and in whatever order `next` is called on them, every call gives the next entry
of its column: call number `m`, if it is on column `i` and there have been `k` calls on `i` before, gives the entry of row `k`. -/
theorem C136_schedule (first : List A) (rest : List (List A)) (is : List ℕ) (his : ∀ i ∈ is, i < first.length) :
    ∃ c, unzip (first :: rest) = .ok c ∧ c.queues.length = first.length ∧
      ∀ m i, is[m]? = some i → (c.run is).1[m]? = some (entry (first :: rest) i ((is.take m).count i)) := by
  obtain ⟨c, c1, c2⟩ := start first rest rfl
  refine ⟨c, c1, ?_, fun m i e => ?_⟩
  · obtain ⟨q, -, -, -, -, q5⟩ := c2
    rw [q5]; simp
  · have := (run_ok (by simp) is his c2).2 m i e
    rwa [Nat.zero_add] at this

/-- Reading one column to its end gives that column. -/
theorem C136_column (first : List A) (rest : List (List A)) {i : ℕ} (hi : i < first.length) {col : List A}
    (hcol : ∀ k : ℕ, ((first :: rest)[k]?.bind fun row : List A => row[i]?) = col[k]?) (hl : col.length = (first :: rest).length) :
    ∃ c, unzip (first :: rest) = .ok c ∧ ∀ k < col.length, (c.run (List.replicate col.length i)).1[k]? = col[k]?.map Except.ok := by
  obtain ⟨c, c1, -, c3⟩ := C136_schedule first rest (List.replicate col.length i) (fun j hj => by rw [List.eq_of_mem_replicate hj]; exact hi)
  refine ⟨c, c1, fun k hk => ?_⟩
  rw [c3 k i (by rw [List.getElem?_replicate, if_pos hk]), List.take_replicate, List.count_replicate_self, Nat.min_eq_left hk.le,
    List.getElem?_eq_getElem hk]
  have := hcol k
  rw [List.getElem?_eq_getElem hk, List.getElem?_eq_getElem (hl ▸ hk)] at this
  unfold entry
  rw [List.getElem?_eq_getElem (hl ▸ hk)]
  dsimp only
  rw [show (first :: rest)[k][i]? = some col[k] from this]
  rfl

/-- No row is read before it is needed: `unzip` itself reads one row, and after that the number of rows read is that of the column that has
been read farthest. -/
theorem C136_lazy (first : List A) (rest : List (List A)) (is : List ℕ) (his : ∀ i ∈ is, i < first.length) :
    ∃ c, unzip (first :: rest) = .ok c ∧ ∃ n, (c.run is).2.unread = (first :: rest).drop n ∧ n ≤ (first :: rest).length ∧
      (∀ i < first.length, min (is.count i) (first :: rest).length ≤ n) ∧ (n = 1 ∨ ∃ i < first.length, n ≤ is.count i) := by
  obtain ⟨c, c1, c2⟩ := start first rest rfl
  refine ⟨c, c1, ?_⟩
  obtain ⟨q, q1, q2, q3, ⟨q0, q4⟩, -⟩ := (run_ok (by simp) is his c2).1
  simp only [Nat.zero_add] at q2 q3
  refine ⟨max 1 q, ?_, ?_, fun i hi => ?_, ?_⟩
  · unfold Columns.unread
    rw [q4]
  · rw [List.length_cons] at q1 ⊢; omega
  · have := q2 i hi; omega
  · rcases Nat.lt_or_ge q 2 with l | l
    · exact Or.inl (by omega)
    · rcases q3 with q3 | ⟨i, i1, i2⟩
      · omega
      · exact Or.inr ⟨i, i1, by omega⟩

/-- Without a row `unzip` raises `StopIteration`. -/
theorem C136_empty : unzip ([] : List (List A)) = .error .stopIteration := rfl

/-! ### Example: three rows of two entries, read in the order 1, 1, 0, 1, 1, 0 -/

example : ∃ c, unzip [[1, 2], [3, 4], [5, 6]] = .ok c ∧ (c.run [1, 1, 0, 1, 1, 0]).1 =
    [.ok 2, .ok 4, .ok 1, .ok 6, .error .stopIteration, .ok 3] := ⟨_, rfl, rfl⟩

example := C136_schedule [1, 2] [[3, 4], [5, 6]] [1, 1, 0, 1, 1, 0] (by decide)

example := C136_column [1, 2] [[3, 4], [5, 6]] (i := 1) (by decide) (col := [2, 4, 6])
  (fun k => by rcases k with _ | _ | _ | k <;> simp) rfl

/-- After two calls on one column two rows have been read; a short row raises `IndexError`. -/
example : ∃ c, unzip [[1, 2], [3], [5, 6]] = .ok c ∧ (c.run [1, 1]).2.unread = [[5, 6]] ∧ (c.run [1, 1]).1 = [.ok 2, .error .indexError] :=
  ⟨_, rfl, rfl, rfl⟩

end Unzip
