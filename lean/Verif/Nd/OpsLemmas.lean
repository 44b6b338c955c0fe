import Verif.Nd.Ops
import Verif.Nd.Lemmas
import Mathlib.Data.List.Sort

open scoped BigOperators
open Py

theorem pyInsert_eq_insertIdx {β : Type*} (l : List β) (k : ℕ) (x : β) (h : k ≤ l.length) :
    pyInsert l k x = l.insertIdx k x := by
  induction l generalizing k with
  | nil => simp at h; subst h; simp [pyInsert]
  | cons y ys ih =>
    cases k with
    | zero => simp [pyInsert]
    | succ k => simpa [pyInsert] using ih k (by simpa using h)

namespace Nd

variable {α R : Type*}

/-! ### wf and shape -/

section
variable [Zero α]

@[simp] theorem moveaxisCore_shape (a : Nd α) (s d : ℕ) : (a.moveaxisCore s d).shape =
    (a.shape.eraseIdx s).insertIdx d (a.shape.getD s 1) := rfl

theorem moveaxisCore_wf (a : Nd α) (s d : ℕ) : (a.moveaxisCore s d).Wf := ofFn_wf _ _

theorem get_moveaxisCore (a : Nd α) {s d : ℕ} {idx : List ℕ}
    (h : Valid (a.moveaxisCore s d).shape idx) :
    (a.moveaxisCore s d).get idx = a.get ((idx.eraseIdx d).insertIdx s (idx.getD d 0)) := by
  exact get_ofFn _ h

/-- Reading a moved array at an index built by insertion. -/
theorem get_moveaxisCore_insert (a : Nd α) {s d x : ℕ} {p : List ℕ} (hs : s < a.ndim)
    (hd : d < a.ndim) (hp : Valid (a.shape.eraseIdx s) p) (hx : x < a.shape.getD s 1) :
    (a.moveaxisCore s d).get (p.insertIdx d x) = a.get (p.insertIdx s x) := by
  have hl := hp.length_eq
  unfold ndim at *
  rw [List.length_eraseIdx_of_lt hs] at hl
  rw [get_moveaxisCore]
  · rw [eraseIdx_insertIdx_self, getD_insertIdx_self (by omega)]
  · exact hp.insertIdx d hx

@[simp] theorem transposeCore_shape (a : Nd α) (o : List ℕ) : (a.transposeCore o).shape =
    o.map (fun k => a.shape.getD k 1) := rfl

theorem transposeCore_wf (a : Nd α) (o : List ℕ) : (a.transposeCore o).Wf := ofFn_wf _ _

theorem get_transposeCore (a : Nd α) {o idx : List ℕ} (h : Valid (a.transposeCore o).shape idx) :
    (a.transposeCore o).get idx =
      a.get ((List.range a.ndim).map (fun k => idx.getD (o.idxOf k) 0)) := by
  exact get_ofFn _ h

end

section
variable [CommRing R]

@[simp] theorem tensordotCore_shape (a b : Nd R) (i j : ℕ) : (a.tensordotCore i b j).shape =
    a.shape.eraseIdx i ++ b.shape.eraseIdx j := rfl

theorem tensordotCore_wf (a b : Nd R) (i j : ℕ) : (a.tensordotCore i b j).Wf := ofFn_wf _ _

theorem get_tensordotCore (a b : Nd R) {i j : ℕ} {p q : List ℕ} (hi : i < a.ndim)
    (hp : Valid (a.shape.eraseIdx i) p) (hq : Valid (b.shape.eraseIdx j) q) :
    (a.tensordotCore i b j).get (p ++ q) =
      ∑ k ∈ Finset.range (a.shape.getD i 1), a.get (p.insertIdx i k) * b.get (q.insertIdx j k) := by
  unfold tensordotCore
  rw [get_ofFn _ (valid_append hp hq)]
  have hl := hp.length_eq
  unfold ndim at *
  rw [List.length_eraseIdx_of_lt hi] at hl
  simp [← hl]

end

/-! ### block moves -/

theorem foldl_pyInsert_block (src : List ℕ) (i : ℕ) (order : List ℕ) (hi : i ≤ order.length) :
    ((List.range' i src.length).zip src).foldl (fun o (p : ℕ × ℕ) => pyInsert o p.1 p.2) order =
      order.take i ++ src ++ order.drop i := by
  induction src generalizing i order with
  | nil => simp
  | cons x xs ih =>
    simp only [List.length_cons, List.range'_succ, List.zip_cons_cons, List.foldl_cons]
    rw [ih]
    · have h1 : (pyInsert order i x).take (i + 1) = order.take i ++ [x] := by
        unfold pyInsert
        rw [List.take_append, List.take_of_length_le (by simp)]
        simp [Nat.min_eq_left hi]
      have h2 : (pyInsert order i x).drop (i + 1) = order.drop i := by
        unfold pyInsert
        rw [List.drop_append, List.drop_of_length_le (by simp)]
        simp [Nat.min_eq_left hi]
      rw [h1, h2]; simp
    · simp [pyInsert]; omega

theorem moveOrder_block (l₁ l₂ i : ℕ) (hi : i ≤ l₁) :
    moveOrder (l₁ + l₂) (List.range' l₁ l₂) (List.range' i l₂) =
      List.range' 0 i ++ List.range' l₁ l₂ ++ List.range' i (l₁ - i) := by
  unfold moveOrder
  rw [List.mergeSort_of_pairwise]
  · have hf : (List.range (l₁ + l₂)).filter (fun n => n ∉ List.range' l₁ l₂) = List.range l₁ := by
      rw [List.range_add, List.filter_append]
      have h1 : (List.range l₁).filter (fun n => n ∉ List.range' l₁ l₂) = List.range l₁ := by
        rw [List.filter_eq_self]; intro a ha; simp at ha ⊢; omega
      have h2 : (List.map (fun x => l₁ + x) (List.range l₂)).filter
          (fun n => n ∉ List.range' l₁ l₂) = [] := by
        rw [List.filter_eq_nil_iff]; intro a ha; simp at ha ⊢; omega
      rw [h1, h2, List.append_nil]
    rw [hf]
    have := foldl_pyInsert_block (List.range' l₁ l₂) i (List.range l₁) (by simpa)
    rw [List.length_range'] at this
    rw [this]
    congr 2
    · rw [List.take_range, Nat.min_eq_left hi, List.range_eq_range']
    · rw [List.range_eq_range', List.drop_range']; simp
  · rw [List.pairwise_iff_getElem]
    intro a b ha hb hab
    simp at ha hb
    simp; left; omega

theorem unperm_block {p₁ q p₂ : List ℕ} (l₁ : ℕ) (hl : p₁.length + p₂.length = l₁) :
    (List.range (l₁ + q.length)).map (fun k => (p₁ ++ q ++ p₂).getD
      ((List.range' 0 p₁.length ++ List.range' l₁ q.length ++
        List.range' p₁.length (l₁ - p₁.length)).idxOf k) 0) = p₁ ++ p₂ ++ q := by
  have idxr : ∀ (s n k : ℕ), s ≤ k → k < s + n → (List.range' s n).idxOf k = k - s := by
    intro s n k h1 h2
    have hnd : (List.range' s n).Nodup := List.nodup_range'
    have hlt : k - s < (List.range' s n).length := by simp; omega
    have := hnd.idxOf_getElem (k - s) hlt
    simpa [Nat.add_sub_cancel' h1] using this
  refine List.ext_getElem (by simp; omega) fun n h1 h2 => ?_
  simp only [List.length_map, List.length_range] at h1
  simp only [List.getElem_map, List.getElem_range, List.append_assoc]
  rcases Nat.lt_or_ge n p₁.length with hn | hn
  · rw [List.idxOf_append_of_mem (by simp; omega), idxr _ _ _ (by omega) (by omega),
      Nat.sub_zero, List.getD_eq_getElem _ _ (by simp; omega)]
    simp [List.getElem_append_left, hn]
  · rw [List.idxOf_append_of_notMem (by simp; omega)]
    rcases Nat.lt_or_ge n l₁ with hn2 | hn2
    · rw [List.idxOf_append_of_notMem (by simp; omega), idxr _ _ _ (by omega) (by omega),
        List.getD_eq_getElem _ _ (by simp; omega)]
      simp only [List.length_range']
      rw [List.getElem_append_right (by omega), List.getElem_append_right (by omega),
        List.getElem_append_right (by omega), List.getElem_append_left (by omega)]
      congr 1; omega
    · rw [List.idxOf_append_of_mem (by simp; omega), idxr _ _ _ (by omega) (by omega),
        List.getD_eq_getElem _ _ (by simp; omega)]
      simp only [List.length_range']
      rw [List.getElem_append_right (by omega), List.getElem_append_left (by omega),
        List.getElem_append_right (by omega), List.getElem_append_right (by omega)]
      congr 1; omega

end Nd
