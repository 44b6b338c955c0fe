import Verif.Lemmas.Absorb2
import Verif.Lemmas.Conserve4

/-! The dimensions of two united tensors, and of the bond after they are split; for C134. -/

open scoped BigOperators
open Py

namespace Heap

section Lists

theorem map_getD_mid (a b c : List ℕ) : (List.range' a.length b.length).map (fun k => (a ++ (b ++ c)).getD k 1) = b := by
  refine List.ext_getElem (by simp) fun k q1 q2 => ?_
  simp only [List.getElem_map, List.getElem_range', Nat.one_mul]
  rw [List.getD_eq_getElem?_getD, List.getElem?_append_right (by omega), List.getElem?_append_left (by omega)]
  simp [q2]

theorem map_getD_left (a b : List ℕ) : (List.range a.length).map (fun k => (a ++ b).getD k 1) = a := by
  refine List.ext_getElem (by simp) fun k q1 q2 => ?_
  simp only [List.getElem_map, List.getElem_range]
  rw [List.getD_eq_getElem?_getD, List.getElem?_append_left (by omega)]
  simp [q2]

theorem map_getD_right (a b c : List ℕ) : (List.range' (a.length + b.length) c.length).map (fun k => (a ++ (b ++ c)).getD k 1) = c := by
  refine List.ext_getElem (by simp) fun k q1 q2 => ?_
  simp only [List.getElem_map, List.getElem_range', Nat.one_mul]
  rw [List.getD_eq_getElem?_getD, List.getElem?_append_right (by omega), List.getElem?_append_right (by omega),
    show a.length + b.length + k - a.length - b.length = k by omega]
  simp [q2]

theorem take_map {l : List ℕ} {i : ℕ} (hi : i ≤ l.length) : (List.range i).map (fun k => l.getD k 1) = l.take i := by
  have := map_getD_left (l.take i) (l.drop i)
  rwa [List.take_append_drop, List.length_take, min_eq_left hi] at this

theorem drop_map {l : List ℕ} {i : ℕ} (hi : i < l.length) : (List.range' (i + 1) (l.length - i - 1)).map (fun k => l.getD k 1) = l.drop (i + 1) := by
  have := map_getD_mid (l.take (i + 1)) (l.drop (i + 1)) []
  rw [List.append_nil, List.take_append_drop, List.length_take, min_eq_left (by omega), List.length_drop] at this
  rw [← this]
  congr 2

end Lists

variable {R : Type} [CommRing R]

/-- The dimensions of the united tensor. -/
theorem labels_dims {h : Heap R} {t i fin j : ℕ} {A B : Nd R} (hA : h.Full t A) (hB : h.Full fin B) (hin : i < A.ndim) (hjn : j < B.ndim) :
    (uniteLabels t i A.ndim fin j B.ndim).map h.hdim = A.shape.take i ++ (B.shape.eraseIdx j ++ A.shape.drop (i + 1)) := by
  unfold uniteLabels
  simp only [List.map_append, List.map_map, Function.comp_def, hA.hdim_eq, hB.hdim_eq]
  rw [take_map (Nat.le_of_lt hin), take_map (Nat.le_of_lt hjn), List.eraseIdx_eq_take_drop_succ]
  have e1 := drop_map hin
  have e2 := drop_map hjn
  unfold Nd.ndim
  rw [e1, e2]
  simp

theorem MidUnite.shape {h h1 : Heap R} {t i fin j mid : ℕ} {A B C : Nd R} (m : h.MidUnite h1 t i fin j mid A.ndim B.ndim) (hA : h.Full t A) (hB : h.Full fin B)
    (hin : i < A.ndim) (hjn : j < B.ndim) (hC : h1.Full mid C) : C.shape = A.shape.take i ++ (B.shape.eraseIdx j ++ A.shape.drop (i + 1)) := by
  rw [← labels_dims hA hB hin hjn]
  obtain ⟨C', hC', hn⟩ := m.fullMid
  obtain rfl : C = C' := Option.some.inj (hC.array.symm.trans hC'.array)
  refine List.ext_getElem (by rw [List.length_map]; exact hn) fun k q1 q2 => ?_
  rw [List.length_map] at q2
  have := m.dimsMid k _ (List.getElem?_eq_getElem q2)
  rw [hC.hdim_eq, List.getD_eq_getElem _ _ q1] at this
  rw [this, List.getElem_map]

/-- The bond after the split. -/
theorem split_rank_many {csvd : Svd R} (hsv : SvdShape csvd) (hfu : SvdFull csvd) {h h1 : Heap R} {t i fin j mid : ℕ} {A : Nd R} {l r b : List ℕ} (hi : h.LinkInv) (hA : h.Full mid A)
    (hlt : t < h.next) (hlf : fin < h.next) (hsh : A.shape = l ++ (b ++ r)) (hl : l.length = i) {m : ℕ} (hm : b.length = m) (hj : j ≤ m) (hft : fin ≠ t) {nr : Bool}
    (e : h.split csvd mid (.many ((List.range m).map fun k => i + k)) (some (j, i)) (some fin) (some t) nr = .ok (h1, fin, t)) :
    h1.hdim (t, i) = min b.prod (l ++ r).prod := by
  obtain ⟨a', shape1', shape2', n1', n2', ra', ca', g1, g2, g3, info, -, f1, f2, f3, f4, f5, f6, f7, f8, rfl⟩ := split_iff.1 e
  rw [hA.array] at f1; cases f1
  have hord := hA.order hi.wf
  have hax : axes1Of (.many ((List.range m).map fun k => i + k)) = List.range' i m := by
    simp only [axes1Of]; rw [usAxes, insertionSort_range']
  have hn : A.ndim = (i + r.length + 1) + m - 1 := by unfold Nd.ndim; rw [hsh]; simp; omega
  have hax2 : axes2Of A.ndim (List.range' i m) = List.range i ++ List.range' (i + m) r.length := by
    rw [hn, axes2_range' (by omega)]
    congr 2; omega
  have sh1 : shapeOn A.shape (axes1Of (.many ((List.range m).map fun k => i + k))) = .ok ((List.range' i m).map fun k => A.shape.getD k 1) := by
    rw [hax]
    refine shapeOn_ok _ fun x hx => ?_
    have := List.mem_range'_1.1 hx
    show x < A.ndim
    omega
  have sh2 : shapeOn A.shape (axes2Of (h.order mid) (axes1Of (.many ((List.range m).map fun k => i + k)))) = .ok ((axes2Of A.ndim (List.range' i m)).map fun k => A.shape.getD k 1) := by
    rw [hord, hax]
    refine shapeOn_ok _ fun x hx => ?_
    unfold axes2Of at hx
    exact List.mem_range.1 (List.mem_filter.1 hx).1
  obtain ⟨ra, ca, a1, a2⟩ := splitArrays_rank (axes1 := List.range' i m) (i1 := j) (i2 := i) hsv hfu hA.wf hA.pos List.pairwise_lt_range'
    (by intro x hx; have := List.mem_range'_1.1 hx; omega) (by simpa using hj) (by rw [hax2]; simp)
  obtain ⟨k1, k2, k3, -⟩ := split_core hi hA.leaf (by intro x hx; cases hx; exact hlf) (by intro x hx; cases hx; exact hlt) hft hA.array sh1 sh2 f4
    (axis := .many ((List.range m).map fun k => i + k)) (indice := some (j, i)) (root := some fin) (child := some t) (by rw [hax]; exact a1) e
  unfold hdim
  simp only [k3]
  rw [a2, List.getD_eq_getElem?_getD, List.getElem?_map, pyInsert_eq_insertIdx _ _ _ (by rw [hax2]; simp),
    List.getElem?_insertIdx_self, if_pos (by rw [hax2]; simp)]
  simp only [Option.map_some, Option.getD_some, dimO]
  subst hl hm
  rw [hax2, List.map_append, hsh, map_getD_mid, map_getD_right, map_getD_left]

end Heap
