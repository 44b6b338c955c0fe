import Verif.Lemmas.Truncate2
import Verif.Props.C10

/-!
The two tensors that a truncated `unite_split` leaves on the bond.
-/

open scoped BigOperators

open Py

namespace Heap

variable {K : Type} [CommRing K] [LinearOrder K] [IsStrictOrderedRing K] {R : Type} [CommRing R] [Algebra K R]

omit [Algebra K R] in
theorem uniteSplit_inv {csvd : Svd R} {h h' : Heap R} {fuel r i fin j r' mid : ℕ} {nrm : Option Bool}
    (hb : h.acc r i = some (fin, j)) (e : h.uniteSplit fuel csvd r i none nrm = .ok (h', r', mid, fin)) :
    ∃ h1 x y, h.unite r i none (nrm.getD ((h.node r).normalized && (h.node fin).normalized)) = .ok (h1, mid) ∧
      h1.split csvd mid (.many ((List.range (h.order fin - 1)).map fun k => i + k)) (some (j, i)) (some fin) (some r)
        (nrm.getD ((h.node r).normalized && (h.node fin).normalized)) = .ok (h', x, y) := by
  unfold uniteSplit at e
  have hb' : Dict.get? (h.access r) i = some (fin, j) := hb
  simp only [Dict.get!, hb', ok_bind] at e
  simp only [bind_eq_ok] at e
  obtain ⟨old, -, ⟨h1, mid1⟩, e2, ⟨h2, mid2⟩, e3, ⟨h3, x, y⟩, e4, new, -, e6⟩ := e
  simp only at e3 e4 e6
  have e3' : h1 = h2 ∧ mid1 = mid2 := by
    have : (.ok (h1, mid1) : Res (Heap R × ℕ)) = .ok (h2, mid2) := e3
    cases this; exact ⟨rfl, rfl⟩
  obtain ⟨rfl, rfl⟩ := e3'
  split at e6
  · cases e6
    exact ⟨h1, x, y, e2, e4⟩
  · cases e6

theorem uniteSplit_factor {svd : Nd R → Nd R × List K × Nd R}
    (hsvd : ∀ (a : Nd R) (m n : ℕ), a.Wf → a.shape = [m, n] → CompressedSvd.IsSvd a m n (svd a))
    {h : Heap R} {r : ℕ} {F : Forest} (ht : h.IsTTN r F)
    (hpl : h.PlainNames (h.tensors r F)) (hax : (h.node r).axis = none) {i fin j : ℕ}
    (hb : h.acc r i = some (fin, j)) (hl : h.isLeaf fin = false) (nrm : Option Bool) {fuel : ℕ}
    (hfu : F.depth < fuel) :
    ∃ (mid : ℕ) (M : Nd R) (d1 d2 : List ℕ), M.Wf ∧ M.shape = [d1.prod, d2.prod] ∧ 0 < d1.prod ∧ 0 < d2.prod ∧
      j ≤ d1.length ∧ i ≤ d2.length ∧
      ∀ (rank : Option ℤ) (err : Option K), (∀ r, rank = some r → 0 < r) → ∃ h' k u s vh ra ca,
        h.uniteSplit fuel (CompressedSvd.compressedSvd svd rank err) r i none nrm = .ok (h', r, mid, fin) ∧
        MoveSpec (CompressedSvd.compressedSvd svd rank err) none h h' r i fin j mid ∧
        h'.array fin = some ra ∧ h'.array r = some ca ∧ 0 < k ∧ k ≤ (svd M).2.1.length ∧
        CompressedSvd.compressedSvd svd rank err M = .ok (u, s, vh) ∧ s.shape = [k, k] ∧
        Factor ra ca d1 d2 j i k
          (fun x z => (svd M).1.get [x, z] * algebraMap K R ((svd M).2.1.getD z 0)) (fun z y => (svd M).2.2.get [z, y]) := by
  have hn := ht.isNet
  have hrT : r ∈ h.tensors r F := mem_tensors.2 ⟨.inl rfl, ht.leaf⟩
  have hfT : fin ∈ h.tensors r F := by
    refine mem_tensors.2 ⟨(ht.mem_linked fin).2 ?_, hl⟩
    exact Relation.ReflTransGen.single ⟨i, j, hb⟩
  obtain ⟨A, hA⟩ := hn.full r hrT
  obtain ⟨B, hB⟩ := hn.full fin hfT
  obtain ⟨n1, hn1⟩ := hn.names r hrT
  obtain ⟨n2, hn2⟩ := hn.names fin hfT
  have hp1 := hpl r hrT n1 hn1
  have hp2 := hpl fin hfT n2 hn2
  obtain ⟨s1, s2⟩ := hn.simple r hrT i fin j hb hfT
  have hbs := hn.links.sym _ _ _ _ hb
  have hin : i < A.ndim := (hA.acc i).1 (by rw [hb]; simp)
  have hjn : j < B.ndim := (hB.acc j).1 (by rw [hbs]; simp)
  have hord := hB.order hn.links.wf
  obtain ⟨h1, mid, e1, m, -⟩ := uniteSplit_steps
    (CompressedSvd.shape_of_parts hsvd (rank := none) none (by simp)) hn.links hA hB hb s1.symm
    (fun k l e => (hn.simple r hrT k r l e hrT).1 rfl)
    (fun k l e => (hn.simple fin hfT k fin l e hfT).1 rfl) (fun k l e => s2 k l e) (.inl hax)
    (by
      rcases hn.mem_bond hrT hfT hb with q | q
      · exact hn.dims _ q
      · exact (hn.dims _ q).symm) hn1 hp1 hn2 hp2 (nrm.getD ((h.node r).normalized && (h.node fin).normalized))
  obtain ⟨a, ha, han⟩ := m.fullMid
  obtain ⟨-, -, -, -, q5⟩ := getElem?_uniteLabels (s := r) (t := fin) hin hjn
  have hmid : h1.order mid = a.ndim := ha.order m.links.wf
  have hax1 : axes1Of (.many ((List.range (h.order fin - 1)).map fun k => i + k)) = List.range' i (B.ndim - 1) := by
    simp only [axes1Of]
    rw [hord, usAxes, insertionSort_range']
  have lenA2 : (axes2Of a.ndim (List.range' i (B.ndim - 1))).length = A.ndim - 1 := by
    have e : a.ndim = A.ndim + (B.ndim - 1) - 1 := by rw [han, q5]; omega
    rw [e, axes2_range' hin]; simp; omega
  have hlt1 : ∀ x ∈ List.range' i (B.ndim - 1), x < a.ndim := by
    intro x hx; have := List.mem_range'_1.1 hx; rw [han, q5]; omega
  obtain ⟨M, m1, m2, m3, m4, m5⟩ := splitArrays_factor hsvd ha.wf ha.pos (axes1 := List.range' i (B.ndim - 1))
    List.pairwise_lt_range' hlt1 (i1 := j) (i2 := i) (by simp; omega) (by rw [lenA2]; omega)
  refine ⟨mid, M, _, _, m1, m2, m3, m4, by simp; omega, by rw [List.length_map, lenA2]; omega, fun rank err hr => ?_⟩
  obtain ⟨k, u, s, vh, ra, ca, k1, k2, k3, k4, k5, k6⟩ := m5 rank err hr
  obtain ⟨h', mid', e, mv⟩ := uniteSplit_tree (CompressedSvd.shape_of_parts hsvd err hr) goodOp_none ht hpl hax hb hl nrm hfu
  obtain ⟨h1', x, y, e2, e3⟩ := uniteSplit_inv hb e
  rw [e1] at e2
  cases e2
  have e3' := e3
  obtain ⟨a', shape1, shape2, nm1, nm2, ra', ca', g1, g2, g3, info, f0, f1, f2, f3, f4, f5, f6, f7, f8, f9⟩ := split_iff.1 e3
  rw [ha.array] at f1; cases f1
  have hi' : indiceOf (.many ((List.range (h.order fin - 1)).map fun k => i + k)) (some (j, i)) = (j, i) := rfl
  have f2' := f2
  have f3' := f3
  rw [hax1, shapeOn_ok _ hlt1] at f2
  rw [hax1, hmid, shapeOn_ok _ (by intro x hx; unfold axes2Of at hx; simpa using (List.mem_filter.1 hx).1)] at f3
  cases f2; cases f3
  have f5' := f5
  rw [hax1, hi', k5] at f5
  cases f5
  have hxy : x = fin ∧ y = r := by
    simp only [Heap.place] at f6 f7
    cases f6; cases f7; exact ⟨rfl, rfl⟩
  obtain ⟨rfl, rfl⟩ := hxy
  have hml := m.links
  have hlt : ∀ c, c < h.next → c < h1.next := fun c hc => by have := m.fresh; have := m.lt; omega
  have hc := split_core hml ha.leaf (by rintro c hc; cases hc; exact hlt _ (hn.lt _ hfT))
    (by rintro c hc; cases hc; exact hlt _ (hn.lt _ hrT)) s1 ha.array f2' f3' f4 f5' e3'
  exact ⟨h', k, u, s, vh, ra, ca, e, mv, hc.2.1, hc.2.2.1, k1, k2, k3, k4, k6⟩

end Heap
