import Verif.Lemmas.Truncate
import Verif.Props.C21

/-!
The arrays `split` makes with a truncating decomposition, next to those it makes without truncation.
-/

open scoped BigOperators

open Py

namespace CompressedSvd

variable {K : Type} [CommRing K] [LinearOrder K] [IsStrictOrderedRing K] {R : Type} [CommRing R] [Algebra K R]

theorem errLoop_pos {err : K} : ∀ {l : List (K × ℕ)} {t : K} {r : ℤ}, errLoop err l t = some r → 0 < r
  | [], _, _, e => by cases e
  | (si, n) :: l, t, r, e => by
    unfold errLoop at e
    simp only at e
    split at e
    · cases e; omega
    · exact errLoop_pos e

theorem finalRank_pos {s : List K} {rank : Option ℤ} {err : Option K} (hr : ∀ r, rank = some r → 0 < r) {r : ℤ}
    (e : finalRank s rank err = some r) : 0 < r := by
  unfold finalRank at e
  cases err with
  | none => exact hr r e
  | some x =>
    simp only at e
    cases hl : errLoop x s.zipIdx.reverse 0 with
    | some q => rw [hl] at e; cases e; exact errLoop_pos hl
    | none =>
      rw [hl] at e
      cases rank with
      | none => cases e; omega
      | some q => exact hr r e

/-- What a truncating decomposition returns: the leading `k` parts. -/
theorem parts {a : Nd R} {m n : ℕ} {svd : Nd R → Nd R × List K × Nd R} (h : IsSvd a m n (svd a))
    {rank : Option ℤ} (err : Option K) (hr : ∀ r, rank = some r → 0 < r) :
    ∃ k u s vh, compressedSvd svd rank err a = .ok (u, s, vh) ∧ k ≤ (svd a).2.1.length ∧ (0 < min m n → 0 < k) ∧
      u.Wf ∧ u.shape = [m, k] ∧ s.Wf ∧ s.shape = [k, k] ∧ vh.Wf ∧ vh.shape = [k, n] ∧
      (∀ x < m, ∀ z < k, u.get [x, z] = (svd a).1.get [x, z]) ∧
      (∀ z < k, ∀ w < k, s.get [z, w] = if z = w then algebraMap K R ((svd a).2.1.getD z 0) else 0) ∧
      (∀ z < k, ∀ y < n, vh.get [z, y] = (svd a).2.2.get [z, y]) := by
  obtain ⟨u, s, vh, e1, e2, e3, e4, e5, e6, e7, e8, e9, e10, e11⟩ :=
    compress_eq (rank := rank) (err := err) h.u_shape h.u_wf h.vh_shape h.vh_wf (fun r e => finalRank_pos hr e)
  refine ⟨_, u, s, vh, e1, e8, fun h0 => ?_, e2, e3, e4, e5, e6, e7, e9, e10, e11⟩
  have hl : 0 < (svd a).2.1.length := by rw [h.len]; exact h0
  cases hf : finalRank (svd a).2.1 rank err with
  | none => exact hl
  | some r =>
    have := finalRank_pos hr hf
    unfold kept
    simp only
    split <;> omega

variable [StarRing R] {svd : Nd R → Nd R × List K × Nd R}
    (h : ∀ (a : Nd R) (m n : ℕ), a.Wf → a.shape = [m, n] → IsSvd a m n (svd a))
    {rank : Option ℤ} (err : Option K) (hr : ∀ r, rank = some r → 0 < r)

include h hr

omit [StarRing R] in
theorem shape_of_parts : Heap.SvdShape (compressedSvd svd rank err) := by
  intro a m n hw hs hm hn
  obtain ⟨k, u, s, vh, e1, -, e2, e3, e4, e5, e6, e7, e8, -⟩ := parts (h a m n hw hs) err hr
  exact ⟨k, u, s, vh, e1, e2 (by omega), e3, e4, e5, e6, e7, e8⟩

theorem iso_of_parts
    (ho : ∀ (a : Nd R) (m n : ℕ), a.Wf → a.shape = [m, n] → ∀ z w, z < min m n → w < min m n →
      ∑ y ∈ Finset.range n, (svd a).2.2.get [z, y] * star ((svd a).2.2.get [w, y]) = if z = w then 1 else 0) :
    Heap.SvdIso (compressedSvd svd rank err) := by
  intro a m n u s vh r hw hs he hrs z w hz hw'
  obtain ⟨k, u', s', vh', e1, e2, -, -, -, -, -, -, e8, -, -, e11⟩ := parts (h a m n hw hs) err hr
  rw [he] at e1; cases e1
  rw [hrs] at e8
  have hk : r = k := by simpa using e8
  subst hk
  rw [(h a m n hw hs).len] at e2
  rw [← ho a m n hw hs z w (by omega) (by omega)]
  refine Finset.sum_congr rfl fun y hy => ?_
  rw [e11 z hz y (Finset.mem_range.1 hy), e11 w hw' y (Finset.mem_range.1 hy)]

end CompressedSvd

/-- An array with one axis more than a list of axes: its entries, by the indices of the axes and that of the extra one. -/
theorem Nd.Lab.insert_get {R : Type} [CommRing R] {A : Nd R} {axes : List ℕ} (hnd : axes.Nodup) {i r : ℕ} (hi : i ≤ axes.length) {dim : ℕ → ℕ}
    {φ : (Option ℕ → ℕ) → R} (hA : A.Lab (pyInsert (axes.map some) i none) (Heap.dimO r dim) φ) {p : List ℕ}
    (hp : Valid (axes.map dim) p) {z : ℕ} (hz : z < r) :
    ∃ f : Option ℕ → ℕ, f none = z ∧ (axes.map fun k => f (some k)) = p ∧ A.get (p.insertIdx i z) = φ f := by
  have hl := hp.length_eq
  rw [List.length_map] at hl
  let f : Option ℕ → ℕ := fun o => match o with
    | none => z
    | some k => p.getD (axes.idxOf k) 0
  have hfm : (axes.map fun k => f (some k)) = p := by
    refine List.ext_getElem (by simp [hl]) fun q h1 h2 => ?_
    simp only [List.length_map] at h1
    rw [List.getElem_map]
    simp only [f]
    rw [hnd.idxOf_getElem q h1, List.getD_eq_getElem _ _ (by omega)]
  refine ⟨f, rfl, hfm, ?_⟩
  have hg := hA.get f (by
    intro o ho
    rw [pyInsert_eq_insertIdx _ _ _ (by simpa using hi), List.mem_insertIdx (by simpa using hi)] at ho
    rcases ho with rfl | ho
    · exact hz
    · obtain ⟨k, hk, rfl⟩ := List.mem_map.1 ho
      have h1 := List.idxOf_lt_length_iff.2 hk
      have := hp.getD_lt (k := axes.idxOf k) (by simpa using h1) 0 1
      rw [List.getD_eq_getElem (axes.map dim) _ (by simpa using h1), List.getElem_map, List.getElem_idxOf h1] at this
      exact this)
  rw [← hg]
  congr 1
  rw [pyInsert_eq_insertIdx _ _ _ (by simpa using hi), Nd.map_insertIdx, List.map_map]
  rw [← hfm]
  rfl

namespace Heap

variable {K : Type} [CommRing K] [LinearOrder K] [IsStrictOrderedRing K] {R : Type} [CommRing R] [Algebra K R]

/-- `ra` and `ca` are the `r` leading columns of `U` and rows of `V`, with the indices of rows and columns written out in
the dimensions `d1` and `d2`, and the bond at axes `i1` and `i2`. -/
structure Factor (ra ca : Nd R) (d1 d2 : List ℕ) (i1 i2 r : ℕ) (U V : ℕ → ℕ → R) : Prop where
  wfR : ra.Wf
  wfC : ca.Wf
  shapeR : ra.shape = d1.insertIdx i1 r
  shapeC : ca.shape = d2.insertIdx i2 r
  getR : ∀ p, Valid d1 p → ∀ z < r, ra.get (p.insertIdx i1 z) = U (ravel d1 p) z
  getC : ∀ p, Valid d2 p → ∀ z < r, ca.get (p.insertIdx i2 z) = V z (ravel d2 p)

theorem splitArrays_factor {svd : Nd R → Nd R × List K × Nd R}
    (h : ∀ (a : Nd R) (m n : ℕ), a.Wf → a.shape = [m, n] → CompressedSvd.IsSvd a m n (svd a))
    {A : Nd R} (hw : A.Wf) (hpos : ∀ d ∈ A.shape, 0 < d) {axes1 : List ℕ}
    (hs : axes1.Pairwise (· < ·)) (hlt : ∀ x ∈ axes1, x < A.ndim) {i1 i2 : ℕ} (h1 : i1 ≤ axes1.length)
    (h2 : i2 ≤ (axes2Of A.ndim axes1).length) :
    ∃ M : Nd R, M.Wf ∧
      M.shape = [(axes1.map fun k => A.shape.getD k 1).prod, ((axes2Of A.ndim axes1).map fun k => A.shape.getD k 1).prod] ∧
      0 < (axes1.map fun k => A.shape.getD k 1).prod ∧ 0 < ((axes2Of A.ndim axes1).map fun k => A.shape.getD k 1).prod ∧
      ∀ (rank : Option ℤ) (err : Option K), (∀ r, rank = some r → 0 < r) → ∃ k u s vh ra ca, 0 < k ∧
        k ≤ (svd M).2.1.length ∧ CompressedSvd.compressedSvd svd rank err M = .ok (u, s, vh) ∧ s.shape = [k, k] ∧
        splitArrays (CompressedSvd.compressedSvd svd rank err) A axes1 (axes1.map fun k => A.shape.getD k 1)
            ((axes2Of A.ndim axes1).map fun k => A.shape.getD k 1) i1 i2 = .ok (ra, ca) ∧
        Factor ra ca (axes1.map fun k => A.shape.getD k 1) ((axes2Of A.ndim axes1).map fun k => A.shape.getD k 1) i1 i2 k
          (fun x z => (svd M).1.get [x, z] * algebraMap K R ((svd M).2.1.getD z 0)) (fun z y => (svd M).2.2.get [z, y]) := by
  obtain ⟨M, m1, m2, m3, m4, m5⟩ := splitArrays_explicit hw hpos hs hlt h1 h2
  refine ⟨M, m1, m2, m3, m4, fun rank err hr => ?_⟩
  obtain ⟨k, u, s, vh, e1, e2, e2', e3, e4, e5, e6, e7, e8, e9, e10, e11⟩ := CompressedSvd.parts (h M _ _ m1 m2) err hr
  have hk : 0 < k := e2' (by omega)
  obtain ⟨ra, ca, c1, c2, c3⟩ := m5 (CompressedSvd.compressedSvd svd rank err) k u s vh e1 hk e3 e4 e5 e6 e7 e8
  refine ⟨k, u, s, vh, ra, ca, hk, e2, e1, e6, c1, c2.wf, c3.wf, ?_, ?_, fun p hp z hz => ?_, fun p hp z hz => ?_⟩
  · rw [c2.shape, pyInsert_eq_insertIdx _ _ _ (by simpa using h1), Nd.map_insertIdx, List.map_map]; rfl
  · rw [c3.shape, pyInsert_eq_insertIdx _ _ _ (by simpa using h2), Nd.map_insertIdx, List.map_map]; rfl
  · obtain ⟨f, f1, f2, f3⟩ := c2.insert_get (hs.imp Nat.ne_of_lt) h1 hp hz
    have hx := ravel_lt hp
    rw [f3, f1, f2]
    rw [Finset.sum_eq_single z]
    · rw [e9 _ hx z hz, e10 z hz z hz, if_pos rfl]
    · intro w hw hwz
      rw [e10 w (Finset.mem_range.1 hw) z hz, if_neg hwz, mul_zero]
    · intro q; exact absurd (Finset.mem_range.2 hz) q
  · obtain ⟨f, f1, f2, f3⟩ := c3.insert_get (show (axes2Of A.ndim axes1).Nodup from List.nodup_range.filter _) h2 hp hz
    have hy := ravel_lt hp
    rw [f3, f1, f2]
    exact e11 z hz _ hy

end Heap
