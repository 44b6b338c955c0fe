import Verif.Spec.Complete
import Verif.Lemmas.Moves

/-! The new bond dimension after `split`, for C134. -/

open scoped BigOperators
open Py

namespace Heap

variable {R : Type} [CommRing R]

theorem splitArrays_rank {csvd : Svd R} (hsv : SvdShape csvd) (hfu : SvdFull csvd) {A : Nd R} (hw : A.Wf)
    (hpos : ∀ d ∈ A.shape, 0 < d) {axes1 : List ℕ} (hs : axes1.Pairwise (· < ·))
    (hlt : ∀ x ∈ axes1, x < A.ndim) {i1 i2 : ℕ} (h1 : i1 ≤ axes1.length)
    (h2 : i2 ≤ (axes2Of A.ndim axes1).length) :
    ∃ ra ca,
      splitArrays csvd A axes1 (axes1.map fun k => A.shape.getD k 1)
        ((axes2Of A.ndim axes1).map fun k => A.shape.getD k 1) i1 i2 = .ok (ra, ca) ∧
      ca.shape = (pyInsert ((axes2Of A.ndim axes1).map some) i2 none).map
        (dimO (min (axes1.map fun k => A.shape.getD k 1).prod ((axes2Of A.ndim axes1).map fun k => A.shape.getD k 1).prod) fun k => A.shape.getD k 1) := by
  set dim := fun k => A.shape.getD k 1 with hdim
  have hmem2 : ∀ k, k ∈ axes2Of A.ndim axes1 ↔ k < A.ndim ∧ k ∉ axes1 := by
    intro k; unfold axes2Of; simp
  have hdpos : ∀ k, 0 < dim k := by
    intro k
    simp only [hdim]
    by_cases hk : k < A.shape.length
    · rw [List.getD_eq_getElem _ _ hk]; exact hpos _ (List.getElem_mem hk)
    · rw [List.getD_eq_default _ _ (by omega)]; exact Nat.one_pos
  have hppos : ∀ l : List ℕ, 0 < (l.map dim).prod := by
    intro l
    induction l with
    | nil => simp
    | cons x l ih => simp only [List.map_cons, List.prod_cons]; exact Nat.mul_pos (hdpos x) ih
  have hlab0 : A.Lab ([] ++ axes2Of A.ndim []) dim (fun f => A.get ((List.range A.ndim).map f)) := by
    have : axes2Of A.ndim [] = List.range A.ndim := by unfold axes2Of; simp
    rw [this, List.nil_append]
    exact Nd.Lab.self hw
  obtain ⟨B, b1, b2⟩ := moveaxis_loop axes1 [] (by simpa using hs) (by simpa using hlt) A hlab0
  simp only [List.nil_append] at b2
  obtain ⟨M, m1, m2, m3, m4⟩ := b2.reshape_matrix
  set m := (axes1.map dim).prod with hm
  set n := ((axes2Of A.ndim axes1).map dim).prod with hn
  have hm0 : 0 < m := hppos _
  have hn0 : 0 < n := hppos _
  obtain ⟨r, u, s, vh, c1, c2, c3, c4, c5, c6, c7, c8⟩ := hsv M m n m2 m3 hm0 hn0
  have hrk : r = min m n := by
    have := hfu M m n u s vh m2 m3 c1
    rw [c8] at this
    simpa using this
  obtain ⟨us, d1, d2, d3, d4⟩ := Tensor.matmul_spec u s c4 c6
  -- root array
  have er : us.reshapeInfer (axes1.map dim) [] = .ok ⟨axes1.map dim ++ [r], us.data⟩ := by
    unfold Nd.reshapeInfer
    have : us.shape.prod = m * r := by rw [d3]; simp
    simp only [List.prod_nil, Nat.mul_one, List.append_nil]
    rw [if_neg (by simp [this, ← hm]; omega)]
    rw [this, ← hm, Nat.mul_div_cancel_left r hm0]
  have lr : (⟨axes1.map dim ++ [r], us.data⟩ : Nd R).Lab (axes1.map some ++ [none]) (dimO r dim)
      (fun f => us.get [ravel (axes1.map dim) (axes1.map fun k => f (some k)), f none]) := by
    refine ⟨?_, ?_, ?_⟩
    · unfold Nd.Wf; rw [d2, d3]; simp [← hm]
    · simp [dimO, Function.comp_def]
    · intro f hf
      simp only [Nd.get, d3, List.map_append, List.map_map, List.map_cons, List.map_nil]
      rw [ravel_append (by simp)]
      simp [ravel, Function.comp_def]
  obtain ⟨ra, f1, f2⟩ := lr.moveaxis (s := axes1.length) (d := i1) (by simp) (by simp; omega)
  have lra : ((axes1.map some ++ [none]).eraseIdx axes1.length).insertIdx i1
      ((axes1.map some ++ [none])[axes1.length]'(by simp)) = pyInsert (axes1.map some) i1 none := by
    rw [pyInsert_eq_insertIdx _ _ _ (by simpa using h1)]
    have q1 : (axes1.map some ++ [(none : Option ℕ)]).eraseIdx axes1.length = axes1.map some := by
      rw [List.eraseIdx_append_of_length_le (by simp)]; simp
    have q2 : (axes1.map some ++ [(none : Option ℕ)])[axes1.length]'(by simp) = none := by
      rw [List.getElem_append_right (by simp)]; simp
    rw [q1, q2]
  rw [lra] at f2
  -- child array
  have ec : vh.reshapeInfer [] ((axes2Of A.ndim axes1).map dim) =
      .ok ⟨r :: (axes2Of A.ndim axes1).map dim, vh.data⟩ := by
    unfold Nd.reshapeInfer
    have : vh.shape.prod = r * n := by rw [c8]; simp
    simp only [List.prod_nil, Nat.one_mul, List.nil_append]
    rw [if_neg (by simp [this, ← hn]; omega)]
    rw [this, ← hn, Nat.mul_div_cancel _ hn0]; rfl
  have lc : (⟨r :: (axes2Of A.ndim axes1).map dim, vh.data⟩ : Nd R).Lab
      (none :: (axes2Of A.ndim axes1).map some) (dimO r dim)
      (fun f => vh.get [f none,
        ravel ((axes2Of A.ndim axes1).map dim) ((axes2Of A.ndim axes1).map fun k => f (some k))]) := by
    refine ⟨?_, ?_, ?_⟩
    · unfold Nd.Wf; rw [c7, c8]; simp [← hn]
    · simp [dimO, Function.comp_def]
    · intro f hf
      simp [Nd.get, c8, ravel, Function.comp_def, ← hn]
  obtain ⟨ca, g1, g2⟩ := lc.moveaxis (s := 0) (d := i2) (by simp) (by simp; omega)
  have lca : ((none :: (axes2Of A.ndim axes1).map some).eraseIdx 0).insertIdx i2
      ((none :: (axes2Of A.ndim axes1).map some)[0]'(by simp)) =
      pyInsert ((axes2Of A.ndim axes1).map some) i2 none := by
    rw [pyInsert_eq_insertIdx _ _ _ (by simpa using h2)]; simp
  rw [lca] at g2
  refine ⟨ra, ca, ?_, by rw [g2.shape, hrk]⟩
  unfold splitArrays
  have b1' : axes1.zipIdx.foldlM (fun a p => a.moveaxis p.1 p.2) A = .ok B := b1
  rw [b1', ok_bind, m1, ok_bind, c1, ok_bind]
  simp only
  rw [d1, ok_bind, er, ok_bind]
  have : (⟨axes1.map dim ++ [r], us.data⟩ : Nd R).ndim - 1 = axes1.length := by simp [Nd.ndim]
  rw [this, f1, ok_bind, ec, ok_bind, g1, ok_bind]
  rfl

/-- The new bond has the smaller one of the dimensions of the two sides. -/
theorem split_rank {csvd : Svd R} (hsv : SvdShape csvd) (hfu : SvdFull csvd) {h h1 : Heap R} {t i mid : ℕ} {A : Nd R} (hi : h.LinkInv) (hA : h.Full t A)
    (hlt : t < h.next) (hin : i < A.ndim) {nr : Bool} (hmt : mid ≠ t) (e : h.split csvd t (.one i) none none (some t) nr = .ok (h1, mid, t)) :
    h1.hdim (t, i) = min (A.shape.getD i 1) (A.shape.eraseIdx i).prod := by
  obtain ⟨a', shape1', shape2', n1', n2', ra', ca', g1, g2, g3, info, -, f1, f2, f3, f4, f5, f6, f7, f8, rfl⟩ := split_iff.1 e
  rw [hA.array] at f1; cases f1
  have hord := hA.order hi.wf
  have len2 := length_axes2_one hin
  have sh1 : shapeOn A.shape (axes1Of (.one i)) = .ok (([i] : List ℕ).map fun k => A.shape.getD k 1) := shapeOn_ok _ (by simpa [axes1Of] using hin)
  have sh2 : shapeOn A.shape (axes2Of (h.order t) (axes1Of (.one i))) = .ok ((axes2Of A.ndim [i]).map fun k => A.shape.getD k 1) := by
    rw [hord]
    refine shapeOn_ok _ fun x hx => ?_
    unfold axes2Of at hx
    exact List.mem_range.1 (List.mem_filter.1 hx).1
  obtain ⟨ra, ca, a1, a2⟩ := splitArrays_rank (axes1 := [i]) (i1 := 0) (i2 := i) hsv hfu hA.wf hA.pos (by simp) (by simpa using hin) (by simp)
    (by rw [len2]; omega)
  obtain ⟨k1, k2, k3, -⟩ := split_core hi hA.leaf (by intro x hx; cases hx) (by intro x hx; cases hx; exact hlt) hmt hA.array sh1 sh2 f4
    (axis := .one i) (indice := none) (root := none) (child := some t) a1 e
  unfold hdim
  simp only [k3]
  have hsh : A.shape.eraseIdx i = (axes2Of A.ndim [i]).map fun k => A.shape.getD k 1 := by
    have e1 : A.shape = (pyInsert ((axes2Of A.ndim [i]).map some) i none).map
        (dimO (A.shape.getD i 1) fun k => A.shape.getD k 1) := by
      rw [axes2_one hin, List.map_map]
      refine List.ext_getElem (by simp [Nd.ndim]) fun k q1 q2 => ?_
      simp only [List.getElem_map, List.getElem_range, Function.comp]
      split
      · rename_i q; subst q; (try simp only [dimO]); rw [List.getD_eq_getElem _ _ q1]
      · (try simp only [dimO]); rw [List.getD_eq_getElem _ _ q1]
    conv_lhs => rw [e1]
    rw [pyInsert_eq_insertIdx _ _ _ (by simp [len2]; omega), Nd.map_insertIdx,
      List.eraseIdx_insertIdx_self, List.map_map]
    rfl
  rw [a2, hsh, axes2_one hin, List.map_map, List.getD_eq_getElem _ _ (by simpa using hin)]
  simp [dimO]

end Heap
