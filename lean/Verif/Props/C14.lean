import Verif.Lemmas.Env3
import Verif.Props.C10

/-!
C14: inner products and matrix elements of tree tensor networks.

The state of the network rooted at `r` is `h.treeAmp r F` (a function of the indices of the leaves; F is the
tree). `h.braNet true` is the network on the same links made of the arrays stored in `aux`. `h.leafList r F`
lists the leaves with their dimensions, `sumLeaves` sums over all their indices. `opEntry` gives the matrix
elements of a leaf operator (`None`: identity).
-/

open scoped BigOperators
open Py

namespace Heap

variable {R : Type} [CommRing R] [StarRing R]

open TreeSum (leavesOf)

/-- `root.global_inner_product()` is the sum over all leaf indices of the product of the two states. Nothing is
assumed of the cached values or of the `normalized` marks. -/
theorem C14_inner_product {h : Heap R} {r : ℕ} {F : Forest} (ht : h.IsTTN r F) (hb : (h.braNet true).IsTTN r F)
    (hax : (h.node r).axis = none) (hd : (h.braNet true).leafList r F = h.leafList r F)
    {fuel : ℕ} (hf : F.depth < fuel) :
    ∃ h', globalInnerProduct fuel h r = .ok (h', some ⟨[], [sumLeaves (h.leafList r F) (fun x =>
      h.treeAmp r F x * (h.braNet true).treeAmp r F x) (fun _ => 0)]⟩) := by
  obtain ⟨h', e⟩ := inner_core ht hb hd hf
  refine ⟨h', ?_⟩
  unfold globalInnerProduct
  rw [leaves_tree ht hax hf]
  exact e

/-- `root.matrix_element()` is the same sum with the leaf operators in between: the first index of the operator
belongs to the network of the arrays, the second to the network of the `aux`. -/
theorem C14_matrix_element {h : Heap R} {r : ℕ} {F : Forest} (ht : h.IsTTN r F) (hb : (h.braNet true).IsTTN r F)
    (hax : (h.node r).axis = none)
    (ho : ∀ e ∈ F.edges r, h.isLeaf e.2.2.1 = true →
      OpFits (h.array e.2.2.1) (h.hdim (e.1, e.2.1)) ((h.braNet true).hdim (e.1, e.2.1)))
    {fuel : ℕ} (hf : F.depth < fuel) :
    ∃ h', matrixElement fuel h r = .ok (h', some ⟨[], [sumLeaves (h.leafList r F) (fun x =>
      sumLeaves ((h.braNet true).leafList r F) (fun y => h.treeAmp r F x *
        (((h.leafList r F).map Prod.fst).map fun l => opEntry (h.array l) (x l) (y l)).prod *
          (h.braNet true).treeAmp r F y) (fun _ => 0)) (fun _ => 0)]⟩) := by
  obtain ⟨h', e⟩ := matrix_core (fuel := fuel) ht hb (fun h l => h.array l) (fun h a x l => by
    unfold Heap.array setAux Heap.upd; simp only; split <;> rfl) ho hf
  refine ⟨h', ?_⟩
  unfold matrixElement
  rw [leaves_tree ht hax hf, leafList_fst]
  exact e

/-- `root.global_square()` is the squared norm of the state. -/
theorem C14_global_square {h : Heap R} {r : ℕ} {F : Forest} (ht : h.IsTTN r F) (hax : (h.node r).axis = none)
    {fuel : ℕ} (hf : F.depth < fuel) :
    ∃ h', globalSquare fuel h r = .ok (h', some ⟨[], [sumLeaves (h.leafList r F) (fun x =>
      h.treeAmp r F x * star (h.treeAmp r F x)) (fun _ => 0)]⟩) := by
  obtain ⟨h1, e1, t1, b1, a1, -, -, -, l1, m1, l2, -, m2⟩ := conjAux_tree ht hax hf
  obtain ⟨h', e⟩ := C14_inner_product t1 b1 a1 (by rw [l2, l1]) hf
  refine ⟨h', ?_⟩
  unfold globalSquare
  rw [e1]
  show globalInnerProduct fuel h1 r = _
  rw [e, l1]
  congr 5
  exact TreeSum.sumLeaves_congr fun x => by rw [m1, m2]

/-- `root.expection()` is the matrix element of the leaf operators between the state and its conjugate. -/
theorem C14_expection {h : Heap R} {r : ℕ} {F : Forest} (ht : h.IsTTN r F) (hax : (h.node r).axis = none)
    (ho : ∀ e ∈ F.edges r, h.isLeaf e.2.2.1 = true →
      OpFits (h.array e.2.2.1) (h.hdim (e.1, e.2.1)) (h.hdim (e.1, e.2.1)))
    {fuel : ℕ} (hf : F.depth < fuel) :
    ∃ h', expection fuel h r = .ok (h', some ⟨[], [sumLeaves (h.leafList r F) (fun x =>
      sumLeaves (h.leafList r F) (fun y => h.treeAmp r F x *
        (((h.leafList r F).map Prod.fst).map fun l => opEntry (h.array l) (x l) (y l)).prod *
          star (h.treeAmp r F y)) (fun _ => 0)) (fun _ => 0)]⟩) := by
  obtain ⟨h1, e1, t1, b1, a1, q1, q2, q3, l1, m1, l2, q4, m2⟩ := conjAux_tree ht hax hf
  obtain ⟨h', e⟩ := C14_matrix_element t1 b1 a1 (fun e he hl => by
    rw [q1, q3, q4 e he]
    exact ho e he (by rw [q2] at hl; exact hl)) hf
  refine ⟨h', ?_⟩
  unfold expection
  rw [e1]
  show matrixElement fuel h1 r = _
  rw [e, l1, l2]
  congr 5
  refine TreeSum.sumLeaves_congr fun x => TreeSum.sumLeaves_congr fun y => ?_
  rw [m1, m2]
  simp only [q1]

/-! Instance: `exTwo` of C02, with operators on its two leaves and another network in `aux`; its caches hold
nonsense. -/

/-- `exTwo` with `aux` and leaf operators set, and with a wrong cached value. -/
def exTwoAux : Heap ℤ :=
  let h := (exTwo.setAux 0 (some ⟨[2, 2], [1, 0, 2, 1]⟩)).setAux 1 (some ⟨[2, 2], [1, 1, 0, 3]⟩)
  let h := (h.setArray 2 (some ⟨[2, 2], [0, 1, 1, 0]⟩)).upd 1 fun n => { n with penv := [(1, none)], normalized := true }
  h

theorem exTwoAux_ttn : exTwoAux.IsTTN 0 exTwoForest := by
  refine exTwo_ttn.congr ?_ rfl ?_ ?_ ?_
  · rintro (_ | _ | _ | _ | c) <;> rfl
  · rintro (_ | _ | _ | _ | c) <;> rfl
  · rintro (_ | _ | _ | _ | c) <;> rfl
  · rintro (_ | _ | _ | _ | c) A hA hw
    · exact ⟨A, hA, hw, rfl⟩
    · exact ⟨A, hA, hw, rfl⟩
    · cases hA
    · cases hA
    · cases hA

theorem exTwoAux_bra : (exTwoAux.braNet true).IsTTN 0 exTwoForest := by
  refine exTwo_ttn.congr ?_ rfl ?_ ?_ ?_
  · rintro (_ | _ | _ | _ | c) <;> rfl
  · rintro (_ | _ | _ | _ | c) <;> rfl
  · rintro (_ | _ | _ | _ | c) <;> rfl
  · rintro (_ | _ | _ | _ | c) A hA hw
    · exact ⟨⟨[2, 2], [1, 0, 2, 1]⟩, rfl, by simp [Nd.Wf], by cases hA; rfl⟩
    · exact ⟨⟨[2, 2], [1, 1, 0, 3]⟩, rfl, by simp [Nd.Wf], by cases hA; rfl⟩
    · cases hA
    · cases hA
    · cases hA

example : ∃ h', matrixElement 3 exTwoAux 0 = .ok (h', some ⟨[], [sumLeaves (exTwoAux.leafList 0 exTwoForest) (fun x =>
      sumLeaves ((exTwoAux.braNet true).leafList 0 exTwoForest) (fun y => exTwoAux.treeAmp 0 exTwoForest x *
        (((exTwoAux.leafList 0 exTwoForest).map Prod.fst).map fun l => opEntry (exTwoAux.array l) (x l) (y l)).prod *
          (exTwoAux.braNet true).treeAmp 0 exTwoForest y) (fun _ => 0)) (fun _ => 0)]⟩) := by
  refine C14_matrix_element exTwoAux_ttn exTwoAux_bra rfl ?_ (by decide)
  intro e he _
  have : e ∈ [(0, 0, 1, 1), (1, 0, 3, 0), (0, 1, 2, 0)] := he
  simp only [List.mem_cons, List.not_mem_nil, or_false] at this
  rcases this with rfl | rfl | rfl
  · rename_i hl; cases hl
  · rfl
  · exact ⟨by simp [Nd.Wf], rfl⟩

example : ∃ h', globalInnerProduct 3 exTwoAux 0 = .ok (h', some ⟨[], [sumLeaves (exTwoAux.leafList 0 exTwoForest)
      (fun x => exTwoAux.treeAmp 0 exTwoForest x * (exTwoAux.braNet true).treeAmp 0 exTwoForest x) (fun _ => 0)]⟩) :=
  C14_inner_product exTwoAux_ttn exTwoAux_bra rfl (by decide) (by decide)

example : ∃ h', globalSquare 3 exTwoAux 0 = .ok (h', some ⟨[], [sumLeaves (exTwoAux.leafList 0 exTwoForest)
      (fun x => exTwoAux.treeAmp 0 exTwoForest x * star (exTwoAux.treeAmp 0 exTwoForest x)) (fun _ => 0)]⟩) :=
  C14_global_square exTwoAux_ttn rfl (by decide)

/-- The values computed. -/
example : (matrixElement 3 exTwoAux 0).toOption.bind (fun p => p.2.map Nd.data) = some [494] ∧
    (globalInnerProduct 3 exTwoAux 0).toOption.bind (fun p => p.2.map Nd.data) = some [427] ∧
    (globalSquare 3 exTwoAux 0).toOption.bind (fun p => p.2.map Nd.data) =
      some [23 * 23 + 31 * 31 + 34 * 34 + 46 * 46] := by
  decide +kernel

end Heap
