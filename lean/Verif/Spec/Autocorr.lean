import Verif.Spec.Network

/-!
Specification for C68: what the steps of a propagation keep of the network, and overlaps of states.
-/

open scoped BigOperators

namespace Autocorr

variable {R : Type} [CommRing R] [StarRing R]

/-- `h` is a state of the network `h0` (the same tree with the same links and the same dimensions at the leaves; the
arrays and the dimensions of the bonds may differ), `r` is its root and nothing is stored in `aux`. -/
structure Like (h0 : Heap R) (r : ℕ) (F : Forest) (h : Heap R) : Prop where
  ttn : h.IsTTN r F
  axis : (h.node r).axis = none
  acc : ∀ t k, h.acc t k = h0.acc t k
  leaf : h.isLeaf = h0.isLeaf
  dims : h.leafList r F = h0.leafList r F
  aux : ∀ t ∈ r :: F.ids, (h.node t).aux = none

/-- `∑ₓ ψ(x) φ(x)`: both states as functions of the indices `x` of the leaves, summed over all of these. -/
def overlap (h0 : Heap R) (r : ℕ) (F : Forest) (ψ φ : (ℕ → ℕ) → R) : R :=
  Heap.sumLeaves (h0.leafList r F) (fun x => ψ x * φ x) (fun _ => 0)

end Autocorr
