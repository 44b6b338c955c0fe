import Verif.Spec.Network

/-!
Specification: two tree networks of the same form.
-/

/-- The same tree with other objects. -/
def Forest.relabel (φ : ℕ → ℕ) : Forest → Forest
  | .nil => .nil
  | .cons i j id sub rest => .cons i j (φ id) (sub.relabel φ) (rest.relabel φ)

namespace Heap

variable {R : Type} [CommRing R]

/-- Specification: two tree tensor networks of the same form. `φ` gives for every object of the first the one of the second at the same place: the links
use the same axes, leaves correspond to leaves. The dimensions of the leaves are the same; those of the bonds need not be. -/
structure Twin (h : Heap R) (r1 : ℕ) (F1 : Forest) (r2 : ℕ) (F2 : Forest) (φ : ℕ → ℕ) : Prop where
  one : h.IsTTN r1 F1
  two : h.IsTTN r2 F2
  root : r2 = φ r1
  forest : F2 = F1.relabel φ
  leaf : ∀ t ∈ r1 :: F1.ids, h.isLeaf (φ t) = h.isLeaf t
  dims : (h.leafList r1 F1).map Prod.snd = (h.leafList r2 F2).map Prod.snd

end Heap
