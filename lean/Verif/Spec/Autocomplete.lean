import Verif.Spec.Network
import Verif.Py.Basic

/-!
Notions for C23: a network that is linked up but some or all of whose tensors have no arrays yet, and what it is to become.
-/

open Py

namespace Heap

variable {R : Type} [CommRing R]

/-- A network with root `r` and tree `F` whose tensors need not have arrays yet, and a dictionary `dims` with a dimension for every
link. `want (t, i)` is the dimension requested for axis `i` of object `t`. -/
structure Bare (h : Heap R) (r : ℕ) (F : Forest) (dims : Dict (ℕ × ℕ × ℕ × ℕ) ℕ) (want : ℕ × ℕ → ℕ) : Prop where
  links : h.LinkInv
  tree : IsTree h r none F
  leaf : h.isLeaf r = false
  lt : r < h.next
  rooted : h.Rooted r F
  names : ∀ t ∈ h.tensors r F, ∃ nm, (h.node t).name = some nm
  /-- The linked axes of each object are `0, …, n - 1`. -/
  complete : ∀ t, t = r ∨ t ∈ F.ids → ∀ k, h.acc t k ≠ none ↔ k < h.order t
  /-- Something hangs below each tensor. -/
  below : ∀ t ∈ h.tensors r F, ∃ k, k < h.order t ∧ (h.node t).axis ≠ some k
  /-- The arrays that are there already have the requested shapes. -/
  given : ∀ t ∈ h.tensors r F, ∀ A, h.array t = some A → A.Wf ∧ A.shape = (List.range (h.order t)).map fun i => want (t, i)
  /-- The dictionary has a positive dimension for every link (from the side of the root). -/
  asked : ∀ e ∈ F.edges r, Dict.get? dims e = some (want (e.1, e.2.1)) ∧ 0 < want (e.1, e.2.1)
  ends : ∀ e ∈ h.bonds r F, want (e.1, e.2.1) = want (e.2.2.1, e.2.2.2)
  /-- No bond is larger than the product of the dimensions below it. -/
  fits : ∀ e ∈ h.bonds r F, want (e.2.2.1, e.2.2.2) ≤
    (((List.range (h.order e.2.2.1)).eraseIdx e.2.2.2).map fun i => want (e.2.2.1, i)).prod
  /-- Operators on leaves, if any, have the requested dimension. -/
  ops : ∀ e ∈ F.edges r, h.isLeaf e.2.2.1 = true → ∀ M, h.array e.2.2.1 = some M →
    M.shape[e.2.2.2]? = some (want (e.1, e.2.1))

/-- The slices of `A` along axis `k` are different unit vectors. -/
def UnitSlices (A : Nd R) (k : ℕ) : Prop :=
  ∃ c : ℕ → List ℕ, (∀ z w, z < A.shape.getD k 1 → w < A.shape.getD k 1 → c z = c w → z = w) ∧
    ∀ z < A.shape.getD k 1, Valid (A.shape.eraseIdx k) (c z) ∧
      ∀ p, Valid (A.shape.eraseIdx k) p → A.get (p.insertIdx k z) = if p = c z then 1 else 0

/-- The slices of `A` along axis `k` are the unit vectors with the lowest total index, in the order of that total. -/
def LowestSlices (A : Nd R) (k : ℕ) : Prop :=
  ∃ c : ℕ → List ℕ, (∀ z < A.shape.getD k 1, Valid (A.shape.eraseIdx k) (c z) ∧
      ∀ p, Valid (A.shape.eraseIdx k) p → A.get (p.insertIdx k z) = if p = c z then 1 else 0) ∧
    (∀ z w, z ≤ w → w < A.shape.getD k 1 → (c z).sum ≤ (c w).sum) ∧
    ∀ z < A.shape.getD k 1, ∀ p, Valid (A.shape.eraseIdx k) p → p.sum < (c z).sum → ∃ w < z, c w = p

end Heap
