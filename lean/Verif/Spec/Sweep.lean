import Verif.Model.Sweep
import Verif.Spec.Network
import Verif.Lemmas.Moves

/-!
Specification: what a propagation in a sweep propagates.
-/

namespace Sweep

/-- What can be propagated: a tensor, the link between axis `i` of `a` and axis `j` of `b`, or the two tensors at that link
as one. -/
inductive Site
  | tensor (t : ℕ)
  | bond (a i b j : ℕ)
  | pair (a i b j : ℕ)
  deriving DecidableEq

/-- The same link seen from the other end. -/
def Site.flip : Site → Site
  | .tensor t => .tensor t
  | .bond a i b j => .bond b j a i
  | .pair a i b j => .pair b j a i

variable {K E R : Type}

/-- `e` propagates the site, in the network `h`. A tensor has its links; the tensor on a link is a new one, linked to the
two ends of the link (and nothing else); the tensor for a pair is a new one, which has the links of both except the one
between them. -/
def Event.Is (h : Heap R) (e : Event K) : Site → Prop
  | .tensor t => e.tensor = t ∧ e.links = h.linkages t
  | .bond a i b j => h.next ≤ e.tensor ∧ e.links = [(0, a, i), (1, b, j)]
  | .pair a i b j => h.next ≤ e.tensor ∧ ∀ x, x ∈ e.links.map Prod.snd ↔
      (∃ k, k ≠ i ∧ h.acc a k = some x) ∨ ∃ k, k ≠ j ∧ h.acc b k = some x

/-- The events are propagations of these sites for these times, in this order. -/
def Recorded (h : Heap R) (es : List (Event K)) (sites : List (Site × K)) : Prop :=
  List.Forall₂ (fun e x => e.Is h x.1 ∧ e.tau = x.2) es sites

variable [CommRing R]

/-- From `h` to `h'`, at most values in caches and in `aux` changed. -/
structure OnlyCaches (h h' : Heap R) : Prop where
  access : ∀ c, h'.access c = h.access c
  next : h'.next = h.next
  node : ∀ c, (h'.node c).isLeaf = (h.node c).isLeaf ∧ (h'.node c).name = (h.node c).name ∧
    (h'.node c).axis = (h.node c).axis ∧ (h'.node c).normalized = (h.node c).normalized
  array : ∀ c, h'.array c = h.array c

/-- What is assumed of the parts that are not modelled: on a root with an array, `_split_prop` returns normally, and
replaces the array by one of the same shape; the environments of a tree tensor network can be formed; the singular value
decompositions return matrices of fitting shapes. -/
structure Hooks.Good (H : Hooks K E R) : Prop where
  evolve : ∀ x h t tau c A, (h.node t).axis = none → h.array t = some A → A.Wf →
    ∃ x' h', H.evolve x h t tau c = .ok (x', h') ∧ h.GoodChange h' t
  formEnv : ∀ x h r F, h.IsTTN r F → h.Rooted r F → ∃ x' h', H.formEnv x h r = .ok (x', h') ∧ OnlyCaches h h'
  svd : Heap.SvdShape H.svd
  svdU : Heap.SvdShape H.svdU

end Sweep
