import Verif.Lemmas.UniteFull
import Verif.Spec.Tree
import Mathlib.Algebra.Star.Basic

/-!
Specification: tensor networks, the state they represent, canonical form.
-/

open scoped BigOperators

namespace Heap

variable {R : Type} [CommRing R]

/-- `T` lists the tensors and `E` the bonds `(a, i, b, j)` (each once, in either direction) of a
network: every axis of every tensor of `T` is linked, either to another tensor of `T`, by a bond in
`E` whose two axes have equal dimensions, or to something else (a leaf). Two tensors share at most
one bond. Names are set. -/
structure IsNet (h : Heap R) (T : List ℕ) (E : List (ℕ × ℕ × ℕ × ℕ)) : Prop where
  links : h.LinkInv
  nodup : T.Nodup
  lt : ∀ t ∈ T, t < h.next
  full : ∀ t ∈ T, ∃ A, h.Full t A
  once : (halves E).Nodup
  isLink : ∀ e ∈ E, h.IsLink e ∧ e.1 ∈ T ∧ e.2.2.1 ∈ T
  all : ∀ t ∈ T, ∀ k u l, h.acc t k = some (u, l) → u ∈ T → (t, k) ∈ halves E
  simple : ∀ t ∈ T, ∀ k u l, h.acc t k = some (u, l) → u ∈ T → u ≠ t ∧
    ∀ k' l', h.acc t k' = some (u, l') → k' = k
  dims : ∀ e ∈ E, h.hdim (e.1, e.2.1) = h.hdim (e.2.2.1, e.2.2.2)
  names : ∀ t ∈ T, ∃ nm, (h.node t).name = some nm

/-- An index for every half-edge `(tensor, axis)`. -/
abbrev Assign : Type := ℕ × ℕ → ℕ

/-- The entry of the array of `t` at the indices `σ` assigns to its axes. -/
def entry (h : Heap R) (σ : Assign) (t : ℕ) : R :=
  match h.array t with
  | some A => A.get ((List.range A.ndim).map fun k => σ (t, k))
  | none => 0

/-- Give both ends of a bond the index `v`. -/
def setBond (e : ℕ × ℕ × ℕ × ℕ) (v : ℕ) (σ : Assign) : Assign :=
  Nd.upd (Nd.upd σ (e.1, e.2.1) v) (e.2.2.1, e.2.2.2) v

/-- Sum over all index values of all bonds in `E`. -/
def sumBonds (h : Heap R) : List (ℕ × ℕ × ℕ × ℕ) → (Assign → R) → Assign → R
  | [], g, σ => g σ
  | e :: E, g, σ => ∑ v ∈ Finset.range (h.hdim (e.1, e.2.1)), sumBonds h E g (setBond e v σ)

/-- The indices fixed by giving each leaf `l` the index `x l`. -/
def leafAssign (h : Heap R) (x : ℕ → ℕ) : Assign := fun p =>
  match h.acc p.1 p.2 with
  | some (l, _) => x l
  | none => 0

/-- The amplitude of the state at the leaf indices `x`: the product of all tensors, with all bonds
summed over. -/
def amp (h : Heap R) (T : List ℕ) (E : List (ℕ × ℕ × ℕ × ℕ)) (x : ℕ → ℕ) : R :=
  sumBonds h E (fun σ => (T.map (h.entry σ)).prod) (h.leafAssign x)

/-- The leaf indices are in range: each leaf index is below the dimension of the axis it is on. -/
def InRange (h : Heap R) (T : List ℕ) (x : ℕ → ℕ) : Prop :=
  ∀ t ∈ T, ∀ k l m, h.acc t k = some (l, m) → l ∉ T → x l < h.hdim (t, k)

/-- Tensor `t` is normalised towards axis `k`: the slices of its array along axis `k` are
orthonormal. -/
def Canonical [StarRing R] (h : Heap R) (t k : ℕ) : Prop :=
  ∃ A, h.array t = some A ∧ k < A.ndim ∧ ∀ z w, z < A.shape.getD k 1 → w < A.shape.getD k 1 →
    sumIdx (A.shape.eraseIdx k) (fun p => A.get (p.insertIdx k z) * star (A.get (p.insertIdx k w))) =
      if z = w then 1 else 0

/-- The tensors of a tree that are not leaves. -/
def tensors (h : Heap R) (r : ℕ) (F : Forest) : List ℕ := (r :: F.ids).filter fun t => !(h.isLeaf t)

/-- The links of a tree between tensors that are not leaves, from the root outwards. -/
def bonds (h : Heap R) (r : ℕ) (F : Forest) : List (ℕ × ℕ × ℕ × ℕ) :=
  (F.edges r).filter fun e => !(h.isLeaf e.2.2.1)

/-- A tree tensor network with root `r`: the objects linked to `r` form the tree `F`, all links
are mutual, every tensor has an array with as many axes as links, none of dimension 0, the two ends
of a bond have the same dimension, and names are set. -/
structure IsTTN (h : Heap R) (r : ℕ) (F : Forest) : Prop where
  links : h.LinkInv
  tree : IsTree h r none F
  leaf : h.isLeaf r = false
  lt : r < h.next
  full : ∀ t ∈ h.tensors r F, ∃ A, h.Full t A
  dims : ∀ e ∈ h.bonds r F, h.hdim (e.1, e.2.1) = h.hdim (e.2.2.1, e.2.2.2)
  names : ∀ t ∈ h.tensors r F, ∃ nm, (h.node t).name = some nm

/-- The names of these tensors are without `+` (as after `generate`): `unite` and `split` use `+` to join and to part names. -/
def PlainNames (h : Heap R) (T : List ℕ) : Prop := ∀ t ∈ T, ∀ nm, (h.node t).name = some nm → '+' ∉ nm

/-- The amplitude of a tree tensor network at the leaf indices `x`. -/
def treeAmp (h : Heap R) (r : ℕ) (F : Forest) (x : ℕ → ℕ) : R :=
  h.amp (h.tensors r F) (h.bonds r F) x

/-- `r` is the only root: it has no normalization axis, and that of every other tensor is the one
towards `r`. -/
def Rooted (h : Heap R) (r : ℕ) (F : Forest) : Prop :=
  (h.node r).axis = none ∧ ∀ e ∈ h.bonds r F, (h.node e.2.2.1).axis = some e.2.2.2

/-- Sum over the indices of the leaves in a list of pairs (leaf, dimension). -/
def sumLeaves : List (ℕ × ℕ) → ((ℕ → ℕ) → R) → (ℕ → ℕ) → R
  | [], g, x => g x
  | (l, n) :: L, g, x => ∑ v ∈ Finset.range n, sumLeaves L g (Nd.upd x l v)

/-- The leaves of a tree, in the order of a walk from the root, each with the dimension of the axis it
is on. -/
def leafList (h : Heap R) (r : ℕ) (F : Forest) : List (ℕ × ℕ) :=
  ((F.edges r).filter fun e => h.isLeaf e.2.2.1).map fun e => (e.2.2.1, h.hdim (e.1, e.2.1))

/-- Canonical form: every tensor but the root is normalised towards the root. -/
def CanonicalTree [StarRing R] (h : Heap R) (r : ℕ) (F : Forest) : Prop :=
  ∀ e ∈ h.bonds r F, h.Canonical e.2.2.1 e.2.2.2

end Heap
