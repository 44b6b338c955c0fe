import Verif.Spec.TermVisitor
import Verif.Model.Eom

/-!
Specification for the equations of motion: the derivative of the matrix elements of the Hamiltonian with respect to the conjugate
of one array, and the gauge.
-/

open scoped BigOperators
open Py

namespace ML

variable {T R : Type} [Zero T]

section
variable [CommRing R] [StarRing R]

/-- The matrix element of a term between the state of the network and the state in which the array of tensor `t` is replaced
by `B` (the bra). As everywhere in the code the first index of an operator belongs to the ket. -/
def termElem (s : Obj T R) (F : Forest) (t : ℕ) (B : Nd R) (term : Term T R) : R :=
  Heap.sumLeaves (s.heap.leafList s.root F) (fun x => Heap.sumLeaves (s.heap.leafList s.root F) (fun y =>
    s.heap.treeAmp s.root F x * termEntry s (s.heap.leafList s.root F) term x y *
      star ((s.heap.setArray t (some B)).treeAmp s.root F y)) (fun _ => 0)) (fun _ => 0)

/-- `<A, B> = Σ A[w] conj(B[w])` -/
def inner (A B : Nd R) : R := sumIdx A.shape fun w => A.get w * star (B.get w)

/-- `G` is the gradient of the matrix elements of the given terms with respect to the conjugate of the array `A` of `t`. -/
def IsGradient (s : Obj T R) (F : Forest) (t : ℕ) (A : Nd R) (terms : List (Term T R)) (G : Nd R) : Prop :=
  ∀ B : Nd R, B.Wf → B.shape = A.shape → inner G B = (terms.map (termElem s F t B)).sum

/-- `Y = G · M` along axis `k`, entry `p` with index `z` on axis `k`. -/
def timesAxis (k n : ℕ) (G M : Nd R) (p : List ℕ) (z : ℕ) : R :=
  ∑ c ∈ Finset.range n, G.get (p.insertIdx k c) * M.get [c, z]

/-- `D` is the right-hand side of the equation of motion of a tensor with array `A` and axis `axis`, without the coefficient:
`G` itself without an axis; otherwise `(1 - P) (G · M)` where `M` is the inverse density and `P` projects on the slices of `A`. -/
def IsForce (A : Nd R) (axis : Option ℕ) (inv : Option (Nd R)) (G D : Nd R) : Prop :=
  match axis with
  | none => ∀ w, Valid A.shape w → D.get w = G.get w
  | some k => ∃ M, inv = some M ∧ ∀ p z, Valid (A.shape.eraseIdx k) p → z < A.shape.getD k 1 →
      D.get (p.insertIdx k z) = timesAxis k (A.shape.getD k 1) G M p z -
        ∑ b ∈ Finset.range (A.shape.getD k 1), A.get (p.insertIdx k b) * sumIdx (A.shape.eraseIdx k) fun q =>
          timesAxis k (A.shape.getD k 1) G M q z * star (A.get (q.insertIdx k b))

/-- The network with the operators of a term on its leaves. -/
def Obj.withTerm (s : Obj T R) (term : Term T R) : Heap R :=
  { s.heap with
    node := fun t => if (s.heap.node t).isLeaf then { s.heap.node t with array := opOn s.now term t } else s.heap.node t }

/-- The mean fields of tensor `t` stored in `env_` (if any) are those of the terms in the present state. -/
def EnvRight (s : Obj T R) (t : ℕ) : Prop :=
  ∀ n term, (s.allTerms none)[n]? = some term → ∀ i v, s.env.get? (n, t, i) = some v → Heap.FieldIs (s.withTerm term) t i v

/-- What is assumed of the object: the network is a tree with one root and sound normalization marks on the other tensors; the terms name leaves only
and their operators fit; there is a square inverse density of the right size for every tensor but the root; stored mean fields
have the right size. -/
structure EomReady (s : Obj T R) (F : Forest) (inv : Dict ℕ (Nd R)) : Prop where
  ttn : s.heap.IsTTN s.root F
  rooted : s.heap.Rooted s.root F
  norm : ∀ t ∈ s.heap.tensors s.root F, (s.heap.node t).axis ≠ none → s.heap.MarkOk t
  leaf : ∀ term ∈ s.allTerms none, ∀ p ∈ term, s.heap.isLeaf p.1 = true
  fits : ∀ term ∈ s.allTerms none, ∀ p ∈ s.heap.leafList s.root F, Heap.OpFits (opOn s.now term p.1) p.2 p.2
  inv : ∀ e ∈ s.heap.bonds s.root F, ∃ M, inv.get? e.2.2.1 = some M ∧
    M.shape = [s.heap.hdim (e.2.2.1, e.2.2.2), s.heap.hdim (e.2.2.1, e.2.2.2)]
  env : ∀ t ∈ s.heap.tensors s.root F, ∀ n i v, s.env.get? (n, t, i) = some v →
    Heap.OpFits v (s.heap.hdim (t, i)) (s.heap.hdim (t, i))

/-- The state of the network with the array of tensor `t` replaced by `B`, as a function of the leaf indices. These are the vectors
the state can be changed by when one array is changed. -/
def variation (s : Obj T R) (F : Forest) (t : ℕ) (B : Option (Nd R)) (x : ℕ → ℕ) : R :=
  (s.heap.setArray t B).treeAmp s.root F x

/-- `<χ|φ>`: the sum over all leaf indices of `φ conj(χ)`. -/
def dot (s : Obj T R) (F : Forest) (φ χ : (ℕ → ℕ) → R) : R :=
  Heap.sumLeaves (s.heap.leafList s.root F) (fun x => φ x * star (χ x)) (fun _ => 0)

/-- Entry of the Hamiltonian: the sum over all terms. As everywhere in the code the first index belongs to the ket. -/
def hEntry (s : Obj T R) (F : Forest) (x y : ℕ → ℕ) : R :=
  ((s.allTerms none).map fun term => termEntry s (s.heap.leafList s.root F) term x y).sum

/-- `<χ|H|φ>` -/
def element (s : Obj T R) (F : Forest) (φ χ : (ℕ → ℕ) → R) : R :=
  Heap.sumLeaves (s.heap.leafList s.root F) (fun x => Heap.sumLeaves (s.heap.leafList s.root F) (fun y =>
    φ x * hEntry s F x y * star (χ y)) (fun _ => 0)) (fun _ => 0)

/-- The Hamiltonian divided by the coefficient is anti-Hermitian: for `coef = i ħ`, the Hamiltonian is Hermitian. -/
def Generates (s : Obj T R) (F : Forest) (coef : R) : Prop :=
  ∀ x y, (∀ p ∈ s.heap.leafList s.root F, x p.1 < p.2) → (∀ p ∈ s.heap.leafList s.root F, y p.1 < p.2) →
    coef * star (hEntry s F x y) = -(star coef * hEntry s F y x)

/-- The derivative of the state when the derivative of the array of every tensor is the `aux` it has in `s'`, by the product rule. -/
def velocity (s s' : Obj T R) (F : Forest) (x : ℕ → ℕ) : R :=
  ((s.heap.tensors s.root F).map fun t => variation s F t (s'.heap.node t).aux x).sum

/-- `d` is the density matrix of tensor `t` at its axis `k`: what the rest of the network contracts to with its conjugate. -/
def IsDensity (s : Obj T R) (t k : ℕ) (d : Nd R) : Prop := Heap.FieldIs (s.withTerm []) t k (some d)

/-- `N d = 1`, for `n × n` matrices. -/
def LeftInv (n : ℕ) (N : ℕ → ℕ → R) (d : Nd R) : Prop :=
  ∀ b < n, ∀ z < n, ∑ c ∈ Finset.range n, N b c * d.get [c, z] = if b = z then 1 else 0

/-- What is assumed of the object before `direct_step`: a tree tensor network with one root, all other tensors with orthonormal slices
towards the root, sound normalization marks (that of the root does not matter), and at least one term; the terms name leaves only and their operators fit; leaves have no
axis (as set by `Leaf.__init__`). -/
structure DirectReady (s : Obj T R) (F : Forest) : Prop where
  ttn : s.heap.IsTTN s.root F
  rooted : s.heap.Rooted s.root F
  can : s.heap.CanonicalTree s.root F
  norm : ∀ t ∈ s.heap.tensors s.root F, (s.heap.node t).axis ≠ none → s.heap.MarkOk t
  axes : ∀ l ∈ F.ids, s.heap.isLeaf l = true → (s.heap.node l).axis = none
  leaf : ∀ term ∈ s.allTerms none, ∀ p ∈ term, s.heap.isLeaf p.1 = true
  fits : ∀ term ∈ s.allTerms none, ∀ p ∈ s.heap.leafList s.root F, Heap.OpFits (opOn s.now term p.1) p.2 p.2
  terms : s.allTerms none ≠ []

end

section
variable [Field R] [StarRing R]

/-- The inverse is exact: `pinv2` of an invertible matrix, or `inv` without regularization. -/
def Linalg.Exact (lin : Linalg R) : Prop :=
  ∀ n (d : Nd R), d.Wf → d.shape = [n, n] → (∃ N, LeftInv n N d) →
    ∃ M, lin.invert (some d) n = .ok M ∧ M.shape = [n, n] ∧ LeftInv n (fun b c => M.get [b, c]) d

/-- The inverse of a density succeeds and has the right shape. -/
def Linalg.Works (lin : Linalg R) (s : Obj T R) (F : Forest) : Prop :=
  ∀ e ∈ s.heap.bonds s.root F, ∀ d, IsDensity s e.2.2.1 e.2.2.2 d →
    ∃ M, lin.invert (some d) (s.heap.hdim (e.2.2.1, e.2.2.2)) = .ok M ∧
      M.shape = [s.heap.hdim (e.2.2.1, e.2.2.2), s.heap.hdim (e.2.2.1, e.2.2.2)]

end

end ML
