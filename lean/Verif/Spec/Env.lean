import Verif.Spec.Network
import Verif.Model.Env

/-!
Specification: the second network in an inner product or matrix element, and the operators on leaves.
-/

namespace Heap

variable {R : Type} [CommRing R] [StarRing R]

/-- The network with the same links whose tensors hold the other arrays: those in `aux`, or the conjugates
of the arrays. -/
def braNet (h : Heap R) (useAux : Bool) : Heap R :=
  { h with node := fun t => { h.node t with array :=
      if (h.node t).isLeaf then (h.node t).array
      else if useAux then (h.node t).aux else ((h.node t).array).map Nd.conj } }

/-- Matrix elements of a leaf operator; `None` is the identity. -/
def opEntry (e : Option (Nd R)) (v w : ℕ) : R :=
  match e with
  | none => if v = w then 1 else 0
  | some M => M.get [v, w]

/-- A leaf operator fits between an axis of dimension `n` and one of dimension `m`. -/
def OpFits (e : Option (Nd R)) (n m : ℕ) : Prop :=
  match e with
  | none => n = m
  | some M => M.Wf ∧ M.shape = [n, m]

/-- Same objects up to the caches of `partial_env`. -/
def SameCore (h h' : Heap R) : Prop :=
  h.next = h'.next ∧ ∀ t, { h.node t with penv := [] } = { h'.node t with penv := [] }

/-- The normalization mark of a tensor is sound: if it is marked `normalized` it has orthonormal slices along its `axis`,
and norm 1 if it has no `axis`. -/
def MarkOk (h : Heap R) (t : ℕ) : Prop :=
  ∀ A, (h.node t).normalized = true → h.isLeaf t = false → h.array t = some A →
    match (h.node t).axis with
    | some k => h.Canonical t k
    | none => sumIdx A.shape (fun p => A.get p * star (A.get p)) = 1

/-- The normalization marks of the tensors of a network are sound. -/
def NormOk (h : Heap R) (r : ℕ) (F : Forest) : Prop := ∀ t ∈ h.tensors r F, h.MarkOk t

end Heap

namespace Heap

variable {R : Type} [CommRing R] [StarRing R]

/-- The amplitude of a branch: that of the tensor `t` and of everything below it (the tree `G`), as a function of
the leaf indices `x` and of the index `v` of axis `k` of `t`, which is left open. -/
def branchAmp (h : Heap R) (t k : ℕ) (G : Forest) (x : ℕ → ℕ) (v : ℕ) : R :=
  sumBonds h (h.bonds t G) (fun σ => ((h.tensors t G).map (h.entry σ)).prod) (Nd.upd (h.leafAssign x) (t, k) v)

/-- The full contraction of a branch with its conjugate and the operators on its leaves. -/
def branchEnv (h : Heap R) (t k : ℕ) (G : Forest) (v w : ℕ) : R :=
  sumLeaves (h.leafList t G) (fun x => sumLeaves (h.leafList t G) (fun y =>
    h.branchAmp t k G x v * (((h.leafList t G).map Prod.fst).map fun l => opEntry (h.array l) (x l) (y l)).prod *
      star (h.branchAmp t k G y w)) (fun _ => 0)) (fun _ => 0)

/-- The operators on the leaves of a network are square and fit. -/
def OpsFit (h : Heap R) (r : ℕ) (F : Forest) : Prop :=
  ∀ e ∈ F.edges r, h.isLeaf e.2.2.1 = true → OpFits (h.array e.2.2.1) (h.hdim (e.1, e.2.1)) (h.hdim (e.1, e.2.1))

/-- `ans` (a returned or cached value) stands for the `n × n` matrix `E`; `None` for the identity. -/
def Means (ans : Option (Nd R)) (n : ℕ) (E : ℕ → ℕ → R) : Prop :=
  match ans with
  | none => ∀ v < n, ∀ w < n, E v w = if v = w then 1 else 0
  | some M => M.Wf ∧ M.shape = [n, n] ∧ ∀ v < n, ∀ w < n, M.get [v, w] = E v w

/-- `E` is the mean field at axis `i` of tensor `t`: what the branch beyond the axis contracts to (with its conjugate and the
operators on its leaves), or the operator of the leaf beyond the axis. -/
def IsField (h : Heap R) (t i : ℕ) (E : ℕ → ℕ → R) : Prop :=
  ∃ c j, h.acc t i = some (c, j) ∧ ((h.isLeaf c = true ∧ E = opEntry (h.array c)) ∨
    (h.isLeaf c = false ∧ ∃ G, IsTree h c (some j) G ∧ E = h.branchEnv c j G))

/-- `v` stands for the mean field at axis `i` of tensor `t`. -/
def FieldIs (h : Heap R) (t i : ℕ) (v : Option (Nd R)) : Prop := ∃ E, IsField h t i E ∧ Means v (h.hdim (t, i)) E

/-- The states that can be reached by calls `t.partial_env(i)` on tensors of the network, `i` being `None` or one
of the linked axes. (The model's recursion budget is above the number of tensors.) -/
inductive EnvReach (h0 : Heap R) (r : ℕ) (F : Forest) : Heap R → Prop
  | start : EnvReach h0 r F h0
  | call {h h' : Heap R} {t : ℕ} {i : Option ℕ} {fuel : ℕ} {ans : Option (Nd R)} : EnvReach h0 r F h →
      t ∈ h0.tensors r F → (∀ k, i = some k → h0.acc t k ≠ none) → F.ids.length < fuel →
      partialEnv fuel h t i false = .ok (h', ans) → EnvReach h0 r F h'

end Heap
