import Verif.Spec.Env
import Verif.Model.MultiLayer

/-!
Specification: what a pass over the terms of an operator may change, and what the caller sees at each `yield`.
-/

open Py

namespace Heap

variable {R : Type}

/-- The same objects up to what `f` forgets. -/
def Sim (f : Node R → Node R) (h h' : Heap R) : Prop := h.next = h'.next ∧ ∀ t, f (h.node t) = f (h'.node t)

/-- Forget the operator on a leaf and the cached values. -/
def noOps (n : Node R) : Node R := { n with penv := [], array := if n.isLeaf then none else n.array }

/-- Forget `aux` and the cached values. -/
def noAux (n : Node R) : Node R := { n with penv := [], aux := none }

end Heap

namespace ML

variable {T R A : Type} [Zero T] [CommRing R] [StarRing R]

/-- The operator that a term puts on a leaf: the last one it names for this leaf. -/
def opOn (time : T) (term : Term T R) (l : ℕ) : Option (Nd R) :=
  term.foldl (fun acc p => if p.1 = l then some (p.2.at time) else acc) none

/-- The time at which operators are evaluated. -/
def Obj.now (s : Obj T R) : T := s.time.getD 0

/-- What the caller sees at `yield n` for the term `term` of the network of `s0` with tree `F`: every leaf carries the operator
the term names for it, or none; the links and the arrays of the tensors are those of `s0`; a tensor has the cached values of the
term in `env` if they are asked for and no other. -/
structure AtTerm (s0 : Obj T R) (F : Forest) (useCache : Bool) (n : ℕ) (term : Term T R) (s : Obj T R) : Prop where
  next : s.heap.next = s0.heap.next
  same : ∀ t, Heap.noOps (Heap.noAux (s.heap.node t)) = Heap.noOps (Heap.noAux (s0.heap.node t))
  leaves : ∀ l ∈ F.ids, s.heap.isLeaf l = true → s.heap.array l = opOn s0.now term l
  cache : ∀ t ∈ s.heap.tensors s0.root F, ∀ i, Dict.get? (s.heap.node t).penv i =
    if useCache then (s.heap.acc t i).bind fun x => s.env.get? (n, x.1, x.2) else none

/-- After the pass (and before it begins): no leaf of the network carries an operator, and no other leaf that carried none. -/
structure Clean (s0 : Obj T R) (F : Forest) (s : Obj T R) : Prop where
  next : s.heap.next = s0.heap.next
  same : ∀ t, Heap.noOps (Heap.noAux (s.heap.node t)) = Heap.noOps (Heap.noAux (s0.heap.node t))
  leaves : ∀ l ∈ F.ids, s.heap.isLeaf l = true → s.heap.array l = none
  others : ∀ l, s.heap.isLeaf l = true → s0.heap.array l = none → s.heap.array l = none

/-- The number of the first term that is visited. -/
def firstTerm (s : Obj T R) (op : Option (List (Term T R))) (onlyTd : Bool) : ℕ :=
  if op = none ∧ onlyTd = true then s.hList.length else 0

/-- What the caller's code `body` is assumed to do at term number `n`: in a state as described by `AtTerm` it succeeds, changes
nothing but `aux`, caches, and the fields other than `h_list`; and it carries the assertion `I n` to `I (n + 1)`. -/
def BodyOk (s0 : Obj T R) (F : Forest) (useCache : Bool)
    (body : ℕ → Obj T R × A → Res (Obj T R × A)) (I : ℕ → Obj T R → A → Prop) (n : ℕ) (term : Term T R) : Prop :=
  ∀ s a, AtTerm s0 F useCache n term s → s.hList = s0.hList → I n s a → ∃ s' a', body n (s, a) = .ok (s', a') ∧
    Heap.Sim Heap.noAux s.heap s'.heap ∧ s'.hList = s.hList ∧ I (n + 1) s' a'

end ML

namespace Heap

variable {R : Type} [CommRing R]

/-- The leaf indices given by a list of indices, one for each leaf in the list. -/
def leafPoint : List (ℕ × ℕ) → List ℕ → (ℕ → ℕ) → ℕ → ℕ
  | (l, _) :: L, i :: is, x => leafPoint L is (Nd.upd x l i)
  | _, _, x => x

/-- The number of entries of the dense state vector. -/
def stateDim (h : Heap R) (r : ℕ) (F : Forest) : ℕ := ((h.leafList r F).map Prod.snd).prod

/-- Entry `k` of the dense state vector of a tree tensor network: the leaf indices, in the order of `leaves()`, are the row-major
digits of `k`. -/
def stateVec (h : Heap R) (r : ℕ) (F : Forest) (k : ℕ) : R :=
  h.treeAmp r F (leafPoint (h.leafList r F) (unravel ((h.leafList r F).map Prod.snd) k) fun _ => 0)

end Heap

namespace ML

variable {T R : Type} [Zero T] [CommRing R]

/-- The dense matrix of a term, entry by entry: the product of the entries of its operators; `x` are the leaf indices of the
row, `y` those of the column, `L` are the leaves. -/
def termEntry (s0 : Obj T R) (L : List (ℕ × ℕ)) (term : Term T R) (x y : ℕ → ℕ) : R :=
  ((L.map Prod.fst).map fun l => Heap.opEntry (opOn s0.now term l) (x l) (y l)).prod

end ML
