import Verif.Model.Contract
import Mathlib.Data.List.Sort

/-!
Model of the object graph of `minitn/tensor.py`: `Tensor` and `Leaf` objects, their links and
the walks over them. Objects are numbers into a heap.
-/

open Py

/-- A `Tensor` or `Leaf` object, `minitn/tensor.py:46-71`, `844-847`. Names are lists of
characters. `penv` is `_partial_env` (a Leaf has none, here: the empty dictionary). -/
structure Node (R : Type) where
  name : Option (List Char)
  axis : Option ℕ
  array : Option (Nd R)
  aux : Option (Nd R)
  access : Dict ℕ (ℕ × ℕ)
  penv : Dict ℕ (Option (Nd R))
  normalized : Bool
  isLeaf : Bool

/-- `Tensor.__init__`, `minitn/tensor.py:46-71`. -/
def Node.tensor {R : Type} (name : Option (List Char)) (array : Option (Nd R)) (axis : Option ℕ)
    (normalized : Bool := false) : Node R :=
  ⟨name, axis, array, none, [], [], normalized, false⟩

/-- `Leaf.__init__`, `minitn/tensor.py:844-847`. -/
def Node.leaf {R : Type} (name : Option (List Char)) (array : Option (Nd R) := none) : Node R :=
  ⟨name, none, array, none, [], [], false, true⟩

/-- All objects created so far are those below `next`. -/
structure Heap (R : Type) where
  node : ℕ → Node R
  next : ℕ

namespace Heap

variable {R : Type}

/-- Mutate one object. -/
def upd (h : Heap R) (a : ℕ) (f : Node R → Node R) : Heap R :=
  { h with node := fun b => if b = a then f (h.node b) else h.node b }

/-- Create an object. -/
def alloc (h : Heap R) (n : Node R) : Heap R × ℕ :=
  ({ node := fun b => if b = h.next then n else h.node b, next := h.next + 1 }, h.next)

/-- `a._access` -/
def access (h : Heap R) (a : ℕ) : Dict ℕ (ℕ × ℕ) := (h.node a).access

/-- `a._access.get(i)` -/
def acc (h : Heap R) (a i : ℕ) : Option (ℕ × ℕ) := Dict.get? (h.node a).access i

/-- `isinstance(a, Leaf)` -/
def isLeaf (h : Heap R) (a : ℕ) : Bool := (h.node a).isLeaf

/-- `a.array` -/
def array (h : Heap R) (a : ℕ) : Option (Nd R) := (h.node a).array

/-- `Tensor.set_array`, `minitn/tensor.py:104-106` -/
def setArray (h : Heap R) (a : ℕ) (x : Option (Nd R)) : Heap R := h.upd a fun n => { n with array := x }

/-- `a.axis = x` -/
def setAxis (h : Heap R) (a : ℕ) (x : Option ℕ) : Heap R := h.upd a fun n => { n with axis := x }

/-- `a.aux = x` -/
def setAux (h : Heap R) (a : ℕ) (x : Option (Nd R)) : Heap R := h.upd a fun n => { n with aux := x }

/-- `Tensor.order`, `minitn/tensor.py:129-131`, and `Leaf.order`, `:858`. -/
def order (h : Heap R) (a : ℕ) : ℕ := if h.isLeaf a then 1 else (h.access a).length

/-- `Tensor.link`, `minitn/tensor.py:133-151` (logging omitted). -/
def link (h : Heap R) (a i b j : ℕ) : Heap R :=
  let h := h.upd a fun n => { n with access := n.access.set i (b, j) }
  h.upd b fun n => { n with access := n.access.set j (a, i) }

/-- `Tensor.unlink`, `minitn/tensor.py:153-169`, with the heap that is left behind also when an
exception is raised. -/
def unlinkS (h : Heap R) (a i b j : ℕ) : Heap R × Res Unit :=
  match Dict.get? (h.access a) i with
  | none => (h, .error .keyError)
  | some x =>
    if x = (b, j) then
      match Dict.get? (h.access b) j with
      | none => (h, .error .keyError)
      | some y =>
        if y = (a, i) then
          let h := h.upd a fun n => { n with access := n.access.del i }
          match Dict.get? (h.access b) j with
          | none => (h, .error .keyError)
          | some _ => (h.upd b fun n => { n with access := n.access.del j }, .ok ())
        else (h, .error .runtimeError)
    else (h, .error .runtimeError)

/-- `Tensor.unlink`, `minitn/tensor.py:153-169`, as used inside other methods. -/
def unlink (h : Heap R) (a i b j : ℕ) : Res (Heap R) :=
  match h.unlinkS a i b j with
  | (h', .ok _) => .ok h'
  | (_, .error e) => .error e

/-- `Tensor.linkages`, `minitn/tensor.py:257-264`: triples `(i, t, j)` sorted by `i`. -/
def linkages (h : Heap R) (a : ℕ) : List (ℕ × ℕ × ℕ) :=
  ((h.access a).map fun p => (p.1, p.2.1, p.2.2)).insertionSort fun x y => x.1 ≤ y.1

/-- `Tensor.children(axis, leaf)`, `minitn/tensor.py:242-255`, with an explicit axis. -/
def children (h : Heap R) (a : ℕ) (axis : Option ℕ) (leaf : Bool := true) : List (ℕ × ℕ × ℕ) :=
  if axis = none ∧ h.isLeaf a then []
  else (h.linkages a).filter fun x =>
    (decide (axis = none) || decide (some x.1 ≠ axis)) && (leaf || !(h.isLeaf x.2.1))

/-- `Tensor.children(leaf=leaf)`, `minitn/tensor.py:248-249`: the axis defaults to `self.axis`. -/
def childrenDflt (h : Heap R) (a : ℕ) (leaf : Bool := true) : List (ℕ × ℕ × ℕ) :=
  h.children a (h.node a).axis leaf

/-- Entry `shape[i]` of `t.shape`, `minitn/tensor.py:122-127`: `TypeError` if there is no array. -/
def shapeAt (h : Heap R) (a i : ℕ) : Res ℕ :=
  match h.array a with
  | none => .error .typeError
  | some x => match x.shape[i]? with
    | some d => .ok d
    | none => .error .indexError

/-- `Tensor.check_linkage`, `minitn/tensor.py:171-190`. -/
def checkLinkage (h : Heap R) (a i : ℕ) (strict : Bool := false) : Res Unit := do
  let (child, j) ← (h.access a).get! i
  let back ← (h.access child).get! j
  let cond1 := decide (back = (a, i))
  let cond ←
    if cond1 && strict then
      if (h.isLeaf a && (h.array a).isNone) || (h.isLeaf child && (h.array child).isNone) then
        pure true
      else if (h.array a).isNone || (h.array child).isNone then pure false
      else do
        let x ← h.shapeAt a i
        let y ← h.shapeAt child j
        pure (decide (x = y))
    else pure cond1
  if cond then pure () else throw .runtimeError

/-- `Tensor.check_completness`, `minitn/tensor.py:192-207`. Two key sets are compared as sets. -/
def checkCompletness (h : Heap R) (a : ℕ) (strict : Bool := false) : Res Unit := do
  if (∀ i ∈ Dict.keys (h.access a), i < h.order a) ∧
      (∀ i ∈ List.range (h.order a), i ∈ Dict.keys (h.access a)) then
    (List.range (h.order a)).forM fun i => h.checkLinkage a i strict
  else throw .runtimeError

/-- `Tensor.visitor`, `minitn/tensor.py:266-276`, with an explicit axis; the list of yielded
tensors. -/
def visitor (h : Heap R) : ℕ → ℕ → Option ℕ → Bool → Res (List ℕ)
  | 0, _, _, _ => .error .outOfFuel
  | fuel + 1, a, axis, leaf => do
    let subs ← (h.children a axis leaf).mapM fun x => visitor h fuel x.2.1 (some x.2.2) leaf
    pure ((if leaf || !(h.isLeaf a) then [a] else []) ++ subs.flatten)

/-- `Tensor.linkage_visitor`, `minitn/tensor.py:278-289`. As in the code, `directed` is not
passed to the recursive calls. -/
def linkageVisitor (h : Heap R) : ℕ → ℕ → Option ℕ → Bool → Bool → Res (List (ℕ × ℕ × ℕ × ℕ))
  | 0, _, _, _, _ => .error .outOfFuel
  | fuel + 1, a, axis, leaf, directed => do
    let subs ← (h.children a axis leaf).mapM fun x => do
      let sub ← linkageVisitor h fuel x.2.1 (some x.2.2) leaf false
      pure ([(a, x.1, x.2.1, x.2.2)] ++ sub ++
        (if directed then [(x.2.1, x.2.2, a, x.1)] else []))
    pure subs.flatten

/-- `Tensor.decorated_linkage_visitor`, `minitn/tensor.py:291-303`. -/
def decoratedLinkageVisitor (h : Heap R) :
    ℕ → ℕ → Option ℕ → Bool → Res (List (Bool × ℕ × ℕ × ℕ × ℕ))
  | 0, _, _, _ => .error .outOfFuel
  | fuel + 1, a, axis, leaf => do
    let subs ← (h.children a axis leaf).mapM fun x => do
      let sub ← decoratedLinkageVisitor h fuel x.2.1 (some x.2.2) leaf
      pure ([(false, a, x.1, x.2.1, x.2.2)] ++ sub ++ [(true, x.2.1, x.2.2, a, x.1)])
    pure subs.flatten

/-- `Tensor.leaves`, `minitn/tensor.py:393-403`. -/
def leaves (h : Heap R) (fuel a : ℕ) : Res (List ℕ) := do
  let vs ← h.visitor fuel a (h.node a).axis true
  pure (vs.filter fun t => h.isLeaf t)

/-- `Tensor.unlink_to`, `minitn/tensor.py:225-240`. When `fast` is false a missing link is only
logged, and then `child` is not bound at the `return`. -/
def unlinkTo (h : Heap R) (a i : ℕ) (fast : Bool := false) : Res (Heap R × ℕ × ℕ) := do
  let chk : Res Unit := if fast then .ok () else h.checkLinkage a i
  match chk with
  | .error .keyError => throw .unboundLocalError
  | .error e => throw e
  | .ok _ =>
    let (child, j) ← (h.access a).get! i
    let h' ← h.unlink a i child j
    pure (h', child, j)

/-! ### `Tensor.generate` -/

/-- One pass of the loop body of `Tensor.generate`, `minitn/tensor.py:92-101`: link the listed
children of `r`. State: heap, `order`, `stack` (top at the end). -/
def genChildren {κ : Type} [DecidableEq κ] (nm : κ → List Char) (graph : Dict κ (List κ))
    (sr : κ) (r : ℕ) :
    List κ → Heap R × Dict κ ℕ × List (κ × ℕ) → Res (Heap R × Dict κ ℕ × List (κ × ℕ))
  | [], s => .ok s
  | sc :: rest, (h, order, stack) => do
    let isT := graph.contains sc
    let (h, c) := h.alloc
      (if isT then Node.tensor (some (nm sc)) none (some 0) else Node.leaf (some (nm sc)))
    let k ← order.get! sr
    let h := h.link r k c 0
    let order := (order.set sr (k + 1)).set sc 1
    genChildren nm graph sr r rest (h, order, if isT then stack ++ [(sc, c)] else stack)

/-- The `while stack` loop of `Tensor.generate`, `minitn/tensor.py:90-101`. -/
def genLoop {κ : Type} [DecidableEq κ] (nm : κ → List Char) (graph : Dict κ (List κ)) :
    ℕ → Heap R × Dict κ ℕ × List (κ × ℕ) → Res (Heap R)
  | 0, _ => .error .outOfFuel
  | fuel + 1, (h, order, stack) =>
    match stack.getLast? with
    | none => .ok h
    | some (sr, r) => do
      let cs ← graph.get! sr
      let s ← genChildren nm graph sr r cs (h, order, stack.dropLast)
      genLoop nm graph fuel s

/-- `Tensor.generate`, `minitn/tensor.py:77-102`. Names are any keys `κ` with their `str`
form `nm`. Returns the heap and the root. -/
def generate {κ : Type} [DecidableEq κ] (nm : κ → List Char) (graph : Dict κ (List κ)) (root : κ)
    (fuel : ℕ) (h : Heap R) : Res (Heap R × ℕ) := do
  let (h, r) := h.alloc (Node.tensor (some (nm root)) none none)
  let h ← genLoop nm graph fuel (h, [(root, 0)], [(root, r)])
  pure (h, r)

end Heap
