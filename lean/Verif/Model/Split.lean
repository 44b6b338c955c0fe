import Verif.Model.Heap

/-!
Model of `Tensor.split`, `unite`, `split_unite`, `unite_split` and `contraction`.
-/

open Py

/-- The argument `axis` of `Tensor.split`: one axis or a list of axes. -/
inductive AxisArg
  | one (i : ℕ)
  | many (l : List ℕ)
  deriving DecidableEq, Repr

namespace Heap

variable {R : Type} [CommRing R]

/-- `compressed_svd(a, rank=rank, err=err)` as `split` sees it: any function from a matrix to
`(u, s, vh)`. `rank` and `err` are part of it. -/
abbrev Svd (R : Type) : Type := Nd R → Res (Nd R × Nd R × Nd R)

/-- The name settings of `Tensor.split`, `minitn/tensor.py:546-549`: `TypeError` for the name
`None`, `ValueError` if there is more than one `+`. -/
def splitNames (name : Option (List Char)) : Res (List Char × List Char) :=
  match name with
  | none => .error .typeError
  | some name =>
    if '+' ∈ name then
      match name.splitOn '+' with
      | [n1, n2] => .ok (n1, n2)
      | _ => .error .valueError
    else .ok (name ++ ['\''], name)

/-- `[shape[i] for i in axes]`, `minitn/tensor.py:544` -/
def shapeOn (shape axes : List ℕ) : Res (List ℕ) :=
  axes.mapM fun i => match shape[i]? with
    | some d => .ok d
    | none => .error .indexError

/-- The arrays of the two new tensors, `minitn/tensor.py:552-559`. Python's axis `-1` is written
as `ndim - 1`. -/
def splitArrays (csvd : Svd R) (a : Nd R) (axes1 shape1 shape2 : List ℕ) (index1 index2 : ℕ) :
    Res (Nd R × Nd R) := do
  let a ← axes1.zipIdx.foldlM (fun a p => a.moveaxis p.1 p.2) a
  let a ← a.reshape [shape1.prod, shape2.prod]
  let (u, s, vh) ← csvd a
  let us ← u.matmul s
  let root ← us.reshapeInfer shape1 []
  let root ← root.moveaxis (root.ndim - 1) index1
  let child ← vh.reshapeInfer [] shape2
  let child ← child.moveaxis 0 index2
  pure (root, child)

/-- `axes.index(i)` -/
def axesIndex (axes : List (Option ℕ)) (i : ℕ) : Res ℕ :=
  if some i ∈ axes then .ok (axes.idxOf (some i)) else .error .valueError

/-- The loop of `Tensor.split` over the old links, `minitn/tensor.py:577-582`: unlink, and collect
the new links. -/
def splitLoop (self root child : ℕ) (axes1 axes2 : List (Option ℕ)) :
    List (ℕ × ℕ × ℕ) → Heap R → List (ℕ × ℕ × ℕ × ℕ) → Res (Heap R × List (ℕ × ℕ × ℕ × ℕ))
  | [], h, info => .ok (h, info)
  | (i, t, j) :: rest, h, info => do
    let is1 := some i ∈ axes1
    let axes := if is1 then axes1 else axes2
    let tensor := if is1 then root else child
    let h ← h.unlink self i t j
    let k ← axesIndex axes i
    splitLoop self root child axes1 axes2 rest h (info ++ [(tensor, k, t, j)])

/-- `for linkage in link_info: link(*linkage)`, `minitn/tensor.py:583-584`, `:642-643` -/
def linkAll (h : Heap R) (info : List (ℕ × ℕ × ℕ × ℕ)) : Heap R :=
  info.foldl (fun h e => h.link e.1 e.2.1 e.2.2.1 e.2.2.2) h

/-- Create a tensor or write into the given one, `minitn/tensor.py:562-571`, `:624-628`. -/
def place (h : Heap R) (t : Option ℕ) (name : Option (List Char)) (array : Nd R) (axis : Option ℕ)
    (normalized : Bool) : Heap R × ℕ :=
  match t with
  | none => h.alloc (Node.tensor name (some array) axis normalized)
  | some t => ((h.setAxis t axis).setArray t (some array), t)

/-- `Tensor.split`, `minitn/tensor.py:505-585`. Returns the heap and the two tensors. Not
modelled: the call on a `Leaf` that has to create an object (its constructor has no `axis`). -/
def split (csvd : Svd R) (h : Heap R) (self : ℕ) (axis : AxisArg) (indice : Option (ℕ × ℕ) := none)
    (root child : Option ℕ := none) (normalized : Bool := false) : Res (Heap R × ℕ × ℕ) := do
  if (h.node self).axis ≠ none then throw .runtimeError
  let axes1 := match axis with
    | .one i => [i]
    | .many l => l.insertionSort (· ≤ ·)
  let default := match axis with
    | .one i => (0, i)
    | .many _ => (0, 0)
  let axes2 := (List.range (h.order self)).filter fun i => i ∉ axes1
  let (index1, index2) := indice.getD default
  let children := h.children self none
  match h.array self with
  | none => throw .typeError
  | some a =>
    let shape1 ← shapeOn a.shape axes1
    let shape2 ← shapeOn a.shape axes2
    let (name1, name2) ← splitNames (h.node self).name
    let (rootArray, childArray) ← splitArrays csvd a axes1 shape1 shape2 index1 index2
    let (h, root) := h.place root (some name1) rootArray none normalized
    let (h, child) := h.place child (some name2) childArray (some index2) normalized
    let axes1 := pyInsert (axes1.map some) index1 none
    let axes2 := pyInsert (axes2.map some) index2 none
    let (h, info) ← splitLoop self root child axes1 axes2 children h [(root, index1, child, index2)]
    pure (h.linkAll info, root, child)

/-- The name of a united tensor, `minitn/tensor.py:617-622`: `TypeError` for a name `None`. -/
def uniteName (n1 n2 : Option (List Char)) : Res (Option (List Char)) :=
  match n1 with
  | none => .error .typeError
  | some n1 =>
    if '\'' ∈ n1 then .ok n2
    else match n2 with
      | none => .error .typeError
      | some n2 => if '\'' ∈ n2 then .ok (some n1) else .ok (some (n1 ++ '+' :: n2))

/-- The loop of `Tensor.unite` over the old links, `minitn/tensor.py:638-640`. -/
def uniteLoop (root : ℕ) :
    List (ℕ × ℕ × ℕ × ℕ) → Heap R → List (ℕ × ℕ × ℕ × ℕ) → Res (Heap R × List (ℕ × ℕ × ℕ × ℕ))
  | [], h, info => .ok (h, info)
  | (s, i, t, j) :: rest, h, info => do
    let h ← h.unlink s i t j
    uniteLoop root rest h (info ++ [(root, info.length, t, j)])

/-- `Tensor.unite`, `minitn/tensor.py:596-644`. Returns the heap and the united tensor. An array
`None` is an `AttributeError` (`None.pop`). -/
def unite (h : Heap R) (self axis : ℕ) (root : Option ℕ := none) (normalized : Bool := false) :
    Res (Heap R × ℕ) := do
  let (t2, index2) ← (h.access self).get! axis
  if (h.node self).axis ≠ none ∧ (h.node t2).axis ≠ none then throw .runtimeError
  match h.array self, h.array t2 with
  | some a1, some a2 =>
    if ¬ (axis < a1.ndim ∧ index2 < a2.ndim) then throw .indexError
    let array ← Tensor.partialProduct a1 axis (some a2) index2
    let name ← uniteName (h.node self).name (h.node t2).name
    let (h, root) := h.place root name array none normalized
    let h ← h.unlink self axis t2 index2
    let l1 := (h.children self none).map fun x => (self, x)
    let l2 := (h.children t2 none).map fun x => (t2, x)
    let (h, info) ← uniteLoop root (l1.take axis ++ l2 ++ l1.drop axis) h []
    pure (h.linkAll info, root)
  | _, _ => throw .attributeError

/-- An operator applied to the bond (or united) tensor in `split_unite` and `unite_split`: any
function on the heap; its result only names the returned tensor. -/
abbrev Operator (R : Type) : Type := Heap R → ℕ → Res (Heap R × ℕ)

/-- `if operator is not None: mid = operator(mid)` -/
def applyOp (op : Option (Operator R)) (h : Heap R) (mid : ℕ) : Res (Heap R × ℕ) :=
  match op with
  | none => .ok (h, mid)
  | some f => f h mid

/-- `Tensor.split_unite`, `minitn/tensor.py:457-476`. Returns the heap and `self, mid, end`. -/
def splitUnite (csvd : Svd R) (h : Heap R) (self i : ℕ) (op : Option (Operator R) := none)
    (normalized : Option Bool := none) : Res (Heap R × ℕ × ℕ × ℕ) := do
  let (fin, j) ← (h.access self).get! i
  let normalized := normalized.getD ((h.node self).normalized && (h.node fin).normalized)
  let (h, mid, _) ← h.split csvd self (.one i) none none (some self) normalized
  let (h, mid) ← applyOp op h mid
  let (h, _) ← h.unite fin j (some fin) normalized
  pure (h, self, mid, fin)

/-- `Tensor.unite_split`, `minitn/tensor.py:478-503`, with the assertion it makes under
`__debug__`. Returns the heap and `self, mid, end`. -/
def uniteSplit (fuel : ℕ) (csvd : Svd R) (h : Heap R) (self i : ℕ) (op : Option (Operator R) := none)
    (normalized : Option Bool := none) : Res (Heap R × ℕ × ℕ × ℕ) := do
  let old ← h.linkageVisitor fuel self none true false
  let (fin, j) ← (h.access self).get! i
  let normalized := normalized.getD ((h.node self).normalized && (h.node fin).normalized)
  let axes := (List.range (h.order fin - 1)).map fun k => i + k
  let (h, mid) ← h.unite self i none normalized
  let (h, mid) ← applyOp op h mid
  let (h, _, _) ← h.split csvd mid (.many axes) (some (j, i)) (some fin) (some self) normalized
  let new ← h.linkageVisitor fuel self none true false
  if old = new then pure (h, self, mid, fin) else throw .assertionError

/-- The `for` loop of `Tensor.contraction`, `minitn/tensor.py:653-655`. -/
def contractFor (self : ℕ) : List (ℕ × ℕ × ℕ) → Heap R → Res (Heap R)
  | [], h => .ok h
  | (_, t, j) :: rest, h => do
    let (_, i) ← (h.access t).get! j
    let (h, _) ← h.unite self i (some self)
    contractFor self rest h

/-- The `while` loop of `Tensor.contraction`, `minitn/tensor.py:649-655`. -/
def contractWhile (self : ℕ) : ℕ → Heap R → Res (Heap R)
  | 0, _ => .error .outOfFuel
  | fuel + 1, h =>
    let children := h.childrenDflt self false
    if children.isEmpty then .ok h
    else do
      let h ← contractFor self children h
      contractWhile self fuel h

/-- `Tensor.contraction(dry_run)`, `minitn/tensor.py:646-656`. -/
def contraction (h : Heap R) (fuel self : ℕ) (dryRun : Bool := false) :
    Res (Heap R × Option (Nd R)) := do
  if dryRun then throw .notImplementedError
  let h ← contractWhile self fuel h
  pure (h, h.array self)

end Heap
