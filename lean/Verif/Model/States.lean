import Verif.Model.Heap

/-!
Model of `minitn/structures/states.py`: `Network` and `Tree` (`Chain`, 241-244, adds nothing). Tensors are compared by identity (`Tensor` has no
`__eq__`), so a tensor as a key of a dictionary is its number in the heap. `wfn` is a dictionary of its own here; in the code
the dictionary given to `__init__` is kept, not copied, so that the caller shares it. The empty methods `split`, `unite`, `split_unite`, `unite_split` (105-118)
are omitted.
-/

open Py

/-- A value of the dictionary `wfn`: `None`, an array, or `np.array(None)`, the array of dimension 0 that `copy` (84-87) makes from `None`. -/
inductive Cell (R : Type)
  | void
  | array (x : Nd R)
  | objNone

/-- The attributes of a `Network`, states.py 53-54. -/
structure Network (R : Type) where
  root : ℕ
  wfn : Dict ℕ (Cell R)

namespace Network

variable {R : Type}

/-- `value is None` -/
def isVoid : Cell R → Bool
  | .void => true
  | _ => false

/-- `Network.__init__`, states.py 38-55. -/
def init (h : Heap R) (fuel template : ℕ) (wfn : Option (Dict ℕ (Cell R)) := none) : Res (Network R) := do
  let ts ← h.visitor fuel template none true
  let roots := ts.filter fun t => (h.node t).axis.isNone
  match roots with
  | [r] => pure ⟨r, wfn.getD []⟩
  | _ => throw .notImplementedError

/-- `vertices`, states.py 120-122. -/
def vertices (h : Heap R) (fuel : ℕ) (net : Network R) : Res (List ℕ) := h.visitor fuel net.root (h.node net.root).axis true

/-- `edges`, states.py 124-127. -/
def edges (h : Heap R) (fuel : ℕ) (net : Network R) : Res (List (ℕ × ℕ × ℕ × ℕ)) :=
  h.linkageVisitor fuel net.root (h.node net.root).axis true false

/-- `directed_edges`, states.py 129-132. -/
def directedEdges (h : Heap R) (fuel : ℕ) (net : Network R) : Res (List (ℕ × ℕ × ℕ × ℕ)) :=
  h.linkageVisitor fuel net.root (h.node net.root).axis true true

/-- `__getitem__`, states.py 57-65. -/
def getItem (h : Heap R) (fuel : ℕ) (net : Network R) (key : ℕ) : Res (Cell R) := do
  let ts ← net.vertices h fuel
  if key ∈ ts then
    match Dict.get? net.wfn key with
    | some value => pure value
    | none => throw .keyError
  else throw .keyError

/-- `__setitem__`, states.py 67-76. -/
def setItem (h : Heap R) (fuel : ℕ) (net : Network R) (key : ℕ) (value : Cell R) : Res (Network R) := do
  let ts ← net.vertices h fuel
  if key ∈ ts then
    if isVoid ((Dict.get? net.wfn key).getD .void) then pure { net with wfn := net.wfn.set key value }
    else throw .runtimeError
  else throw .keyError

/-- `as_template`, states.py 79-82. -/
def asTemplate (h : Heap R) (fuel : ℕ) (net : Network R) : Res (Network R) := do
  let ts ← net.vertices h fuel
  init h fuel net.root (some (ts.foldl (fun (d : Dict ℕ (Cell R)) t => d.set t .void) []))

/-- `np.array(a)`, states.py 86. -/
def copyCell : Cell R → Cell R
  | .void => .objNone
  | .array x => .array x
  | .objNone => .objNone

/-- `copy`, states.py 84-87. -/
def copy (h : Heap R) (fuel : ℕ) (net : Network R) : Res (Network R) :=
  init h fuel net.root (some (net.wfn.map fun p => (p.1, copyCell p.2)))

/-- `deepcopy`, states.py 89-103: the first statement reads the local variable `attributes` before any assignment to it. -/
def deepcopy (_ : Heap R) (_ : Network R) : Res (Heap R × Network R) := .error .unboundLocalError

/-- `np.reshape(self.wfn[t], -1)`, states.py 142: `None` becomes an array whose only entry is `None`. -/
def flat : Cell R → List (Option R)
  | .array x => x.data.map some
  | .void => [none]
  | .objNone => [none]

/-- `vectorize`, states.py 134-144. -/
def vectorize (h : Heap R) (fuel : ℕ) (net : Network R) : Res (List (Option R)) := do
  let ts ← net.vertices h fuel
  let vecs ← ts.mapM fun t => do
    let value ← Dict.get! net.wfn t
    pure (flat value)
  if vecs.isEmpty then throw .valueError else pure vecs.flatten

/-- The loop of `tensorize`, states.py 160-164; the shape `None` of a tensor without array gives a `TypeError` (`start + np.prod(None)`). -/
def tensorizeLoop (h : Heap R) (fuel : ℕ) (vec : List R) : List ℕ → ℕ → Network R → Res (Network R)
  | [], _, net => .ok net
  | t :: ts, start, net => do
    let shape ← match h.array t with
      | none => Except.error Err.typeError
      | some x => .ok x.shape
    let stop := start + shape.prod
    let v := (vec.drop start).take (stop - start)
    let array ← (⟨[v.length], v⟩ : Nd R).reshape shape
    let net ← net.setItem h fuel t (.array array)
    tensorizeLoop h fuel vec ts stop net

/-- `tensorize`, states.py 146-165. -/
def tensorize (h : Heap R) (fuel : ℕ) (net : Network R) (vec : List R) : Res (Network R) := do
  let new ← net.asTemplate h fuel
  let ts ← net.vertices h fuel
  tensorizeLoop h fuel vec ts 0 new

/-! ### `Tree` -/

/-- `leaves`, states.py 173-175. -/
def leaves (h : Heap R) (fuel : ℕ) (net : Network R) : Res (List ℕ) := do
  let ts ← net.vertices h fuel
  pure (ts.filter fun t => h.isLeaf t)

/-- `nonleaves`, states.py 181-183. -/
def nonleaves (h : Heap R) (fuel : ℕ) (net : Network R) : Res (List ℕ) := do
  let ts ← net.vertices h fuel
  pure (ts.filter fun t => !(h.isLeaf t))

/-- `tensor[axis]`, `minitn/tensor.py:209-210`; the keys of `_access` are numbers. -/
def slot (h : Heap R) (t : ℕ) (axis : Option ℕ) : Res (ℕ × ℕ) :=
  match axis with
  | none => .error .keyError
  | some i => Dict.get! (h.access t) i

/-- `subleaves`, states.py 177-179. -/
def subleaves (h : Heap R) (fuel : ℕ) (net : Network R) : Res (List ℕ) := do
  let ls ← net.leaves h fuel
  ls.mapM fun t => do
    let (p, _) ← slot h t (some 0)
    pure p

/-- A value of `env_dict`: the number `1.` or an array. -/
inductive EnvVal (R : Type)
  | one
  | mat (x : Nd R)

/-- `env_dict` -/
abbrev EnvDict (R : Type) := Dict (ℕ × Option ℕ) (Option (EnvVal R))

section

variable [CommRing R]

/-- `partial_product(temp, j, matrix)`, states.py 227; the number `1.` has no `ndim` (`AttributeError`). -/
def product (temp : Nd R) (j : ℕ) : Option (EnvVal R) → Res (Nd R)
  | none => .ok temp
  | some .one => .error .attributeError
  | some (.mat x) => Tensor.partialProduct temp j (some x)

/-- `wfn[child]`, states.py 225; `None` instead of an array gives an `AttributeError` in `partial_trace`, `np.array(None)` an `IndexError`. -/
def arrayOf (wfn : Dict ℕ (Cell R)) (t : ℕ) : Res (Nd R) := do
  let value ← Dict.get! wfn t
  match value with
  | .array x => pure x
  | .void => throw .attributeError
  | .objNone => throw .indexError

/-- `_single_env`, states.py 198-232, with the cache that is left. `operator` and `conj_wfn` are anything with `__getitem__`. It returns the
cached value if there is one, and `None` after computing a value (the `return` in 232). -/
def singleEnv (h : Heap R) (wfn : Dict ℕ (Cell R)) (operator : Option (ℕ → Res (Option (Nd R)))) (conjWfn : Option (ℕ → Res (Nd R))) :
    ℕ → EnvDict R → ℕ → Option ℕ → Res (EnvDict R × Option (EnvVal R))
  | 0, _, _, _ => .error .outOfFuel
  | fuel + 1, env, tensor, axis =>
    match Dict.get? env (tensor, axis) with
    | some v => .ok (env, v)
    | none => do
      let (child, i) ← slot h tensor axis
      let (env, ans) ←
        if h.isLeaf child then
          match operator with
          | none => pure (env, none)
          | some op => do
            let m ← op child
            pure (env, m)
        else do
          let (env, childEnv) ← (h.children child (some i) true).foldlM
            (fun (x : EnvDict R × List (ℕ × Option (EnvVal R))) y => do
              let (env, v) ← singleEnv h wfn operator conjWfn fuel x.1 y.2.1 (some y.2.2)
              pure (env, x.2 ++ [(y.1, v)])) (env, [])
          if conjWfn.isNone && decide (axis = (h.node tensor).axis) && (h.node tensor).normalized && childEnv.all (fun p => p.2.isNone) then
            pure (env, none)
          else do
            let temp ← arrayOf wfn child
            let temp ← childEnv.foldlM (fun temp p => product temp p.1 p.2) temp
            let conj ← match conjWfn with
              | none => arrayOf wfn child
              | some f => f child
            let m ← Tensor.partialTrace temp (some i) conj (some i)
            pure (env, some m)
      let value : EnvVal R := match ans with
        | none => .one
        | some m => .mat m
      .ok (env.set (tensor, axis) (some value), none)

/-- `partial_env`, states.py 185-238. -/
def partialEnv (h : Heap R) (fuel : ℕ) (net : Network R) (operator : Option (ℕ → Res (Option (Nd R)))) (conjWfn : Option (ℕ → Res (Nd R))) :
    Res (EnvDict R) := do
  let ts ← net.subleaves h fuel
  let env ← ts.foldlM (fun env t =>
    (List.range (h.order t)).foldlM (fun env i => do
      let (env, _) ← singleEnv h net.wfn operator conjWfn fuel env t (some i)
      pure env) env) ([] : EnvDict R)
  let (env, v) ← singleEnv h net.wfn operator conjWfn fuel env net.root none
  pure (env.set (net.root, none) v)

end

end Network
