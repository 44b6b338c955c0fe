import Verif.Model.Heap

/-!
Model of `Tensor.vectorize` and `Tensor.tensorize`.
-/

open Py

namespace Heap

variable {R : Type}

/-- `t.aux if use_aux else t.array` -/
def arrayOrAux (h : Heap R) (useAux : Bool) (t : ℕ) : Option (Nd R) :=
  if useAux then (h.node t).aux else h.array t

/-- `t.aux = array` or `t.set_array(array)` -/
def setArrayOrAux (h : Heap R) (useAux : Bool) (t : ℕ) (x : Nd R) : Heap R :=
  if useAux then h.setAux t (some x) else h.setArray t (some x)

/-- `np.reshape(t.aux if use_aux else t.array, -1)`, `minitn/tensor.py:423-424`. A tensor without
the requested array makes numpy build an object array of `None`; here this is a `TypeError`. -/
def dataOf (h : Heap R) (useAux : Bool) (t : ℕ) : Res (List R) :=
  match h.arrayOrAux useAux t with
  | none => .error .typeError
  | some x => .ok x.data

/-- `Tensor.vectorize`, `minitn/tensor.py:405-429`: the vector, and the shape dictionary
(`t.shape` of every tensor, `None` without an array). -/
def vectorize (h : Heap R) (fuel a : ℕ) (useAux : Bool := false) :
    Res (List R × Dict ℕ (Option (List ℕ))) := do
  let ts ← h.visitor fuel a (h.node a).axis false
  let vecs ← ts.mapM fun t => h.dataOf useAux t
  let shapes := ts.foldl (fun (d : Dict ℕ (Option (List ℕ))) t =>
    d.set t ((h.array t).map Nd.shape)) []
  if vecs.isEmpty then throw .valueError else pure (vecs.flatten, shapes)

/-- `t.shape if shape_dict is None else shape_dict[t]`, `minitn/tensor.py:447`; the shape `None`
makes the next line (`start + np.prod(None)`) raise a `TypeError`. -/
def shapeFor (h : Heap R) (shapes : Option (Dict ℕ (Option (List ℕ)))) (t : ℕ) : Res (List ℕ) := do
  let shape ← match shapes with
    | none => Except.ok ((h.array t).map Nd.shape)
    | some d => d.get! t
  match shape with
  | none => throw .typeError
  | some s => pure s

/-- The loop of `Tensor.tensorize`, `minitn/tensor.py:445-454`. -/
def tensorizeLoop (vec : List R) (useAux : Bool) (shapes : Option (Dict ℕ (Option (List ℕ)))) :
    List ℕ → ℕ → Heap R → Res (Heap R)
  | [], _, h => .ok h
  | t :: ts, start, h => do
    let shape ← h.shapeFor shapes t
    let stop := start + shape.prod
    let v := (vec.drop start).take (stop - start)
    let array ← (⟨[v.length], v⟩ : Nd R).reshape shape
    tensorizeLoop vec useAux shapes ts stop (h.setArrayOrAux useAux t array)

/-- `Tensor.tensorize`, `minitn/tensor.py:431-455`. -/
def tensorize (h : Heap R) (fuel a : ℕ) (vec : List R) (useAux : Bool := false)
    (shapes : Option (Dict ℕ (Option (List ℕ))) := none) : Res (Heap R) := do
  let ts ← h.visitor fuel a (h.node a).axis false
  tensorizeLoop vec useAux shapes ts 0 h

end Heap
