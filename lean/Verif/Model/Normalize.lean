import Verif.Model.Env
import Mathlib.Algebra.Field.Defs

/-!
`minitn/tensor.py`, lines 388-391, 658-687 and 698-721: `local_norm`, `normalize`, `projector`.

`sqrt` stands for `np.sqrt`; `linalg.norm(v)` is the square root of the sum of the squared moduli. One-dimensional
arrays of length `n` are written as functions of the index. Division by zero, which gives `nan` in numpy, is not
modelled: it gives 0 here, and the theorems are about arrays for which it does not occur.

Not modelled: `normalize` changes the old array object in place when reshaping it does not copy.
-/

open scoped BigOperators

namespace Heap

open Py

variable {R : Type} [Field R] [StarRing R]

/-- `np.dot(np.conj(u), v)` for vectors of length `n`. -/
def cdot (n : ℕ) (u v : ℕ → R) : R := ∑ p ∈ Finset.range n, star (u p) * v p

/-- tensor.py 678-679: `for vec_j in vecs: vec_i -= vec_j * np.dot(np.conj(vec_j), vec_i)`. -/
def orthogonalize (n : ℕ) (vecs : List (ℕ → R)) (v : ℕ → R) : ℕ → R :=
  vecs.foldl (fun v u => fun q => v q - u q * cdot n u v) v

/-- tensor.py 675-682: the loop over the rows; returns `vecs` and `norm_list`. -/
def gramSchmidt (sqrt : R → R) (n : ℕ) (rows : List (ℕ → R)) : List (ℕ → R) × List R :=
  rows.foldl (fun acc v =>
    let w := orthogonalize n acc.1 v
    let nrm := sqrt (cdot n w w)
    (acc.1 ++ [fun q => w q / nrm], acc.2 ++ [nrm])) ([], [])

/-- The rows of a matrix. -/
def rowsOf (a : Nd R) : List (ℕ → R) := (List.range (a.dim 0)).map fun i => fun q => a.get [i, q]

/-- `np.array(vecs)` for vectors of length `n`. -/
def stack (n : ℕ) (vecs : List (ℕ → R)) : Nd R :=
  Nd.ofFn [vecs.length, n] fun idx => (vecs.getD (idx.getD 0 0) (fun _ => 0)) (idx.getD 1 0)

/-- tensor.py 671-686: the array part of `normalize` for a tensor with `axis`. -/
def normalizeArray (sqrt : R → R) (array : Nd R) (axis : ℕ) : Res (Nd R × List R) := do
  let shape := array.shape.eraseIdx axis
  let dim := array.shape.getD axis 1
  let a ← array.moveaxis axis 0
  let a ← a.reshapeInfer [dim] []
  let (vecs, norms) := gramSchmidt sqrt (a.dim 1) (rowsOf a)
  let b ← (stack (a.dim 1) vecs).reshapeInfer [] shape
  let b ← b.moveaxis 0 axis
  pure (b, norms)

/-- tensor.py 388-391 for a tensor without `axis`: sets `aux`, and returns the norm. -/
def localNorm0 (sqrt : R → R) (h : Heap R) (t : ℕ) (array : Nd R) : Res (Heap R × R) := do
  let h := h.setAux t (some array.conj)
  let ans ← Tensor.partialTrace array none array.conj none
  pure (h, sqrt (ans.get []))

/-- tensor.py 658-687: `t.normalize(forced)`. The list of norms is returned (for a root: its one norm), or `None` if
nothing was done. `shape.pop(axis)` is an `IndexError` if there is no such axis. -/
def normalize (sqrt : R → R) (h : Heap R) (t : ℕ) (forced : Bool := false) : Res (Heap R × Option (List R)) :=
  match h.array t with
  | none => .ok (h, none)
  | some array =>
    if (h.node t).normalized = false ∧ forced = false then .ok (h, none)
    else
      match (h.node t).axis with
      | none => do
        let (h, norm) ← localNorm0 sqrt h t array
        pure (h.setArray t (some ⟨array.shape, array.data.map (· / norm)⟩), some [norm])
      | some axis =>
        if array.ndim ≤ axis then .error .indexError
        else do
          let (b, norms) ← normalizeArray sqrt array axis
          pure (h.setArray t (some b), some norms)

/-- `np.identity(n)` -/
def identity (n : ℕ) : Nd R := Nd.ofFn [n, n] fun idx => if idx.getD 0 0 = idx.getD 1 0 then 1 else 0

/-- tensor.py 698-721: `t.projector(comp)`. Python's axis `-1` is `ndim - 1`. -/
def projector (h : Heap R) (t : ℕ) (comp : Bool := false) : Res (Nd R) :=
  match (h.node t).axis with
  | none => .error .runtimeError
  | some axis =>
    match h.array t with
    | none => .error .typeError
    | some array =>
      if array.ndim ≤ axis then .error .indexError
      else do
        let shape := array.shape.eraseIdx axis
        let dim := array.shape.getD axis 1
        let compDim := shape.prod
        let a ← array.moveaxis axis (array.ndim - 1)
        let a ← a.reshapeInfer [] [dim]
        let ah := (a.transposeCore [1, 0]).conj
        let ans ← a.matmul ah
        let ans ← if comp then (identity compDim).sub ans else pure ans
        ans.reshape (shape ++ shape)

end Heap
