import Verif.Nd.Basic
import Mathlib.Algebra.Star.Basic

/-!
The numpy functions used by `/repo`, by their documented meaning.
Functions ending in `Core` are the computation on admissible arguments; the unsuffixed
functions add numpy's argument checks.
-/

open scoped BigOperators
open Py

/-- Python's `l.insert(k, x)` (clamps at the end). -/
def pyInsert {β : Type*} (l : List β) (k : ℕ) (x : β) : List β := l.take k ++ x :: l.drop k

namespace Nd

variable {α R : Type*}

/-- `np.conj(a)` -/
def conj [Star R] (a : Nd R) : Nd R := ⟨a.shape, a.data.map star⟩

/-- `c * a` -/
def smul [Mul R] (c : R) (a : Nd R) : Nd R := ⟨a.shape, a.data.map (c * ·)⟩

/-- `a + b` for arrays of the same shape (broadcasting is not modelled: `ValueError`). -/
def add [Add R] (a b : Nd R) : Res (Nd R) :=
  if a.shape = b.shape then .ok ⟨a.shape, List.zipWith (· + ·) a.data b.data⟩ else .error .valueError

/-- `a - b` for arrays of the same shape (broadcasting is not modelled: `ValueError`). -/
def sub [Sub R] (a b : Nd R) : Res (Nd R) :=
  if a.shape = b.shape then .ok ⟨a.shape, List.zipWith (· - ·) a.data b.data⟩ else .error .valueError

/-- `np.reshape(a, shape)` without `-1`. -/
def reshape (a : Nd α) (shape : List ℕ) : Res (Nd α) :=
  if a.shape.prod = shape.prod then .ok ⟨shape, a.data⟩ else .error .valueError

/-- `np.reshape(a, pre + [-1] + post)`. -/
def reshapeInfer (a : Nd α) (pre post : List ℕ) : Res (Nd α) :=
  let p := pre.prod * post.prod
  if p = 0 ∨ a.shape.prod % p ≠ 0 then .error .valueError
  else .ok ⟨pre ++ [a.shape.prod / p] ++ post, a.data⟩

/-- `np.transpose(a, order)` for a permutation `order` of the axes. -/
def transposeCore [Zero α] (a : Nd α) (order : List ℕ) : Nd α :=
  ofFn (order.map (fun k => a.shape.getD k 1))
    (fun idx => a.get ((List.range a.ndim).map (fun k => idx.getD (order.idxOf k) 0)))

/-- The axis order computed by `np.moveaxis(a, src, dst)` for lists of axes. -/
def moveOrder (nd : ℕ) (src dst : List ℕ) : List ℕ :=
  ((dst.zip src).mergeSort (fun p q => p.1 < q.1 || (p.1 == q.1 && p.2 ≤ q.2))).foldl
    (fun order p => pyInsert order p.1 p.2) ((List.range nd).filter (fun n => n ∉ src))

/-- `np.moveaxis(a, src, dst)` for lists of axes. -/
def moveaxes [Zero α] (a : Nd α) (src dst : List ℕ) : Res (Nd α) :=
  if (∀ s ∈ src, s < a.ndim) ∧ (∀ d ∈ dst, d < a.ndim) then
    if src.length = dst.length ∧ src.Nodup ∧ dst.Nodup then
      .ok (a.transposeCore (moveOrder a.ndim src dst))
    else .error .valueError
  else .error .axisError

/-- `np.moveaxis(a, src, dst)` for a single axis: axis `src` becomes axis `dst`, the other
axes keep their order. -/
def moveaxisCore [Zero α] (a : Nd α) (src dst : ℕ) : Nd α :=
  ofFn ((a.shape.eraseIdx src).insertIdx dst (a.shape.getD src 1))
    (fun idx => a.get ((idx.eraseIdx dst).insertIdx src (idx.getD dst 0)))

/-- `np.moveaxis(a, src, dst)` for a single axis. -/
def moveaxis [Zero α] (a : Nd α) (src dst : ℕ) : Res (Nd α) :=
  if src < a.ndim ∧ dst < a.ndim then .ok (a.moveaxisCore src dst) else .error .axisError

/-- `np.swapaxes(a, i, j)` -/
def swapaxesCore [Zero α] (a : Nd α) (i j : ℕ) : Nd α :=
  ofFn ((a.shape.set i (a.shape.getD j 1)).set j (a.shape.getD i 1))
    (fun idx => a.get ((idx.set i (idx.getD j 0)).set j (idx.getD i 0)))

/-- `np.swapaxes(a, i, j)` -/
def swapaxes [Zero α] (a : Nd α) (i j : ℕ) : Res (Nd α) :=
  if i < a.ndim ∧ j < a.ndim then .ok (a.swapaxesCore i j) else .error .axisError

variable [CommRing R]

/-- `np.tensordot(a, b, axes=([i], [j]))` -/
def tensordotCore (a : Nd R) (i : ℕ) (b : Nd R) (j : ℕ) : Nd R :=
  ofFn (a.shape.eraseIdx i ++ b.shape.eraseIdx j)
    (fun idx => ∑ k ∈ Finset.range (a.shape.getD i 1),
      a.get ((idx.take (a.ndim - 1)).insertIdx i k) * b.get ((idx.drop (a.ndim - 1)).insertIdx j k))

/-- `np.tensordot(a, b, axes=([i], [j]))` -/
def tensordot (a : Nd R) (i : ℕ) (b : Nd R) (j : ℕ) : Res (Nd R) :=
  if i < a.ndim ∧ j < b.ndim then
    if a.shape.getD i 1 = b.shape.getD j 1 then .ok (tensordotCore a i b j) else .error .valueError
  else .error .indexError

/-- `np.dot(a, b)` for two matrices -/
def matmulCore (a b : Nd R) : Nd R :=
  ofFn [a.shape.getD 0 1, b.shape.getD 1 1]
    (fun idx => ∑ k ∈ Finset.range (a.shape.getD 1 1),
      a.get [idx.getD 0 0, k] * b.get [k, idx.getD 1 0])

/-- `np.dot(a, b)` for two matrices (other orders are used by `/repo` only through
`vdot`): `ValueError` unless aligned. -/
def matmul (a b : Nd R) : Res (Nd R) :=
  if a.ndim = 2 ∧ b.ndim = 2 ∧ a.shape.getD 1 1 = b.shape.getD 0 1 then .ok (matmulCore a b)
  else .error .valueError

/-- `np.dot(a, b)` for two vectors, a scalar. -/
def vdot (a b : Nd R) : Res R :=
  if a.ndim = 1 ∧ b.ndim = 1 ∧ a.shape = b.shape then
    .ok (∑ k ∈ Finset.range (a.shape.getD 0 1), a.get [k] * b.get [k])
  else .error .valueError

end Nd
