import Verif.Nd.Ops

/-!
Model of the array contractions of `minitn/tensor.py` (static methods of `Tensor`).
-/

open Py

namespace Tensor

variable {R : Type*} [CommRing R]

/-- `Tensor._partial_product`, `minitn/tensor.py:751-755`: `tensordot` followed by a
block `moveaxis`. -/
def partialProductAux (array1 : Nd R) (i : ℕ) (array2 : Nd R) (j : ℕ) : Res (Nd R) := do
  let l1 := array1.ndim
  let l2 := array2.ndim
  let ans ← array1.tensordot i array2 j
  ans.moveaxes (List.range' (l1 - 1) (l2 - 1)) (List.range' i (l2 - 1))

/-- `Tensor.partial_product`, `minitn/tensor.py:724-747`; `none` is Python's `None`. -/
def partialProduct (array1 : Nd R) (i : ℕ) (array2 : Option (Nd R)) (j : ℕ := 0) : Res (Nd R) :=
  match array2 with
  | none => .ok array1
  | some array2 => partialProductAux array1 i array2 j

/-- `Tensor.__partial_product`, `minitn/tensor.py:759-788` (the unused reshaping variant).
Python's axis `-1` is written as `ndim - 1`. -/
def partialProductReshape (array1 : Nd R) (i : ℕ) (array2 : Nd R) (j : ℕ) : Res (Nd R) := do
  if ¬ (i < array1.ndim ∧ j < array2.ndim) then throw .indexError
  let n := array1.shape.getD i 1
  let m := array2.shape.getD j 1
  let shape_1 := array1.shape.eraseIdx i
  let shape_2 := array2.shape.eraseIdx j
  let new_shape := shape_1.take i ++ shape_2 ++ shape_1.drop i
  let array1 ← array1.moveaxis i (array1.ndim - 1)
  let array1 ← array1.reshapeInfer [] [n]
  let array2 ← array2.moveaxis j 0
  let array2 ← array2.reshapeInfer [m] []
  let ans ← array1.matmul array2
  let ans ← ans.reshapeInfer shape_1 []
  let ans ← ans.moveaxis (ans.ndim - 1) i
  ans.reshape new_shape

/-- `Tensor.partial_trace`, `minitn/tensor.py:792-826`. A Python scalar result (both axes
`None`) is an array of shape `[]`. Python's axis `-1` is written as `ndim - 1`. -/
def partialTrace (array1 : Nd R) (i : Option ℕ) (array2 : Nd R) (j : Option ℕ) : Res (Nd R) :=
  match i, j with
  | some i, some j => do
    if ¬ (i < array1.ndim ∧ j < array2.ndim) then throw .indexError
    let n := array1.shape.getD i 1
    let m := array2.shape.getD j 1
    let array1 ← array1.moveaxis i 0
    let array1 ← array1.reshapeInfer [n] []
    let array2 ← array2.moveaxis j (array2.ndim - 1)
    let array2 ← array2.reshapeInfer [] [m]
    array1.matmul array2
  | none, none => do
    let array1 ← array1.reshapeInfer [] []
    let array2 ← array2.reshapeInfer [] []
    let x ← array1.vdot array2
    pure ⟨[], [x]⟩
  | _, _ => .error .typeError

end Tensor
