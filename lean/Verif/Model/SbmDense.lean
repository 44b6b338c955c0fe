import Verif.Model.Sbm
import Verif.Model.MultiLayer

/-!
`dense_h` of `minitn/models/sbm.py`.

The frequencies of the oscillators are Python floats. The call in 144-145 passes six positional arguments to `heom_h_list`, whose
parameters are `sys_i, sys_j, bath_indices, beta, basis, scale`: so `bath_indices` is `ph_indices`, `beta` is the list `bath_indices`,
`basis` is `beta`, and `scale` is `f_type`.
-/

open Py

namespace Sbm

noncomputable section

variable {L : Type} [DecidableEq L]

/-- `indices.index(k)` -/
def indexOf (indices : List L) (k : L) : Res ℕ := if k ∈ indices then .ok (indices.idxOf k) else .error .valueError

/-- sbm.py 153-155: one factor; `tensordot` with axis 0 of the matrix and `moveaxis` of the last axis are `partial_product`. `+=` of an
array of another shape is a `ValueError`. -/
def denseFactor (indices : List L) (ii h : Nd ℂ) (m : L × Nd ℂ) : Res (Nd ℂ) := do
  let p ← indexOf indices m.1
  let cumm ← Tensor.partialProduct ii p (some m.2) 0
  h.add cumm

/-- sbm.py 147-157: the loop over the terms and their factors. -/
def denseLoop (indices : List L) (shape : List ℕ) (diff : List (LTerm L)) : Res (Nd ℂ) := do
  let ii ← (Nd.identity shape.prod : Nd ℂ).reshape (shape ++ shape)
  let h ← diff.foldlM (fun h t => t.foldlM (denseFactor indices ii) h) (Nd.ofFn (shape ++ shape) fun _ => 0)
  h.reshape [shape.prod, shape.prod]

namespace SpinBoson

variable (S : SpinBoson)

/-- `heom_h_list` (sbm.py 97-116) as `dense_h` calls it (144-145). With an oscillator, `beta * omega` (bath.py 72) is the product of a
list and a float: `TypeError`. Otherwise, if there is a tier, `self.basis[k]` of a number (hierachy.py 151) is a `TypeError`, and so is the
division by a scale that is `None` (159). Simplification: of two exceptions that could be raised in the same pass only this one is given. -/
def shiftedHList (sysI sysJ : L) (phIndices : List L) (beta : Option ℝ) (fType : Option ℂ) : Res (List (LTerm L)) :=
  if S.ph = [] then do
    let corr ← Corr.generateBCF [] S.bathCorr none
    let heom ← Heom.Hierachy.init S.nTiers S.h S.op corr
    if S.nTiers = [] then hList heom sysI sysJ phIndices
    else match beta, fType with
      | none, some s => hList { heom with scale := s } sysI sysJ phIndices
      | _, _ => .error .typeError
  else .error .typeError

/-- `dense_h`, sbm.py 131-157 -/
def denseH (sysI sysJ : L) (phIndices : List L) (bathIndices : Option (List L)) (beta : Option ℝ) (fType : Option ℂ) : Res (Nd ℂ) := do
  let bathIndices := bathIndices.getD []
  let indices := [sysI, sysJ] ++ phIndices ++ bathIndices
  let shape := S.h.shape ++ S.phDims.flatMap (List.replicate 2) ++ S.bathDims
  let diff ← S.shiftedHList sysI sysJ phIndices beta fType
  denseLoop indices shape diff

end SpinBoson

end

end Sbm
