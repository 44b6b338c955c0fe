import Verif.Model.Dvr
import Verif.Model.Contract
import Verif.Model.MultiLayer

/-!
`minitn/algorithms/mctdh.py`: the Hamiltonian of the class `MCTDH` (lines 118-138 and 170-339). `get_sub_vec` and `_partial_transform`
are in `Verif.Model.Dvr`.

The numbers are those of a commutative ring with an involution; `re` and `im` are `c.real` and `c.imag`, entry by entry, and `inv` is
`scipy.linalg.inv`. The one-dimensional Hamiltonians are dense matrices (`fast=False`). Coordinates are natural numbers.
-/

open Py
open scoped BigOperators

namespace Mctdh

variable {R : Type} [CommRing R] [StarRing R]

/-- A term: pairs of a coordinate and a matrix. -/
abbrev Term (R : Type) : Type := List (ℕ × Nd R)

/-- The fields of an `MCTDH` object that matter here, mctdh.py 77-84. -/
structure Obj (R : Type) where
  shapes : List (List ℕ)
  hTerms : List (Term R)
  modTerms : List (Term R)
  vec : List R

/-- mctdh.py 120-123: `_eval(op, vec)` -/
def evalOp (op vec : Nd R) : Res (Nd R) := do
  let vecH := (vec.transposeCore [1, 0]).conj
  let x ← op.matmul vec
  vecH.matmul x

/-- `c.real` or `c.imag` -/
def part (f : R → R) (c : Nd R) : Nd R := ⟨c.shape, c.data.map f⟩

/-- mctdh.py 129-134: `mod_h` for one pair. -/
def modOne (re im : R → R) (shapes : List (List ℕ)) (vec : List R) (p : ℕ × Nd R) : Res (ℕ × Nd R) := do
  let c ← getSubVec shapes (p.1 : ℤ) vec
  let hReal ← evalOp p.2 (part re c)
  let hImag ← evalOp p.2 (part im c)
  let modH ← hReal.add hImag
  pure (p.1, modH)

/-- mctdh.py 118-138: the value of `update_mod_terms(vec)`. -/
def updateModTerms (re im : R → R) (shapes : List (List ℕ)) (hTerms : List (Term R)) (vec : List R) : Res (List (Term R)) :=
  hTerms.mapM fun term => term.mapM (modOne re im shapes vec)

/-- mctdh.py 118-138: `update_mod_terms()`, with `vec=None` and `write=True`. -/
def Obj.update (re im : R → R) (o : Obj R) : Res (Obj R) := do
  let m ← updateModTerms re im o.shapes o.hTerms o.vec
  pure { o with modTerms := m }

/-- mctdh.py 255-259: `_coeff_op(tensor, mod_term)` -/
def coeffOp (tensor : Nd R) (modTerm : Term R) : Res (Nd R) :=
  modTerm.foldlM (fun t p => Dvr.partialTransform p.1 t p.2) tensor

/-- mctdh.py 262-286: `_partial_product(i, a, b)` for an axis `i`: the text of `Tensor.partial_trace` with both axes `i`. -/
def partialProduct (i : ℕ) (a b : Nd R) : Res (Nd R) := Tensor.partialTrace a (some i) b (some i)

/-- mctdh.py 242-244: `projection` -/
def projection (n : ℕ) (sp : Nd R) : Res (Nd R) := do
  let spH := (sp.transposeCore [1, 0]).conj
  let x ← sp.matmul spH
  (Nd.identity n).sub x

/-- mctdh.py 228-253: `_sp_op(i, mat, h_list, mod_term, err)` -/
def spOp (inv : Nd R → Res (Nd R)) (err : R) (o : Obj R) (i : ℕ) (mat : Nd R) (hList : List (Nd R)) (modTerm : Term R) :
    Res (Nd R) :=
  if hList = [] then .ok ⟨mat.shape, List.replicate mat.shape.prod 0⟩
  else do
    let n := mat.dim 0
    let m := mat.dim 1
    let a ← getSubVec o.shapes (-1) o.vec
    let aH := a.conj
    let density ← partialProduct i a aH
    let d ← density.add ((Nd.identity m).smul err)
    let invDensity ← inv d
    let sp ← getSubVec o.shapes (i : ℤ) o.vec
    let proj ← projection n sp
    let tmp ← Dvr.partialTransform i a mat
    let tmp ← hList.foldlM (fun t h => Dvr.partialTransform i t h) tmp
    let tmp ← modTerm.foldlM (fun t p => if p.1 ≠ i then Dvr.partialTransform p.1 t p.2 else pure t) tmp
    let tmp ← partialProduct i tmp aH
    let x ← tmp.matmul invDensity
    proj.matmul x

/-- `l[r]` -/
def item {α : Type} (l : List α) (r : ℕ) : Res α := (l[r]?).elim (.error .indexError) .ok

/-- mctdh.py 204-226: `term_hamiltonian(r, vec)` -/
def termHamiltonian (inv : Nd R → Res (Nd R)) (err : R) (o : Obj R) (r : ℕ) (vec : List R) : Res (List R) := do
  let hTerm ← item o.hTerms r
  let modTerm ← item o.modTerms r
  let steps := o.shapes.length
  let blocks ← (List.range steps).mapM fun (i : ℕ) => do
    let v ← getSubVec o.shapes (i : ℤ) vec
    if i + 1 < steps then spOp inv err o i v ((hTerm.filter fun p => p.1 = i).map Prod.snd) modTerm
    else coeffOp v modTerm
  pure (concatenate blocks)

/-- mctdh.py 196-200: `_matvec(vec)` of `h_mat()`. -/
def hMat (inv : Nd R → Res (Nd R)) (err : R) (o : Obj R) (vec : List R) : Res (List R) :=
  (List.range o.hTerms.length).foldlM (fun ans r => do
    let x ← termHamiltonian inv err o r vec
    if ans.length = x.length then pure (List.zipWith (· + ·) ans x) else throw .valueError) (List.replicate vec.length 0)

/-- mctdh.py 328-339: `energy_expection(vec)` -/
def energyExpection (re im : R → R) (o : Obj R) (vec : List R) : Res R := do
  let a ← getSubVec o.shapes (-1) vec
  let modTerms ← updateModTerms re im o.shapes o.hTerms vec
  modTerms.foldlM (fun ans term => do
    let hA ← coeffOp a term
    let hA ← hA.reshapeInfer [] []
    let aF ← a.reshapeInfer [] []
    let x ← aF.conj.vdot hA
    pure (ans + x)) 0

/-- mctdh.py 376-381: `_dot(v1, v2)` in `autocorrelation`. -/
def dotA (shapes : List (List ℕ)) (v1 v2 : List R) : Res R := do
  let t1 ← getSubVec shapes (-1) v1
  let t1 ← t1.reshapeInfer [] []
  let t2 ← getSubVec shapes (-1) v2
  let t2 ← t2.reshapeInfer [] []
  t1.vdot t2

end Mctdh
