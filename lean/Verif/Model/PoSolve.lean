import Verif.Model.MctdhProp
import Verif.Model.Davidson

/-!
`PO_DVR.init_state` (1006-1012), `PO_DVR.solve` (980-1004) and `PO_DVR.mu_mat` (1014-1042) of `minitn/bases/dvr.py`: the values they return.
The effect of `init_state` on the object is `PoDvr.initState`. `eigsh` is a parameter. Coordinates are natural numbers.
-/

open Py
open scoped BigOperators

noncomputable section

namespace PoDvr

/-- `v_i[0]` -/
def firstRow (v : Nd ℝ) : Res (List ℝ) := if v.dim 0 = 0 then .error .indexError else .ok ((List.range (v.dim 1)).map fun x : ℕ => v.get [0, x])

/-- `np.tensordot(v, w, axes=0)` for a vector `w` -/
def outer (v : Nd ℝ) (w : List ℝ) : Nd ℝ := Nd.ofFn (v.shape ++ [w.length]) fun p => v.get p.dropLast * w.getD (p.getLastD 0) 0

/-- The loop body of dvr.py 1009-1010 -/
def initStep (eigsh : Nd ℂ → ℕ → Res (List ℝ × Nd ℝ)) (v : Nd ℝ) (D : SineDVR) : Res (Nd ℝ) := do
  let (_, vi) ← Mctdh.solve eigsh D 1
  let w ← firstRow vi
  pure (outer v w)

/-- `init_state()`, dvr.py 1006-1012: the vector -/
def initVector (eigsh : Nd ℂ → ℕ → Res (List ℝ × Nd ℝ)) (o : PoDvr) : Res (List ℝ) := do
  let v ← o.dvrs.foldlM (initStep eigsh) ⟨[], [1]⟩
  pure v.data

/-- `h_op.dot` for the Davidson method, which works with real vectors of one length `N` (dvr.py 998): the real parts of the entries of the
product. An exception in the product is not modelled here. -/
def dotVec (o : PoDvr) (N : ℕ) (v : Vec N) : Vec N := fun i =>
  match o.apply (List.ofFn fun j => ((v j : ℝ) : ℂ)) with
  | .ok r => (r.getD i 0).re
  | .error _ => 0

/-- `solve(n_state, davidson=True)`, dvr.py 996-1000 and 1004, for the length `N` of the vector of `init_state()`. `h_mat()` comes first: it
needs `h_list`. -/
def solveDavidson (cfg : Davidson.Config) (N : ℕ) (lib : Davidson.Lib N) (eigsh : Nd ℂ → ℕ → Res (List ℝ × Nd ℝ)) (o : PoDvr) (nState : ℕ) :
    Res (List ℝ × List (Vec N)) :=
  match o.hList with
  | none => .error .typeError
  | some _ => do
    let v ← initVector eigsh o
    Davidson.kernel cfg lib (Davidson.init cfg (dotVec o N) [fun i : Fin N => v.getD i 0] nState none)

/-- `solve(n_state)`, dvr.py 996-997 and 1001-1004 (the default, `davidson=False`): the energies and the rows. `eigshOp f m v` is
`eigsh(h_op, k=m, which='SA', v0=v)` for the operator that maps a vector `w` to `f w`; it returns real vectors in the columns of a matrix. -/
def solveEigsh (eigshOp : (List ℂ → Res (List ℂ)) → ℕ → List ℝ → Res (List ℝ × Nd ℝ)) (eigsh : Nd ℂ → ℕ → Res (List ℝ × Nd ℝ)) (o : PoDvr)
    (nState : ℕ) : Res (List ℝ × Nd ℝ) :=
  match o.hList with
  | none => .error .typeError
  | some _ => do
    let v ← initVector eigsh o
    let (e, w) ← eigshOp o.apply nState v
    pure (e, Nd.ofFn [w.dim 1, w.dim 0] fun p => w.get [p.getD 1 0, p.getD 0 0])

/-- `diag_mu`, dvr.py 1041 with `_calc_diag` (923-931): `1. - args[dim]` at every point of the grid. The function may raise an exception,
so it is not an instance of `calcDiag`. -/
def muDiag (o : PoDvr) (dim : ℕ) : Res (List ℝ) :=
  (List.range (o.dvrs.map SineDVR.n).prod).mapM fun i : ℕ => do
    let sub ← Dvr.subindex (o.dvrs.map SineDVR.n) i
    let x ← Mctdh.item (sub.zipIdx.map fun p => ((o.dvrs.map SineDVR.gridPoints).getD p.2 []).getD p.1 0) dim
    pure (1 - x)

/-- `mu_mat(dim)` and the application of the operator to a vector, dvr.py 1014-1042. The operator rejects vectors of another length. -/
def muApply (o : PoDvr) (dim : ℕ) (vec : List ℂ) : Res (List ℂ) := do
  let d ← muDiag o dim
  if d.length = vec.length then pure (List.zipWith (fun (a : ℝ) (z : ℂ) => (a : ℂ) * z) d vec) else throw .valueError

end PoDvr

end
