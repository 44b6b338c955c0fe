import Verif.Model.PoDvr

/-!
`PO_DVR(..., fast=True)` of `minitn/bases/dvr.py` (855-1207): the one-dimensional grids are `FastSineDVR` (743-852), whose `h_mat` is an
operator without a matrix. A call returns the object it leaves behind, also when it raises an exception.
-/

open Py

noncomputable section

/-- `FastSineDVR`: the parameters and `v_func` are those of a `SineDVR` (its `hCache` is not used); `cache` is `_h_mat`. -/
structure FastDVR where
  par : SineDVR
  cache : Option LinOp

namespace FastDVR

/-- `h_mat`, dvr.py 803-839 -/
def hMat (d : FastDVR) : Res LinOp :=
  match d.cache with
  | some o => .ok o
  | none => d.par.fastHMat

/-- `set_v_func`, dvr.py 106-115 (inherited) -/
def setVFunc (d : FastDVR) (f : List ℝ → Res (List ℂ)) : FastDVR := ⟨d.par.setVFunc f, none⟩

/-- `solve`, dvr.py 158-188 (inherited): only its effect on the object, `self._h_mat = self.h_mat()`. -/
def solve (d : FastDVR) : FastDVR :=
  match d.hMat with
  | .ok o => { d with cache := some o }
  | .error _ => d

end FastDVR

namespace Dvr

/-- The body of the loop in dvr.py 961-970 for an operator `h_i`: `np.array(list(map(h_i.dot, v_i)))` calls `matvec` for every row. (If there
are no rows the array has one axis instead of two; the reshape that follows does not depend on it.) -/
def opTransform (i : ℕ) (tensor : Nd ℂ) (h : LinOp) : Res (Nd ℂ) := do
  let shape := tensor.shape.eraseIdx i ++ [h.dim]
  let v ← tensor.swapaxes (tensor.ndim - 1) i
  let v ← v.reshapeInfer [] [h.dim]
  let rows ← (List.range (v.dim 0)).mapM fun r => h.matvec ((List.range h.dim).map fun k => v.get [r, k])
  let v : Nd ℂ := Nd.ofFn [v.dim 0, h.dim] fun idx => (rows.getD (idx.getD 0 0) []).getD (idx.getD 1 0) 0
  let v ← v.reshape shape
  v.swapaxes (v.ndim - 1) i

/-- dvr.py 957-975: `_matvec(vec)`; `h_list` holds the operators of the one-dimensional Hamiltonians. -/
def opMatvec (hList : List LinOp) (vRst : Option (List ℂ)) (vec : List ℂ) : Res (List ℂ) := do
  let ioSizes := hList.map LinOp.dim
  let v ← (⟨[vec.length], vec⟩ : Nd ℂ).reshape ioSizes
  let ans ← hList.zipIdx.foldlM (fun (ans : Nd ℂ) p => do
    let w ← opTransform p.2 v p.1
    ans.add w) (⟨ioSizes, v.data.map fun _ => 0⟩ : Nd ℂ)
  match vRst with
  | none => pure ans.data
  | some d =>
    if d.length = vec.length then pure (List.zipWith (· + ·) ans.data (List.zipWith (· * ·) d vec))
    else throw .valueError

end Dvr

/-- The attributes `dvr_list`, `h_list` and `_diag_v_rst` of `PO_DVR` with `fast=True`. -/
structure PoFast where
  dvrs : List FastDVR
  hList : Option (List LinOp)
  diag : Option (List ℂ)

namespace PoFast

/-- `__init__`, dvr.py 875-899 -/
def new (conf : List (ℝ × ℝ × ℕ)) (hbar me : ℝ) : PoFast :=
  ⟨conf.map fun c => ⟨⟨c.1, c.2.1, c.2.2, hbar, me, none, none⟩, none⟩, none, none⟩

/-- dvr.py 915-916, from index `i` on -/
def setEach : List FastDVR → ℕ → List PoDvr.VFunc → List FastDVR × Res Unit
  | ds, _, [] => (ds, .ok ())
  | ds, i, f :: fs =>
    match ds[i]? with
    | none => (ds, .error .indexError)
    | some d => setEach (ds.set i (d.setVFunc f)) (i + 1) fs

/-- `_calc_diag`, dvr.py 923-931. The grid points never change. -/
def calcDiag (ds : List FastDVR) (func : List ℝ → ℂ) : Res (List ℂ) :=
  Dvr.calcDiag (ds.map fun d => d.par.n) (fun j k => ((ds.map fun d => d.par.gridPoints).getD j []).getD k 0) func

/-- `set_v_func`, dvr.py 904-921 -/
def setVFunc (o : PoFast) (vList : List PoDvr.VFunc) (vRst : Option (List ℝ → ℂ)) : PoFast × Res Unit :=
  match setEach o.dvrs 0 vList with
  | (ds, .error e) => ({ o with dvrs := ds }, .error e)
  | (ds, .ok _) =>
    match ds.mapM FastDVR.hMat with
    | .error e => ({ o with dvrs := ds }, .error e)
    | .ok hl =>
      match vRst with
      | none => ({ o with dvrs := ds, hList := some hl }, .ok ())
      | some w =>
        match calcDiag ds w with
        | .error e => ({ o with dvrs := ds, hList := some hl }, .error e)
        | .ok d => ({ o with dvrs := ds, hList := some hl, diag := some d }, .ok ())

/-- `init_state`, dvr.py 1006-1012: only its effect on the object; `k` is the number of coordinates for which `solve` is called. -/
def initState (o : PoFast) (k : ℕ) : PoFast := { o with dvrs := (o.dvrs.take k).map FastDVR.solve ++ o.dvrs.drop k }

/-- `h_mat()` and the application of the operator it returns to a vector, dvr.py 933-978. -/
def apply (o : PoFast) (vec : List ℂ) : Res (List ℂ) :=
  match o.hList with
  | none => .error .typeError
  | some hl => Dvr.opMatvec hl o.diag vec

/-- A history of calls, the same calls as for `fast=False`; exceptions are caught by the caller. -/
def run (o : PoFast) : List PoDvr.Op → PoFast
  | [] => o
  | .set vs w :: ops => run (o.setVFunc vs w).1 ops
  | .initState k :: ops => run (o.initState k) ops

end PoFast

end
