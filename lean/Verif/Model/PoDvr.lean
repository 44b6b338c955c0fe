import Verif.Model.SineDvr
import Verif.Model.Dvr

/-!
`PO_DVR` of `minitn/bases/dvr.py` (855-1207) as an object with a history of calls. Here `fast=False`; for `fast=True` see `Model/PoFast`. A call returns the object
it leaves behind, also when it raises an exception.
-/

open Py

noncomputable section

/-- The attributes `dvr_list`, `h_list` and `_diag_v_rst` of `PO_DVR`. -/
structure PoDvr where
  dvrs : List SineDVR
  hList : Option (List (Nd ℂ))
  diag : Option (List ℂ)

namespace PoDvr

/-- A potential of one coordinate: it is called with the array of the grid points. -/
abbrev VFunc : Type := List ℝ → Res (List ℂ)

/-- `__init__`, dvr.py 875-899 -/
def new (conf : List (ℝ × ℝ × ℕ)) (hbar me : ℝ) : PoDvr :=
  ⟨conf.map fun c => ⟨c.1, c.2.1, c.2.2, hbar, me, none, none⟩, none, none⟩

/-- dvr.py 915-916, from index `i` on -/
def setEach : List SineDVR → ℕ → List VFunc → List SineDVR × Res Unit
  | ds, _, [] => (ds, .ok ())
  | ds, i, f :: fs =>
    match ds[i]? with
    | none => (ds, .error .indexError)
    | some D => setEach (ds.set i (D.setVFunc f)) (i + 1) fs

/-- `_calc_diag`, dvr.py 923-931. The grid points never change. -/
def calcDiag (ds : List SineDVR) (func : List ℝ → ℂ) : Res (List ℂ) :=
  Dvr.calcDiag (ds.map SineDVR.n) (fun j k => ((ds.map SineDVR.gridPoints).getD j []).getD k 0) func

/-- `set_v_func`, dvr.py 904-921 -/
def setVFunc (o : PoDvr) (vList : List VFunc) (vRst : Option (List ℝ → ℂ)) : PoDvr × Res Unit :=
  match setEach o.dvrs 0 vList with
  | (ds, .error e) => ({ o with dvrs := ds }, .error e)
  | (ds, .ok _) =>
    match ds.mapM SineDVR.hMat with
    | .error e => ({ o with dvrs := ds }, .error e)
    | .ok hl =>
      match vRst with
      | none => ({ o with dvrs := ds, hList := some hl }, .ok ())
      | some w =>
        match calcDiag ds w with
        | .error e => ({ o with dvrs := ds, hList := some hl }, .error e)
        | .ok d => ({ o with dvrs := ds, hList := some hl, diag := some d }, .ok ())

/-- `init_state`, dvr.py 1006-1012 (also called by `solve` and `propagation`): only its effect on the object. `solve` is called for the
coordinates in order; `k` is the number of those for which it is called before an exception (all, if there is none). -/
def initState (o : PoDvr) (k : ℕ) : PoDvr := { o with dvrs := (o.dvrs.take k).map SineDVR.solve ++ o.dvrs.drop k }

/-- `h_mat()` and the application of the operator it returns to a vector, dvr.py 933-978. `h_list` is `None` before `set_v_func`. -/
def apply (o : PoDvr) (vec : List ℂ) : Res (List ℂ) :=
  match o.hList with
  | none => .error .typeError
  | some hl => Dvr.matvec hl o.diag vec

/-- The calls that change the object. -/
inductive Op
  | set (vList : List VFunc) (vRst : Option (List ℝ → ℂ))
  | initState (k : ℕ)

/-- A history of calls; exceptions are caught by the caller. -/
def run (o : PoDvr) : List Op → PoDvr
  | [] => o
  | .set vs w :: ops => run (o.setVFunc vs w).1 ops
  | .initState k :: ops => run (o.initState k) ops

end PoDvr

end
