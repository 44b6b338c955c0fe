import Verif.Model.Mctdh
import Verif.Model.PoDvr
import Mathlib.Analysis.Real.Sqrt

/-!
`minitn/algorithms/mctdh.py`: `gen_h_terms` (87-116), `init_state` (140-168) and the functions that `propagation` (341-367) gives to
`PO_DVR.propagation`; `DVR.solve` of `minitn/bases/dvr.py` (158-188).

Coordinates are natural numbers. Only `fast=False` is modelled.
-/

open Py
open scoped BigOperators

noncomputable section

namespace Mctdh

/-- mctdh.py 113, one pair: `(i, np.diag(func(np.asarray(self.grid_points_list[i]))))` -/
def diagTerm (ds : List SineDVR) (p : ℕ × PoDvr.VFunc) : Res (ℕ × Nd ℂ) := do
  let D ← item ds p.1
  let v ← p.2 D.gridPoints
  pure (p.1, npDiagK v 0)

/-- mctdh.py 87-116: the value of `gen_h_terms(extra, kinetic_only)`, which is also assigned to `self.h_terms`. -/
def genHTerms (ds : List SineDVR) (extra : Option (List (List (ℕ × PoDvr.VFunc)))) (kineticOnly : Bool) : Res (List (Term ℂ)) := do
  let base ← ds.zipIdx.mapM fun p => do
    let h ← if kineticOnly then p.1.tMat else p.1.hMat
    pure [(p.2, h)]
  match extra with
  | none => pure base
  | some l =>
    let ts ← l.mapM fun term => term.mapM (diagTerm ds)
    pure (base ++ ts)

open Classical in
/-- dvr.py 182-187: the rows `eigenstates` made of the columns of the matrix `v` of `eigsh`. -/
def signed (v : Nd ℝ) : Nd ℝ := Nd.ofFn [v.dim 1, v.dim 0] fun p =>
  if 0 ≤ v.get [0, p.getD 0 0] then v.get [p.getD 1 0, p.getD 0 0] else -v.get [p.getD 1 0, p.getD 0 0]

/-- dvr.py 158-188: `solve(n_state)`; `eigsh` is `eigsh(·, k=·, which='SA')`. Its effect on the object is `SineDVR.solve`. -/
def solve (eigsh : Nd ℂ → ℕ → Res (List ℝ × Nd ℝ)) (D : SineDVR) (nState : ℕ) : Res (List ℝ × Nd ℝ) := do
  let h ← D.hMat
  let (e, v) ← eigsh h nState
  pure (e, signed v)

/-- mctdh.py 157-161: one matrix `C_i`, flattened: the transposed rows of `solve`. -/
def cBlock (eigsh : Nd ℂ → ℕ → Res (List ℝ × Nd ℝ)) (ds : List SineDVR) (p : (ℕ × ℕ) × ℕ) : Res (Nd ℂ) := do
  let D ← item ds p.2
  let (_, v) ← solve eigsh D p.1.2
  let t := v.transposeCore [1, 0]
  pure ⟨[t.shape.prod], t.data.map fun x : ℝ => (x : ℂ)⟩

/-- mctdh.py 162-166: `init`; `arg` is the argument `shape_list`. -/
def initVec (eigsh : Nd ℂ → ℕ → Res (List ℝ × Nd ℝ)) (ds : List SineDVR) (arg : List (ℕ × ℕ)) : Res (List ℂ) := do
  let cs ← arg.zipIdx.mapM (cBlock eigsh ds)
  let size := (arg.map Prod.snd).prod
  if size = 0 then throw .indexError
  else pure (concatenate (cs ++ [⟨[size], (List.replicate size 0).set 0 1⟩]))

/-- mctdh.py 140-168: `init_state()`; here `o.shapes` is `shape_list` with the shape of `A`. -/
def Obj.initState (re im : ℂ → ℂ) (eigsh : Nd ℂ → ℕ → Res (List ℝ × Nd ℝ)) (ds : List SineDVR) (arg : List (ℕ × ℕ)) (o : Obj ℂ) :
    Res (Obj ℂ × List ℂ) := do
  let v ← initVec eigsh ds arg
  let o' ← ({ o with vec := v } : Obj ℂ).update re im
  pure (o', v)

/-- mctdh.py 351-363, one block: number `i` of `rank + 1`. Division by zero gives `nan` in numpy; this is not modelled. -/
def normBlock (arg : List (ℕ × ℕ)) (vec : List ℂ) (i : ℕ) : Res (Nd ℂ) := do
  let b ← getSubVec (shapeList arg) (i : ℤ) vec
  let b ← b.reshapeInfer [] []
  let std : ℝ := if i = arg.length then Real.sqrt 1 else Real.sqrt ((arg.getD i (0, 0)).2 : ℝ)
  let norm : ℝ := Real.sqrt ((b.data.map fun z : ℂ => ‖z‖ ^ 2).sum) / std
  pure ⟨b.shape, b.data.map fun z : ℂ => z / (norm : ℂ)⟩

/-- mctdh.py 350-365: `_normalizer(vec)` -/
def normalizer (arg : List (ℕ × ℕ)) (vec : List ℂ) : Res (List ℂ) := do
  let bs ← (List.range (arg.length + 1)).mapM fun i : ℕ => normBlock arg vec i
  pure (concatenate bs)

variable {R : Type} [CommRing R] [StarRing R]

/-- mctdh.py 346-349: `_updater(instance)`, with `instance.y = y`. -/
def Obj.updater (re im : R → R) (o : Obj R) (y : List R) : Res (Obj R) := ({ o with vec := y } : Obj R).update re im

/-- The function given to the solver, dvr.py 1083-1087, for an `MCTDH` object: `unit` is the imaginary unit. -/
def Obj.propagator (re im : R → R) (unit factor : R) (inv : Nd R → Res (Nd R)) (err : R) (o : Obj R) (y : List R) : Res (List R) := do
  let real ← hMat inv err o (y.map im)
  let imag ← hMat inv err o (y.map re)
  pure (List.zipWith (fun a b => factor * a + unit * (-factor * b)) real imag)

/-- dvr.py 1074-1075: the object with which `propagation(init)` starts, and the vector. `initState` is `init_state()`. -/
def Obj.start (initState : Obj R → Res (Obj R × List R)) (o : Obj R) : Option (List R) → Res (Obj R × List R)
  | none => initState o
  | some init => .ok (o, init)

end Mctdh

end
