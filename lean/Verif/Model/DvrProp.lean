import Verif.Model.CasDvr

/-!
`DVR.propagator` of `minitn/bases/dvr.py` (320-346). `scipy.linalg.eigh` is a parameter.
-/

open Py

noncomputable section

namespace SineDVR

/-- `np.diag(A)` of a matrix -/
def npDiagonal (A : Nd ℂ) : List ℂ := (List.range (min (A.dim 0) (A.dim 1))).map fun i => A.get [i, i]

/-- `propagator`, dvr.py 320-346: `trotter` says whether `'Trotter' in method`; otherwise `None` is returned. -/
def propagator (eigh : Nd ℂ → Res (List ℝ × Nd ℝ)) (D : SineDVR) (tau : ℝ) (trotter : Bool) : Res (Option (Nd ℂ × Nd ℂ × Nd ℂ)) :=
  if trotter then do
    let dv ← eigh (← D.tMat)
    let v := CasDVR.cast dv.2
    let p3 := dv.1.map fun d : ℝ => Complex.exp (-1 * Complex.I * D.hbar * tau * d)
    let p3 ← v.matmul (← (npDiagK p3 0).matmul (Heom.transpose v))
    let p2 := (npDiagonal (← D.vMat)).map fun d => Complex.exp (-1 * Complex.I * D.hbar * tau * d)
    let p2 := npDiagK p2 0
    let p1 := (npDiagonal (Nd.smul 0.5 (← D.vMat))).map fun d => Complex.exp (-1 * Complex.I * D.hbar * tau * d)
    let p1 := npDiagK p1 0
    pure (some (p1, p2, p3))
  else .ok none

end SineDVR

end
