import Verif.Model.SineDvr

/-!
`minitn/bases/dvr.py`: the functions of a sine DVR (`dvr2cont`, `fbr2cont`, `dvr_func`, `fbr_func`) and its derivative matrix (`dq_mat`);
`minitn/lib/numerical.py`: `BasisFunction.particle_in_box`.

Numbers are exact. Functions are called with one real number; numpy calls them with an array and works on each entry.
-/

open Py
open scoped BigOperators

noncomputable section

/-- `BasisFunction.particle_in_box(j, L, x0)`, numerical.py 43-52 -/
def particleInBox (j L x0 : ℝ) (x : ℝ) : ℝ :=
  if x0 < x ∧ x < x0 + L then Real.sqrt (2 / L) * Real.sin (j * Real.pi * (x - x0) / L) else 0

namespace SineDVR

variable (D : SineDVR)

/-- `SineDVR.fbr_func`, dvr.py 667-680 -/
def fbrFunc (i : ℕ) : ℝ → ℝ := particleInBox ((i : ℝ) + 1) D.length D.a

/-- `fbr2cont`, dvr.py 272-291: the function `_psi`. `vec[j]` raises `IndexError` if the vector is too short. -/
def fbr2cont (vec : List ℂ) (x : ℝ) : Res ℂ :=
  (List.range D.n).foldlM (fun (psi : ℂ) (j : ℕ) =>
    match vec[j]? with
    | none => .error .indexError
    | some c => .ok (psi + (D.fbrFunc j x : ℂ) * c)) 0

/-- `dvr2cont`, dvr.py 216-229 -/
def dvr2cont (vec : List ℂ) : Res (ℝ → Res ℂ) := do
  let vec ← D.dvr2fbrVec vec
  pure (D.fbr2cont vec)

/-- `dvr_func`, dvr.py 231-243, for `alpha ≥ 0` (python also takes negative numbers): the column `alpha` of the transformation. -/
def dvrFunc (alpha : ℕ) : Res (ℝ → Res ℂ) :=
  if alpha < D.n then .ok (D.fbr2cont ((List.range D.n).map fun j => D.uMat.get [j, alpha])) else .error .indexError

/-- The matrix of the loops of `dq_mat`, dvr.py 629-634. The lines divide by `self.length`: the theorems assume that it is not 0. -/
def dqFbr : Nd ℂ := Nd.ofFn [D.n, D.n] fun p =>
  let j : ℕ := p.getD 0 0 + 1
  let k : ℕ := p.getD 1 0 + 1
  if j ≠ k then (((((j : ℤ) - (k : ℤ)) % 2 : ℤ) * 4 * (j : ℝ) * (k : ℝ) / ((j : ℝ) ^ 2 - (k : ℝ) ^ 2) / D.length : ℝ) : ℂ) else 0

/-- `dq_mat`, dvr.py 628-638 -/
def dqMat : Res (Nd ℂ) := do
  let mat ← D.fbr2dvrMat D.dqFbr
  pure (Nd.ofFn [D.n, D.n] fun p => if p.getD 0 0 = p.getD 1 0 then 0 else mat.get p)

/-- `q_mat`, dvr.py 117-118 -/
def qMat : Nd ℂ := npDiagK (D.gridPoints.map fun x : ℝ => (x : ℂ)) 0

end SineDVR

end
