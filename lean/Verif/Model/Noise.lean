import Verif.Model.Heom

/-!
`minitn/heom/noise.py`: `SpectrumFactory.drude`, `Drude`.

Numbers are exact. A division by zero, for which numpy gives `inf` or `nan` and a warning, is modelled as `ZeroDivisionError`; so is
`1 / tan(x)` where `cos(x) = 0` (`Real.tan` is 0 there; the floating point tangent is a large number). The attributes are read once, after
the object has been made; for the caching see `Verif.Model.Lazy`.
-/

open Py

namespace DrudeNoise

noncomputable section

/-- The parameters of `Drude`, noise.py 62-74; `beta` may be `None`. `hbar` is 1. -/
structure Drude where
  lam : ℝ
  omega0 : ℝ
  kMax : ℕ
  beta : Option ℝ

variable (D : Drude)

/-- `SpectrumFactory.drude`, noise.py 24-30 -/
def spectrum (omega : ℝ) : Res ℝ := Corr.rdiv (2 * D.lam * (omega * D.omega0)) (omega ^ 2 + D.omega0 ^ 2)

/-- `self.beta * self.hbar`, a `TypeError` for `None` -/
def betaHbar : Res ℝ := match D.beta with
  | none => .error .typeError
  | some b => .ok (b * 1)

/-- `exp_coeff`, noise.py 77-88 -/
def expCoeff : Res (List ℝ) := (List.range D.kMax).mapM fun k : ℕ =>
  if k = 0 then .ok D.omega0 else do Corr.rdiv (2 * Real.pi * (k : ℝ)) (← betaHbar D)

/-- `symm_coeff`, noise.py 90-101 -/
def symmCoeff : Res (List ℝ) := do
  let bh ← betaHbar D
  (List.range D.kMax).mapM fun k : ℕ =>
    if k = 0 then Corr.rdiv (D.omega0 * D.lam) (Real.tan (bh * D.omega0 / 2)) else do
      let g ← Corr.item (← expCoeff D) k
      Corr.rdiv (2 * (← spectrum D g)) bh

/-- `asymm_coeff`, noise.py 103-113 -/
def asymmCoeff : List ℝ := (List.range D.kMax).map fun k : ℕ => if k = 0 then -D.omega0 * D.lam else 0

/-- The object as `eom.py`, `eom2.py` and `seom.py` see it. -/
def noise : Res Heom.Noise := do
  let s ← symmCoeff D
  let e ← expCoeff D
  pure ⟨D.kMax, s.map fun x : ℝ => (x : ℂ), (asymmCoeff D).map fun x : ℝ => (x : ℂ), e.map fun x : ℝ => (x : ℂ)⟩

end

end DrudeNoise
