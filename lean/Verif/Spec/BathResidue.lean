import Verif.Spec.Pade
import Mathlib.Analysis.Complex.Basic
import Mathlib.Analysis.SpecialFunctions.Trigonometric.Basic

/-!
Specification of the exponential terms of a bath correlation function (C72, C73, C74). Independent of the model.

The correlation function is `C(t) = ∫ J(w) f(beta w) exp(-i w t) dw` over the real axis. Closing the contour in the lower half plane, every
pole `a` of `J(w) f(beta w)` contributes the term `-2 pi i Res_a exp(-i a t)`.
-/

open Filter Topology

namespace BathSpec

noncomputable section

/-- `F` has at most a simple pole at `a`, with residue `r`. -/
def HasResidue (F : ℂ → ℂ) (a r : ℂ) : Prop := Tendsto (fun w => (w - a) * F w) (𝓝[≠] a) (𝓝 r)

/-- The term `c exp(g t)` is the contribution of the pole `a` of `F` in the lower half plane. -/
def Contribution (F : ℂ → ℂ) (a c g : ℂ) : Prop :=
  a.im < 0 ∧ g = -Complex.I * a ∧ ∃ r, HasResidue F a r ∧ c = -2 * Real.pi * Complex.I * r

/-- The spectral density of the Drude bath. -/
def drude (lam gamma : ℝ) (w : ℂ) : ℂ := 2 / Real.pi * lam * gamma * w / (w ^ 2 + gamma ^ 2)

/-- The spectral density of the Brownian oscillator. -/
def brownian (lam omega gamma : ℝ) (w : ℂ) : ℂ :=
  1 / Real.pi * (4 * lam * omega ^ 2 * gamma * w / ((w ^ 2 - omega ^ 2) ^ 2 + (2 * gamma * w) ^ 2))

/-- A sum of exponentials. -/
def series (coeff derivative : List ℂ) (t : ℝ) : ℂ := ((coeff.zip derivative).map fun (c, g) => c * Complex.exp (g * t)).sum

end

end BathSpec
