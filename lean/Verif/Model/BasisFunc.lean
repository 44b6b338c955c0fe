import Verif.Py.Basic
import Mathlib.Analysis.Calculus.IteratedDeriv.Defs
import Mathlib.Analysis.SpecialFunctions.Trigonometric.Basic
import Mathlib.Analysis.SpecialFunctions.Pow.Real

/-!
`minitn/lib/symbolic.py` and `minitn/lib/numerical.py`: basis functions, window functions and potentials.

Numbers are exact and real. A sympy expression in `x` is modelled by the function it denotes; `sym.simplify`, `sym.expand`, `subs` and
`lambdify` do not change that function.
-/

open Py

noncomputable section

namespace Symbolic

/-- `Polynomial.hermite(n)`, symbolic.py 43-51 -/
def hermite (n : ℕ) (y : ℝ) : ℝ := (-1) ^ n * Real.exp (y ^ 2) * iteratedDeriv n (fun x : ℝ => Real.exp (-x ^ 2)) y

/-- `BasisFunction.harmonic_oscillator(n, k, m, hbar)`, symbolic.py 28-40; `BasisFunction.harmonic_oscillator` of numerical.py 55-62 is its
`lambdify`. `hbar = 0` raises `ZeroDivisionError`, and the roots are complex if `m * k / hbar < 0`: the theorems assume that `m * k / hbar` is
positive. -/
def harmonicOscillator (n : ℕ) (k m hbar : ℝ) (y : ℝ) : ℝ :=
  let factor : ℝ := m * k / hbar
  let psi : ℝ := factor ^ (1 / 4 : ℝ) * hermite n (factor * y) / Real.sqrt (2 ^ n * (n.factorial : ℝ))
  psi * Real.exp (-factor / 2 * y ^ 2) / Real.pi ^ (1 / 4 : ℝ)

end Symbolic

namespace Numerical

/-- `WindowFunction.g0prime(length)`, numerical.py 28-32 -/
def g0prime (length t : ℝ) : ℝ := 1 - |t| / length

/-- `WindowFunction.g1prime(length)`, numerical.py 34-40 -/
def g1prime (length t : ℝ) : ℝ :=
  let y1 : ℝ := (1 - |t| / length) * Real.cos (Real.pi * t / length)
  let y2 : ℝ := Real.sin (Real.pi * |t| / length) / Real.pi
  y1 + y2

/-- `PotentialFunction.linear_corr(c)`, numerical.py 70-75: a function of the list of the coordinates; `x[0]`, `x[1]` raise `IndexError`. -/
def linearCorr (c : ℝ) (x : List ℝ) : Res ℝ :=
  match x[0]?, x[1]? with
  | some a, some b => .ok (c * a * b)
  | _, _ => .error .indexError

/-- `PotentialFunction.square_well(depth, width, x0, v0)`, numerical.py 76-90 -/
def squareWell (depth width x0 v0 x : ℝ) : ℝ := if x0 < x ∧ x < x0 + width then v0 else v0 + depth

/-- `PotentialFunction.w_well(d0, a)`, numerical.py 92-101 -/
def wWell (d0 a x : ℝ) : ℝ := d0 / a ^ 4 * (x ^ 2 - a ^ 2) ^ 2

/-- `PotentialFunction.sho(k, x0)`, numerical.py 103-108 -/
def sho (k x0 x : ℝ) : ℝ := 1 / 2 * (k * (x - x0)) ^ 2

end Numerical

end
