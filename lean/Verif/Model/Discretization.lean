import Verif.Py.Basic
import Mathlib.Analysis.Real.Sqrt

/-!
`linear_discretization` of `minitn/models/bath.py`.

Numbers are exact. `scipy.integrate.quad` is the parameter `quad`: the first component of its result. The square root of a negative number, for
which numpy gives `nan` with a warning, is 0; the theorems assume spectral densities that are not negative.
-/

open Py

namespace Bath

noncomputable section

/-- `np.linspace(start, stop, n, endpoint=True)` -/
def npLinspace (start stop : ℝ) (n : ℤ) : Res (List ℝ) :=
  if n < 0 then .error .valueError
  else .ok ((List.range n.toNat).map fun i : ℕ => start + i * ((stop - start) / ((n : ℝ) - 1)))

/-- `direct_quad`, bath.py 48-52: a `float` divided by zero raises. -/
def directQuad (quad : (ℝ → ℝ) → ℝ → ℝ → ℝ) (specFunc : ℝ → ℝ) (a b : ℝ) : Res (ℝ × ℝ) := do
  let density := quad specFunc a b
  let num := quad (fun x => x * specFunc x) a b
  if density = 0 then .error .zeroDivisionError
  else
    let omega := num / density
    let coupling := Real.sqrt density
    pure (omega, coupling)

/-- `linear_discretization`, bath.py 26-57 -/
def linearDiscretization (quad : (ℝ → ℝ) → ℝ → ℝ → ℝ) (specFunc : ℝ → ℝ) (stop : ℝ) (num : ℤ) (start : ℝ) : Res (List (ℝ × ℝ)) := do
  let space ← npLinspace start stop (num + 1)
  (space.dropLast.zip space.tail).mapM fun p => directQuad quad specFunc p.1 p.2

end

end Bath
