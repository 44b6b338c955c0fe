import Mathlib.LinearAlgebra.Matrix.Charpoly.Basic
import Mathlib.Analysis.Complex.Exponential
import Mathlib.Data.Real.Star
import Mathlib.Data.Nat.Factorial.DoubleFactorial

/-!
Specification of the decompositions of the Bose function (C71, C72). Independent of the model.
-/

open Polynomial

namespace PadeSpec

noncomputable section

/-- The symmetric tridiagonal matrix with the diagonal `diag` and the subdiagonal `sub`. -/
def tridiag (diag sub : List ℝ) : Matrix (Fin diag.length) (Fin diag.length) ℝ := fun i j =>
  if i = j then diag.get i
  else if (i : ℕ) + 1 = j then sub.getD i 0
  else if (j : ℕ) + 1 = i then sub.getD j 0
  else 0

/-- What is asked of the eigenvalue solver: it returns the eigenvalues with their multiplicities, the largest first. -/
structure Solver (eigvals : List ℝ → List ℝ → List ℝ) : Prop where
  sorted : ∀ diag sub, (eigvals diag sub).Pairwise (· ≥ ·)
  all : ∀ diag sub, (tridiag diag sub).charpoly = ((eigvals diag sub).map fun x => X - C x).prod

/-- The Bose function. -/
def bose (x : ℂ) : ℂ := 1 / (1 - Complex.exp (-x))

/-- The function with a simple pole with residue `r` at `±i p` for every pair `(p, r)` of the lists, besides the pole `1 / x` and the constant
`1 / 2` of the Bose function. -/
def approx (poles residues : List ℂ) (x : ℂ) : ℂ :=
  1 / x + 1 / 2 + ((poles.zip residues).map fun (p, r) => r / (x - Complex.I * p) + r / (x + Complex.I * p)).sum

end

end PadeSpec
