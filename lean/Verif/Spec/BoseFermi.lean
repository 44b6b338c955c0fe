import Verif.Spec.Pade

/-!
Specification of the decompositions of the Bose and the Fermi function (C75, C76). Independent of the model.
-/

namespace BoseFermiSpec

noncomputable section

/-- `boseFermi = 1`: the Bose function `1 / (1 - exp(-x))`. `boseFermi = 2`: the Fermi function of `-x`, `1 / (1 + exp(-x))`. -/
def target (boseFermi : ℕ) (x : ℂ) : ℂ := if boseFermi = 1 then 1 / (1 - Complex.exp (-x)) else 1 / (1 + Complex.exp (-x))

/-- A decomposition: the pole `1 / x` (only for bosons), the constant `1 / 2`, a simple pole with residue `r` at `±i p` for every pair `(p, r)` of
the lists, and the linear and the cubic term. -/
def approx (boseFermi : ℕ) (poles residues : List ℝ) (rn tn : ℝ) (x : ℂ) : ℂ :=
  (if boseFermi = 1 then 1 / x else 0) + 1 / 2 +
    ((poles.zip residues).map fun a : ℝ × ℝ => a.2 / (x - Complex.I * a.1) + a.2 / (x + Complex.I * a.1)).sum + rn * x + tn * x ^ 3

end

end BoseFermiSpec
