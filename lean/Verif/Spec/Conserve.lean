import Verif.Spec.SplitProp

/-!
Specification for C127: solvers that conserve the norm and the expectation value in linear equations with an anti-Hermitian matrix.
-/

open scoped BigOperators

namespace SplitProp

variable {K T R : Type} [CommRing R] [StarRing R]

/-- `W y` for an `n × n` matrix. -/
def matVec (n : ℕ) (W : ℕ → ℕ → R) (y : List R) : List R :=
  (List.range n).map fun k => ∑ l ∈ Finset.range n, W k l * y.getD l 0

/-- `<y|y>` -/
def normSq (n : ℕ) (y : List R) : R := ∑ k ∈ Finset.range n, y.getD k 0 * star (y.getD k 0)

/-- `<y|W|y>` -/
def form (n : ℕ) (W : ℕ → ℕ → R) (y : List R) : R :=
  ∑ k ∈ Finset.range n, ∑ l ∈ Finset.range n, star (y.getD k 0) * W k l * y.getD l 0

/-- The values that are handed to `updater` when `diff(t, y)` is `D y`. -/
def Plan.updates (D : List R → List R) : Plan T R → List (List R)
  | .stop => []
  | .eval _ y next => (next (D y)).updates D
  | .update y next => y :: next.updates D
  | .reform next => next.updates D

/-- The solver keeps `<y|y>` and `<y|W|y>` when it integrates `dy/dt = W y` and `W` is anti-Hermitian. The exact solution
`exp(t W) y0` has this property, see `C127_exact`; so have the implicit midpoint rule and all Gauss methods. -/
def Conservative (solver : T → List R → K → Plan T R) : Prop :=
  ∀ (n : ℕ) (W : ℕ → ℕ → R), (∀ k < n, ∀ l < n, star (W k l) = -W l k) → ∀ t0 y0 tau, y0.length = n →
    ∀ y ∈ (solver t0 y0 tau).updates (matVec n W), y.length = n ∧ normSq n y = normSq n y0 ∧ form n W y = form n W y0

end SplitProp
