import Verif.Model.Normalize
import Mathlib.LinearAlgebra.LinearIndependent.Defs

/-!
Notions for C18 and C19.
-/

namespace Heap

variable {R : Type} [Field R] [StarRing R]

/-- What is needed of the numbers: only the zero vector has norm 0, and `sqrt` gives real square roots of squared
norms. -/
structure SqrtOk (sqrt : R → R) : Prop where
  definite : ∀ (n : ℕ) (w : ℕ → R), cdot n w w = 0 → ∀ p < n, w p = 0
  square : ∀ (n : ℕ) (w : ℕ → R), sqrt (cdot n w w) * sqrt (cdot n w w) = cdot n w w
  real : ∀ (n : ℕ) (w : ℕ → R), star (sqrt (cdot n w w)) = sqrt (cdot n w w)

/-- The `i`-th slice of an array along `axis`, as a flat vector; `sh` is the shape without that axis. -/
def slice (sh : List ℕ) (A : Nd R) (axis i : ℕ) : Fin sh.prod → R :=
  fun q => A.get ((unravel sh q).insertIdx axis i)

end Heap
