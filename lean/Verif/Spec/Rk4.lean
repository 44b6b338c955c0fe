import Verif.Spec.Eom
import Verif.Model.Rk4

/-!
Specification for the Runge-Kutta step: the Hamiltonian as a linear map on states, and the fourth-order Taylor polynomial of its exponential.
-/

open Py

namespace ML

variable {T R : Type} [Zero T] [Field R] [StarRing R]

/-- The right-hand side of the equation of motion of a state `φ`, a function of the leaf indices: `H φ / coef - E φ`. As everywhere in the
code the first index of an operator belongs to the ket. -/
def generator (s : Obj T R) (F : Forest) (coef : R) (initEnergy : Option R) (φ : (ℕ → ℕ) → R) (y : ℕ → ℕ) : R :=
  Heap.sumLeaves (s.heap.leafList s.root F) (fun x => φ x * hEntry s F x y) (fun _ => 0) / coef - initEnergy.getD 0 * φ y

/-- `(1 + dt L + (dt L)² / 2 + (dt L)³ / 6 + (dt L)⁴ / 24) φ` for a map `L`. -/
def taylor4 (L : ((ℕ → ℕ) → R) → (ℕ → ℕ) → R) (dt : R) (φ : (ℕ → ℕ) → R) (y : ℕ → ℕ) : R :=
  φ y + dt * L φ y + dt ^ 2 / 2 * L (L φ) y + dt ^ 3 / 6 * L (L (L φ)) y + dt ^ 4 / 24 * L (L (L (L φ))) y

/-- The classical Runge-Kutta method for the derivatives that `direct_step` computes from the present arrays (`derivative`, the vector
field of the equations of motion): as `rk4Step`, but every stage takes the derivative at the arrays of that stage. -/
def rk4Classical (fuel : ℕ) (lin : Linalg R) (coef : R) (initEnergy : Option R) (dt : R) (s : Obj T R) : Res (Obj T R) := do
  let s ← derivative fuel lin coef initEnergy s
  let ts ← s.heap.visitor fuel s.root (s.heap.node s.root).axis false
  let (h, k0, k1) ← ts.foldlM (rkFirst dt) (s.heap, [], [])
  let s ← derivative fuel lin coef initEnergy { s with heap := h }
  let (h, k2) ← ts.foldlM (rkMid dt true k0) (s.heap, [])
  let s ← derivative fuel lin coef initEnergy { s with heap := h }
  let (h, k3) ← ts.foldlM (rkMid dt false k0) (s.heap, [])
  let s ← derivative fuel lin coef initEnergy { s with heap := h }
  let h ← ts.foldlM (rkLast dt k0 k1 k2 k3) s.heap
  pure { s with heap := h }

end ML
