import Verif.Spec.Dmrg
import Mathlib.Data.Real.Basic

/-!
What the effective operator of a site, the canonical forms and the eigensolver of DMRG are meant to be.
-/

open scoped BigOperators

namespace Dmrg

variable {R : Type} [CommRing R]

/-- The amplitude of the configuration `σ` in the state of the matrices `mps`. -/
def amplitude (mps : List (Nd R)) (σ : List ℕ) : R := mpsProd mps σ 0 0

/-- The matrix element of the operator between the configurations `σ` and `τ`. -/
def operator (mpo : List (Nd R)) (σ τ : List ℕ) : R := mpoProd mpo σ τ 0 0

/-- `⟨ψ|ψ⟩` -/
def normSq (ds : List ℕ) (mps : List (Nd R)) : R := sumIdx ds fun σ => amplitude mps σ * amplitude mps σ

/-- `⟨ψ|H|ψ⟩` -/
def energy (ds : List ℕ) (mpo mps : List (Nd R)) : R :=
  sumIdx ds fun σ => sumIdx ds fun τ => amplitude mps σ * operator mpo σ τ * amplitude mps τ

/-- The operator is symmetric. -/
def Symmetric (ds : List ℕ) (mpo : List (Nd R)) : Prop :=
  ∀ σ τ, Valid ds σ → Valid ds τ → operator mpo σ τ = operator mpo τ σ

/-- The scalar product of the entries. -/
def inner (u v : Nd R) : R := ∑ n ∈ Finset.range u.data.length, u.data.getD n 0 * v.data.getD n 0

/-- A matrix that is left-canonical: `∑_{s, i} A[s, i, x] A[s, i, y] = δ`. -/
def LeftCanonical (A : Nd R) : Prop :=
  ∀ x < A.dim 2, ∀ y < A.dim 2,
    ∑ s ∈ Finset.range (A.dim 0), ∑ i ∈ Finset.range (A.dim 1), A.get [s, i, x] * A.get [s, i, y] = if x = y then 1 else 0

/-- A matrix that is right-canonical: `∑_{s, j} A[s, x, j] A[s, y, j] = δ`. -/
def RightCanonical (A : Nd R) : Prop :=
  ∀ x < A.dim 1, ∀ y < A.dim 1,
    ∑ s ∈ Finset.range (A.dim 0), ∑ j ∈ Finset.range (A.dim 2), A.get [s, x, j] * A.get [s, y, j] = if x = y then 1 else 0

/-- `u · (H v)` for `H = EnvTensor(L, W, R)` (0 if the product with `H` fails). -/
def effective (L W Rt u v : Nd R) : R :=
  match envMatvec L W Rt v with
  | .ok y => inner u y
  | .error _ => 0

/-- The shapes of an environment tensor on arrays of shape `[d, l, r]`. -/
def EnvShape (L W Rt : Nd R) (d l r : ℕ) : Prop :=
  ∃ a b, L.shape = [a, l, l] ∧ W.shape = [a, b, d, d] ∧ Rt.shape = [b, r, r]

/-- `v` is a vector of `n` numbers. -/
def IsVec (n : ℕ) (v : Nd R) : Prop := v.Wf ∧ v.shape = [n]

/-- What `eigsh(H, 1, which='SA')` is used for: if `H` is symmetric, the result is a unit vector whose Rayleigh quotient is the least
one of all unit vectors. -/
def EigGround (eig : EigFn ℝ) : Prop :=
  ∀ (L W Rt v₀ : Nd ℝ) (d l r : ℕ), EnvShape L W Rt d l r → 0 < d * l * r → IsVec (d * l * r) v₀ →
    (∀ u v, IsVec (d * l * r) u → IsVec (d * l * r) v → effective L W Rt u v = effective L W Rt v u) →
    IsVec (d * l * r) (eig L W Rt v₀) ∧ inner (eig L W Rt v₀) (eig L W Rt v₀) = 1 ∧
      ∀ u, IsVec (d * l * r) u → inner u u = 1 →
        effective L W Rt (eig L W Rt v₀) (eig L W Rt v₀) ≤ effective L W Rt u u

end Dmrg
