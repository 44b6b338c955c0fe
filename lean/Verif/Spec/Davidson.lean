import Verif.Model.Davidson

/-! What C50 assumes of `scipy.linalg` and of the operator, and what an orthonormal list is. -/

open Py
open scoped BigOperators

namespace Davidson

variable {N : ℕ}

/-- The vectors have norm 1 and are orthogonal to each other. -/
def Orthonormal (L : List (Vec N)) : Prop := (∀ u ∈ L, dot u u = 1) ∧ L.Pairwise fun u v => dot u v = 0

/-- The operator is Hermitian (here: symmetric). -/
def Symmetric (A : Vec N → Vec N) : Prop := ∀ x y, dot x (A y) = dot (A x) y

/-- `scipy.linalg.orth` returns orthonormal vectors of the span of its arguments (so what is orthogonal to all of the arguments is orthogonal
to them), and not more vectors than it is given. -/
structure OrthOk (orth : List (Vec N) → List (Vec N)) : Prop where
  length : ∀ L, (orth L).length ≤ L.length
  orthonormal : ∀ L, Orthonormal (orth L)
  span : ∀ L b, (∀ x ∈ L, dot b x = 0) → ∀ q ∈ orth L, dot b q = 0

/-- `scipy.linalg.eigh` for a symmetric `m × m` matrix and the `k` lowest eigenvalues, `0 < k ≤ m`: it returns `k` orthonormal eigenvectors
with their eigenvalues, or it raises something else than an `IndexError`. Nothing is assumed about other matrices but the numbers returned. -/
structure EighOk (eigh : ℕ → (ℕ → ℕ → ℝ) → ℕ → Res (List ℝ × List (List ℝ))) : Prop where
  error : ∀ {m a k}, 0 < k → k ≤ m → ∀ {e}, eigh m a k = .error e → e ≠ .indexError
  length : ∀ {m a k vals v}, 0 < k → k ≤ m → eigh m a k = .ok (vals, v) → vals.length = k ∧ v.length = k ∧ ∀ x ∈ v, x.length = m
  orthonormal : ∀ {m a k vals v}, 0 < k → k ≤ m → (∀ i < m, ∀ j < m, a i j = a j i) → eigh m a k = .ok (vals, v) →
    ∀ i < k, ∀ j < k, ∑ p ∈ Finset.range m, (v.getD i []).getD p 0 * (v.getD j []).getD p 0 = if i = j then 1 else 0
  eigen : ∀ {m a k vals v}, 0 < k → k ≤ m → (∀ i < m, ∀ j < m, a i j = a j i) → eigh m a k = .ok (vals, v) →
    ∀ i < k, ∀ p < m, ∑ q ∈ Finset.range m, a p q * (v.getD i []).getD q 0 = vals.getD i 0 * (v.getD i []).getD p 0

/-- A preconditioner that raises no `IndexError`. -/
def PrecondOk (p : Precond N) : Prop := ∀ r x u e, p r x u = .error e → e ≠ .indexError

end Davidson
