import Verif.Spec.DmrgEnergy
import Verif.Spec.Truncation

/-!
Specification: states near an optimized one.
-/

open scoped BigOperators

namespace Dmrg

/-- `‖ψ - φ‖²` -/
def distSq (ds : List ℕ) (ψ φ : List (Nd ℝ)) : ℝ := sumIdx ds fun σ => (amplitude ψ σ - amplitude φ σ) ^ 2

/-- `φ` is a normalized state that differs from `mps` in the matrices of the sites `q` and `q + 1` only, and has the least energy of all
such states, whatever the bond dimension between the two sites. -/
def PairOptimum (ds : List ℕ) (mpo mps : List (Nd ℝ)) (q : ℕ) (φ : List (Nd ℝ)) : Prop :=
  IsMps ds 1 1 φ ∧ (∃ A B, φ = mps.take q ++ A :: B :: mps.drop (q + 2)) ∧ normSq ds φ = 1 ∧
    ∀ A B, IsMps ds 1 1 (mps.take q ++ A :: B :: mps.drop (q + 2)) → normSq ds (mps.take q ++ A :: B :: mps.drop (q + 2)) = 1 →
      energy ds mpo φ ≤ energy ds mpo (mps.take q ++ A :: B :: mps.drop (q + 2))

/-- `E` is the matrix of the pair `A`, `B`: its rows are numbered by the index of the site and the left bond index of `A`, its columns by
the index of the site and the right bond index of `B`. -/
structure PairMatrix (A B E : Nd ℝ) : Prop where
  wf : E.Wf
  shape : E.shape = [A.dim 0 * A.dim 1, B.dim 0 * B.dim 2]
  get : ∀ s < A.dim 0, ∀ i < A.dim 1, ∀ t < B.dim 0, ∀ k < B.dim 2, E.get [s * A.dim 1 + i, t * B.dim 2 + k] =
    ∑ j ∈ Finset.range (A.dim 2), A.get [s, i, j] * B.get [t, j, k]

/-- As `numpy.linalg.svd` promises: the singular values are not negative and fall. -/
def SvdSorted (svd : SvdFn ℝ) : Prop :=
  ∀ (a : Nd ℝ) (m n : ℕ), a.Wf → a.shape = [m, n] → (∀ s ∈ (svd a).2.1, 0 ≤ s) ∧ (svd a).2.1.Pairwise (· ≥ ·)

end Dmrg
