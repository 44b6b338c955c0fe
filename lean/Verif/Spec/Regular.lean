import Verif.Spec.Eom
import Mathlib.Data.Complex.Basic

/-! Specification for C132. -/

open scoped BigOperators

namespace ML

/-- `pinv=False`, `regular_err=eps`, and `scipy.linalg.inv` returns the inverse of every matrix that has one. -/
structure Linalg.Regular (lin : Linalg ℂ) (eps : ℝ) : Prop where
  pinv : lin.usePinv = false
  err : lin.regularErr = eps
  inv : ∀ n (d : Nd ℂ), d.Wf → d.shape = [n, n] → (∃ N, LeftInv n N d) → ∃ M, lin.inv d = .ok M ∧ M.Wf ∧ M.shape = [n, n] ∧
    LeftInv n (fun b c => M.get [b, c]) d

/-- `M w` -/
noncomputable def mulVec (n : ℕ) (M : Nd ℂ) (w : ℕ → ℂ) (b : ℕ) : ℂ := ∑ c ∈ Finset.range n, M.get [b, c] * w c

/-- `‖w‖²` -/
noncomputable def sqNorm (n : ℕ) (w : ℕ → ℂ) : ℝ := ∑ b ∈ Finset.range n, Complex.normSq (w b)

/-- `⟨w| d |w⟩` -/
noncomputable def quadForm (n : ℕ) (d : Nd ℂ) (w : ℕ → ℂ) : ℂ := ∑ b ∈ Finset.range n, star (w b) * mulVec n d w b

end ML
