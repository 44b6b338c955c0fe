import Mathlib.Analysis.Real.Sqrt
import Mathlib.Analysis.Complex.Basic
import Mathlib.Algebra.BigOperators.Ring.Finset

/-!
The hierarchy of wave functions (C87). Independent of the model.

A member of the hierarchy is `psi n a`: the occupation numbers `n` of the modes, of which mode `k` has fewer than `dims k`, and the state `a` of
the system.
-/

open scoped BigOperators

namespace SeomSpec

noncomputable section

/-- The member below in mode `k`; nothing if there is none. -/
def lower (psi : List ℕ → ℕ → ℂ) (n : List ℕ) (k a : ℕ) : ℂ := if n.getD k 0 = 0 then 0 else psi (n.set k (n.getD k 0 - 1)) a

/-- The member above in mode `k`; nothing beyond the truncation. -/
def upper (dims : List ℕ) (psi : List ℕ → ℕ → ℂ) (n : List ℕ) (k a : ℕ) : ℂ :=
  if n.getD k 0 + 1 < dims.getD k 0 then psi (n.set k (n.getD k 0 + 1)) a else 0

/-- The generator: `h` on the system, a term proportional to the occupation numbers, and the system operator `x` with the members above
and below. -/
def generator (d : ℕ) (dims : List ℕ) (h x : ℕ → ℕ → ℂ) (rate c : ℕ → ℂ) (psi : List ℕ → ℕ → ℂ) (n : List ℕ) (a : ℕ) : ℂ :=
  (∑ s ∈ Finset.range d, h a s * psi n s)
  + ∑ k ∈ Finset.range dims.length, (rate k * n.getD k 0 * psi n a
    + ∑ s ∈ Finset.range d, x a s * (((Real.sqrt (n.getD k 0 + 1 : ℕ) : ℝ) : ℂ) * upper dims psi n k s
      + c k * ((Real.sqrt (n.getD k 0 : ℕ) : ℝ) : ℂ) * lower psi n k s))

end

end SeomSpec
