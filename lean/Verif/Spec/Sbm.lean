import Verif.Spec.Heom
import Mathlib.Analysis.SpecialFunctions.Trigonometric.Basic
import Mathlib.Analysis.Real.Sqrt

/-!
A system coupled linearly to oscillators: its Hamiltonian, its bath terms, and what a sum of products with labels does to an array.
-/

open scoped BigOperators
open Py

namespace SbmSpec

noncomputable section

/-- The terms of a sum of products with labels, on an array whose axes carry the labels `order`. -/
def onAxes {L : Type} [DecidableEq L] (order : List L) (terms : List (List (L × Nd ℂ))) : List Heom.Term :=
  terms.map fun t => t.map fun m => (order.idxOf m.1, m.2)

/-- `coth(β ω / 2)`, 1 at zero temperature. -/
def coth (beta : Option ℝ) (omega : ℝ) : ℝ :=
  match beta with
  | none => 1
  | some b => Real.cosh (b * omega / 2) / Real.sinh (b * omega / 2)

/-- An exponential term of a bath: `c e^{γ t}` with the coefficient `c'` of the conjugate. -/
structure BathTerm where
  c : ℂ
  c' : ℂ
  γ : ℂ

/-- The two terms of an oscillator of frequency `ω` and coupling `g`: emission and absorption. -/
def modeTerms (beta : Option ℝ) (omega g : ℝ) : List BathTerm :=
  [⟨g ^ 2 / 2 * (coth beta omega + 1), g ^ 2 / 2 * (coth beta omega - 1), -Complex.I * omega⟩,
   ⟨g ^ 2 / 2 * (coth beta omega - 1), g ^ 2 / 2 * (coth beta omega + 1), Complex.I * omega⟩]

/-- The terms of a given bath; none if there is no bath. -/
def HasTerms (corr : Option Corr.Correlation) (ts : List BathTerm) : Prop :=
  match corr with
  | none => ts = []
  | some c => c.coeff = ts.map (·.c) ∧ c.conjCoeff = ts.map (·.c') ∧ c.derivative = ts.map (·.γ)

/-- The member with emission and absorption exchanged for the first `N` oscillators, the first `2 N` entries. -/
def mirror : ℕ → List ℕ → List ℕ
  | N + 1, a :: b :: n => b :: a :: mirror N n
  | _, n => n

/-- Every member is the adjoint of the mirrored one. -/
def MirrorHermitian (d N : ℕ) (dims : List ℕ) (rho : Nd ℂ) : Prop :=
  ∀ n, Valid dims n → ∀ a b, a < d → b < d → Heom.tier rho (mirror N n) b a = (starRingEnd ℂ) (Heom.tier rho n a b)

/-- The state `ψ` below in mode `k`: zero if there is none. -/
def psiBelow (psi : ℕ → List ℕ → ℂ) (n : List ℕ) (k a : ℕ) : ℂ := if n.getD k 0 = 0 then 0 else psi a (n.set k (n.getD k 0 - 1))

/-- The state above in mode `k`: zero if the basis of the oscillator ends there. -/
def psiAbove (dims : List ℕ) (psi : ℕ → List ℕ → ℂ) (n : List ℕ) (k a : ℕ) : ℂ :=
  if n.getD k 0 + 1 < dims.getD k 0 then psi a (n.set k (n.getD k 0 + 1)) else 0

/-- The Hamiltonian `h + Σ_k ω_k (n_k + ½) + Σ_k g_k q (a_k + a_k†)` on the component `(a, n)` of a state: `a` of the system, `n` the
numbers of quanta. -/
def hamiltonian (d : ℕ) (dims : List ℕ) (modes : List (ℝ × ℝ)) (h q : ℕ → ℕ → ℂ) (psi : ℕ → List ℕ → ℂ) (a : ℕ) (n : List ℕ) : ℂ :=
  (∑ s ∈ Finset.range d, h a s * psi s n) +
  ∑ k ∈ Finset.range modes.length, ((modes.getD k 0).1 * (n.getD k 0 + 1 / 2) * psi a n +
    (modes.getD k 0).2 * ∑ s ∈ Finset.range d, q a s * (((Real.sqrt (n.getD k 0 : ℕ) : ℝ) : ℂ) * psiBelow psi n k s +
      ((Real.sqrt (n.getD k 0 + 1 : ℕ) : ℝ) : ℂ) * psiAbove dims psi n k s))

end

end SbmSpec
