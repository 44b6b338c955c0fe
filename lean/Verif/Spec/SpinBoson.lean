import Mathlib.Data.Complex.Basic
import Mathlib.Analysis.Real.Sqrt
import Mathlib.Logic.Function.Basic
import Mathlib.Algebra.BigOperators.Group.Finset.Basic

/-!
The spin-boson Hamiltonian `H = H_e + ½ Σ_k (p_k² + ω_k² (q_k - (2 c_k/ω_k²) |2><2|)²)` of the documentation of
`minitn/models/spinboson.py`, on wave functions of the labels: `ψ σ` is the component with state `σ l` of the degree of freedom `l`.
-/

open scoped BigOperators

namespace SpinBosonSpec

noncomputable section

/-- Wave functions -/
abbrev Wave := (String → ℕ) → ℂ

/-- The component with one quantum less in `l`: zero if there is none. -/
def below (l : String) (ψ : Wave) : Wave := fun σ =>
  if σ l = 0 then 0 else ((Real.sqrt (σ l : ℕ) : ℝ) : ℂ) * ψ (Function.update σ l (σ l - 1))

/-- The component with one quantum more in `l`: zero if the basis of `d` states ends there. -/
def above (d : ℕ) (l : String) (ψ : Wave) : Wave := fun σ =>
  if σ l + 1 < d then ((Real.sqrt (σ l + 1 : ℕ) : ℝ) : ℂ) * ψ (Function.update σ l (σ l + 1)) else 0

/-- The coordinate of an oscillator of unit mass: `√(1/(2ω)) (a† + a)` -/
def q (ω : ℝ) (d : ℕ) (l : String) (ψ : Wave) : Wave := fun σ => ((Real.sqrt (1 / (2 * ω)) : ℝ) : ℂ) * (below l ψ σ + above d l ψ σ)

/-- The momentum: `i √(ω/2) (a† - a)` -/
def p (ω : ℝ) (d : ℕ) (l : String) (ψ : Wave) : Wave := fun σ =>
  Complex.I * ((Real.sqrt (ω / 2) : ℝ) : ℂ) * (below l ψ σ - above d l ψ σ)

/-- The projector on the second electronic state -/
def second (e : String) (ψ : Wave) : Wave := fun σ => if σ e = 1 then ψ σ else 0

/-- The exchange of the two electronic states -/
def exchange (e : String) (ψ : Wave) : Wave := fun σ => ψ (Function.update σ e (1 - σ e))

/-- `H_e = e1 |1><1| + e2 |2><2| + v (|1><2| + |2><1|)` -/
def electronic (e : String) (e1 e2 v : ℝ) (ψ : Wave) : Wave := fun σ =>
  (if σ e = 0 then (e1 : ℂ) else (e2 : ℂ)) * ψ σ + v * exchange e ψ σ

/-- A vibration: its label, frequency, reorganisation energy and number of states. -/
structure Mode where
  l : String
  ω : ℝ
  lam : ℝ
  d : ℕ

/-- The coupling `c = ω √(λ/2)` -/
def Mode.c (m : Mode) : ℝ := m.ω * Real.sqrt (m.lam / 2)

/-- `q - (2 c/ω²) |2><2|` -/
def displaced (e : String) (m : Mode) (ψ : Wave) : Wave := fun σ => q m.ω m.d m.l ψ σ - ((2 * m.c / m.ω ^ 2 : ℝ) : ℂ) * second e ψ σ

/-- `½ (p² + ω² (q - (2 c/ω²) |2><2|)²)` -/
def vibration (e : String) (m : Mode) (ψ : Wave) : Wave := fun σ =>
  1 / 2 * (p m.ω m.d m.l (p m.ω m.d m.l ψ) σ + (m.ω : ℂ) ^ 2 * displaced e m (displaced e m ψ) σ)

/-- `ω (n + ½) - 2 c q |2><2| + λ |2><2|` -/
def vibrationNumber (e : String) (m : Mode) (ψ : Wave) : Wave := fun σ =>
  (m.ω : ℂ) * ((σ m.l : ℂ) + 1 / 2) * ψ σ - 2 * (m.c : ℂ) * q m.ω m.d m.l (second e ψ) σ + (m.lam : ℂ) * second e ψ σ

/-- `H = H_e + Σ_k (vibration k)`, with a relaxation `Σ_k κ_k q_k (|1><2| + |2><1|)`; `modes` are the vibrations with their `κ`. -/
def hamiltonian (vib : String → Mode → Wave → Wave) (e : String) (e1 e2 v : ℝ) (modes : List (Mode × ℝ)) (ψ : Wave) : Wave := fun σ =>
  electronic e e1 e2 v ψ σ + (modes.map fun m => vib e m.1 ψ σ + (m.2 : ℂ) * q m.1.ω m.1.d m.1.l (exchange e ψ) σ).sum

/-- The label of vibration `k` -/
def label (pre : String) (k : ℕ) : String := pre ++ toString k

/-- The parameters of a vibration: frequency, reorganisation energy, number of states, relaxation coupling. -/
structure Vib where
  ω : ℝ
  lam : ℝ
  d : ℕ
  κ : ℝ

/-- The vibrations with their labels, the first one with number `n`. -/
def modesFrom (n : ℕ) (vs : List Vib) : List (Mode × ℝ) := (vs.zipIdx n).map fun x => (⟨label "I" x.2, x.1.ω, x.1.lam, x.1.d⟩, x.1.κ)

/-- Positive frequencies, nonnegative reorganisation energies, at least one state. -/
def Vib.Ok (v : Vib) : Prop := 0 < v.ω ∧ 0 ≤ v.lam ∧ 1 ≤ v.d

/-- An admissible state of the degrees of freedom. -/
def Admissible (ms : List (Mode × ℝ)) (σ : String → ℕ) : Prop := σ "ELEC" < 2 ∧ ∀ m ∈ ms, σ m.1.l < m.1.d

end

end SpinBosonSpec
