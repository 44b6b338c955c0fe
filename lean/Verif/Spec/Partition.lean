import Verif.Spec.Rk4
import Verif.Model.Partition

/-!
Specification for imaginary time: the squared norm of a state, and what is assumed of a step.
-/

open Py

namespace ML

variable {T R : Type} [Zero T] [Field R] [StarRing R]

/-- `<φ|φ>`: the sum of `φ conj(φ)` over the indices of the leaves in `D` (pairs of a leaf and its dimension). -/
def squareNorm (D : List (ℕ × ℕ)) (φ : (ℕ → ℕ) → R) : R := Heap.sumLeaves D (fun x => φ x * star (φ x)) (fun _ => 0)

/-- Two functions of the leaf indices are the same state. -/
def SameState (D : List (ℕ × ℕ)) (φ χ : (ℕ → ℕ) → R) : Prop := ∀ y, (∀ p ∈ D, y p.1 < p.2) → φ y = χ y

/-- `L` is a homogeneous map of states. -/
def Homogeneous (D : List (ℕ × ℕ)) (L : ((ℕ → ℕ) → R) → (ℕ → ℕ) → R) : Prop :=
  ∀ (c : R) (φ χ : (ℕ → ℕ) → R), SameState D φ (fun y => c * χ y) → SameState D (L φ) (fun y => c * L χ y)

/-- Objects with the property `P` are tree tensor networks over the leaves `D` in the canonical form with respect to their root, which has no
`axis`; another array at the root, that is a multiple of the present one, and another `aux` or time do not matter. -/
structure Orthogonal (P : Obj T R → Prop) (F : Forest) (D : List (ℕ × ℕ)) : Prop where
  ttn : ∀ s, P s → s.heap.IsTTN s.root F
  axis : ∀ s, P s → (s.heap.node s.root).axis = none
  can : ∀ s, P s → s.heap.CanonicalTree s.root F
  leaves : ∀ s, P s → s.heap.leafList s.root F = D
  time : ∀ s, P s → P { s with time := none }
  scale : ∀ s, P s → ∀ A B X c, s.heap.array s.root = some A → B.Wf → B.shape = A.shape → (∀ w, Valid A.shape w → B.get w = A.get w / c) →
    P { s with heap := (s.heap.setAux s.root X).setArray s.root (some B) }

/-- For objects with the property `P`, the step succeeds, keeps `P`, and changes the state by the map `L`. -/
def Realises (step : Obj T R → Res (Obj T R)) (P : Obj T R → Prop) (F : Forest) (D : List (ℕ × ℕ))
    (L : ((ℕ → ℕ) → R) → (ℕ → ℕ) → R) : Prop :=
  ∀ s, P s → s.time = none → ∃ s', step s = .ok s' ∧ P s' ∧ SameState D (s'.heap.treeAmp s'.root F) (L (s.heap.treeAmp s.root F))

end ML
