import Verif.Spec.Eom
import Mathlib.LinearAlgebra.Matrix.Defs

/-! Specification for C133. -/

open scoped BigOperators

namespace ML

variable {T R : Type} [Zero T] [CommRing R] [StarRing R]

/-- The leaf indices `idx`, in the order of the leaves of the network, as a configuration. -/
def config (s : Obj T R) (F : Forest) (idx : List ℕ) : ℕ → ℕ := Heap.leafPoint (s.heap.leafList s.root F) idx fun _ => 0

/-- The dimensions of the leaves. -/
def leafDims (s : Obj T R) (F : Forest) : List ℕ := (s.heap.leafList s.root F).map Prod.snd

/-- `H ψ` at the configuration `y`. As everywhere in the code the first index of an operator belongs to the ket. -/
def apply (s : Obj T R) (F : Forest) (ψ : (ℕ → ℕ) → R) (y : ℕ → ℕ) : R :=
  sumIdx (leafDims s F) fun idx => ψ (config s F idx) * hEntry s F (config s F idx) y

/-- The array of the root has as many entries as there are configurations of the leaves. -/
def FullRoot (s : Obj T R) (F : Forest) : Prop := ∃ A, s.heap.array s.root = some A ∧ A.shape.prod = (leafDims s F).prod

/-- The configuration with number `k`; the last leaf has the fastest index. -/
def point (s : Obj T R) (F : Forest) (k : ℕ) : ℕ → ℕ := config s F (unravel (leafDims s F) k)

/-- `(H - e) / coef` as a matrix over the configurations. -/
def genMatrix {R : Type} [Field R] [StarRing R] (s : Obj T R) (F : Forest) (coef e : R) : Matrix (Fin (leafDims s F).prod) (Fin (leafDims s F).prod) R :=
  fun i j => (hEntry s F (point s F j) (point s F i) - if i = j then e else 0) / coef

/-- The amplitudes at all configurations. -/
def amps (s : Obj T R) (F : Forest) (ψ : (ℕ → ℕ) → R) : Fin (leafDims s F).prod → R := fun i => ψ (point s F i)

end ML
