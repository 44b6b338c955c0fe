import Verif.Model.OdeReal

/-! Specification for C131. -/

namespace OdeReal

/-- What the solver holds as its solution has the given shape, as for every solver that accepts `y0`: all vectors given to `updater` have it. -/
def PlanR.Keeps {T : Type} (shape : List ℕ) : PlanR T → Prop
  | .stop => True
  | .eval _ _ next => ∀ d, Keeps shape (next d)
  | .update x next => x.Wf ∧ x.shape = shape ∧ Keeps shape next
  | .reform next => Keeps shape next

/-- The numbers `re k + i im k`, for an array with the rows `re` and `im`. -/
noncomputable def complexOf (n : ℕ) (x : Nd ℝ) : List ℂ := (List.range n).map fun k => ⟨x.get [0, k], x.get [1, k]⟩

end OdeReal
