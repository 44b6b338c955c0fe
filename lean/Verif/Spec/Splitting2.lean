import Verif.Spec.SplitProp
import Verif.Model.Splitting2

/-!
Specification for `ProjectorSplitting` in `minitn/heom/propagate2.py`.
-/

open Py

namespace Splitting2

variable {K T R : Type} [Zero T] [Field R] [StarRing R]

/-- A call of the right-hand side is right: it was made for the root of a tree tensor network; every mean field that can be taken
from `env_` equals the one recomputed from the present arrays; and the sum over the terms, which is what the solver gets, is the
derivative of `<B|H|A>`, `H` being the sum of all terms, with respect to the conjugate of the array of the tensor. -/
structure Right (c : SplitProp.Call T R) : Prop where
  root : c.obj.root = c.tensor
  net : ∃ F, c.obj.heap.IsTTN c.tensor F ∧ SplitProp.AwayRight c.obj F ∧ ∃ A G, c.obj.heap.array c.tensor = some A ∧
    ML.IsGradient c.obj F c.tensor A c.obj.hList G ∧ G.Wf ∧ G.shape = A.shape ∧ c.value = ⟨[A.shape.prod], G.data⟩ ∧
    c.deriv = G.data

/-- The solver evaluates the right-hand side at vectors of length `n`, and ends with one. -/
def Solve.Sane (n : ℕ) : Solve T R → Prop
  | .stop y => y.length = n
  | .eval _ y next => y.length = n ∧ ∀ d, d.length = n → (next d).Sane n

/-- The steps: `one_site_step(ode_inter, backward)` and `two_site_step(ode_inter)` (see C27 for `backward=True`). -/
inductive Step (K : Type)
  | one (tau : K) (backward : Bool)
  | two (tau : K)

/-- Make the step. -/
def Step.exec [Field K] {E : Type} (H : Sweep.Hooks K E R) (fuel : ℕ) (s : Sweep.State K E R) : Step K → Res (Sweep.State K E R)
  | .one tau b => Sweep.splitStep H fuel tau b s
  | .two tau => Sweep.uniteStep H fuel tau false s

end Splitting2
