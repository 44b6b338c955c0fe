import Verif.Spec.Eom
import Verif.Model.SplitProp

/-!
Specification for the projector-splitting integrator: what the calls of the right-hand side see and return.
-/

open Py

namespace SplitProp

variable {K T R : Type} [Zero T] [Field R] [StarRing R]

/-- The mean fields stored in `env_` for links that lead away from the root are those of the present arrays. -/
def AwayRight (s : ML.Obj T R) (F : Forest) : Prop :=
  ∀ n term, (s.allTerms none)[n]? = some term → ∀ e ∈ F.edges s.root, ∀ v, s.env.get? (n, e.1, e.2.1) = some v →
    Heap.FieldIs (s.withTerm term) e.1 e.2.1 v

/-- A call of the right-hand side is right: it was made for the root of a tree tensor network; every mean field that can be taken
from the cache equals the one recomputed from the present arrays; and the returned sum is the derivative of the energy of the present
state, that is, of `<B|H|A>` with respect to the conjugate of the array of the tensor. In particular it is the same as with an empty cache.
What the solver gets is this derivative, minus `init_energy` times the array, divided by the coefficient. `self.time` is `None`
in imaginary time only. -/
structure Call.Right (cfg : Config K T R) (c : Call T R) : Prop where
  root : c.obj.root = c.tensor
  time : c.obj.time.isNone = cfg.imaginary
  net : ∃ F, c.obj.heap.IsTTN c.tensor F ∧ AwayRight c.obj F ∧ ∃ A G, c.obj.heap.array c.tensor = some A ∧
    ML.IsGradient c.obj F c.tensor A (c.obj.allTerms none) G ∧ G.Wf ∧ G.shape = A.shape ∧ c.value = ⟨[A.shape.prod], G.data⟩ ∧
    c.deriv.length = A.data.length ∧ (cfg.coef c.obj.time ≠ 0 → ∀ k < A.data.length,
      cfg.coef c.obj.time * c.deriv.getD k 0 = G.data.getD k 0 - cfg.initEnergy.getD 0 * A.data.getD k 0)
  fresh : ∃ s', sumTerms c.obj.heap.next c.cache c.tensor (c.value.shape.getD 0 0) { c.obj with env := [] } = .ok (s', c.value)

/-- What the solver gets is the derivative of the array according to the Schrödinger equation with the energy shift `e`:
`i hbar dA/dt = (H - e) A`, in imaginary time `-hbar dA/dt = (H - e) A`, where `H A` is the sum over the terms. -/
def Call.Schroedinger (i hbar e : R) (imaginary : Bool) (c : Call T R) : Prop :=
  ∃ A, c.obj.heap.array c.tensor = some A ∧ ∀ k < A.data.length,
    (if imaginary then -hbar else i * hbar) * c.deriv.getD k 0 = c.value.data.getD k 0 - e * A.data.getD k 0

/-- The right-hand side of this equation is 0. -/
def Call.AtRest (e : R) (c : Call T R) : Prop :=
  ∀ A, c.obj.heap.array c.tensor = some A → ∀ k < A.data.length, c.value.data.getD k 0 - e * A.data.getD k 0 = 0

/-- What is needed of an object before the first sweep: all terms are in `h_list` and do not depend on time; their operators belong to
leaves and fit the dimensions at the leaves; no leaf has an array; and if a tensor with a normalization axis is marked as normalized,
it is. -/
structure Start (x : Ext T R) (h : Heap R) : Prop where
  fList : x.fList = none
  const : ∀ term ∈ x.hList, ∀ p ∈ term, ∀ t t' : T, p.2.at t = p.2.at t'
  leaf : ∀ term ∈ x.hList, ∀ p ∈ term, h.isLeaf p.1 = true ∧ p.1 < h.next
  fits : ∀ term ∈ x.hList, ∀ t k l j, h.acc t k = some (l, j) → h.isLeaf l = true →
    Heap.OpFits (ML.opOn 0 term l) (h.hdim (t, k)) (h.hdim (t, k))
  empty : ∀ l, h.isLeaf l = true → h.array l = none
  marks : ∀ t k, h.acc t k ≠ none → (h.node t).axis ≠ none → h.MarkOk t

end SplitProp

namespace Sweep

/-- The sweeps: `split_step(tau, backward)`, `unite_step(tau)` (see C27 for `backward=True`), `r_split_step(tau)` of first or second
order. `snd_order_step` is two of the first kind. -/
inductive Cmd (K : Type)
  | split (tau : K) (backward : Bool)
  | unite (tau : K)
  | rSplit (snd : Bool) (tau : K)

variable {K E R : Type} [CommRing R] [Field K]

/-- Make the sweep. -/
def Cmd.exec (H : Hooks K E R) (fuel : ℕ) (s : State K E R) : Cmd K → Res (State K E R)
  | .split tau b => splitStep H fuel tau b s
  | .unite tau => uniteStep H fuel tau false s
  | .rSplit snd tau => rSplitStep H snd fuel tau s

end Sweep
