import Verif.Model.MultiLayer
import Verif.Model.Normalize

/-!
Propagation in imaginary time and the relative partition function: the loop of `MultiLayer.propagator` with `imaginary=True`,
`minitn/algorithms/ml.py` 770-787, and `relative_partition_function`, 815-819 (`minitn/heom/propagate.py` 811-829 and 856-860 is the same
code), together with `self.overall_norm = 1` of `__init__` (118).

`step` stands for `step(ode_inter=ode_inter, imaginary=True)`, that is `direct_step` or one of the projector splitting steps. The state of
the loop is the object together with its attribute `overall_norm`.
-/

open Py

namespace ML

variable {T R : Type} [Field R] [StarRing R]

/-- ml.py 780 and 783-785, with `imaginary=True`: `self.time = None`, one step, and `self.overall_norm *= self.root.normalize(forced=True)`.
A root without array would give `None` (`TypeError`). A root with an `axis` would give a list of norms; then `overall_norm` would become a
list or an error, which is not modelled further (`TypeError` here). -/
def imaginaryStep (sqrt : R → R) (step : Obj T R → Res (Obj T R)) (x : Obj T R × R) : Res (Obj T R × R) := do
  let s ← step { x.1 with time := none }
  let (h, ans) ← s.heap.normalize sqrt s.root true
  match (s.heap.node s.root).axis, ans with
  | none, some [norm] => pure ({ s with heap := h }, x.2 * norm)
  | _, _ => .error .typeError

/-- ml.py 770-785: the object and `overall_norm` after `n` steps (the consumer of the generator asked for `n + 1` values). -/
def imaginaryRun (sqrt : R → R) (step : Obj T R → Res (Obj T R)) : ℕ → Obj T R × R → Res (Obj T R × R)
  | 0, x => .ok x
  | n + 1, x => do
    let x ← imaginaryStep sqrt step x
    imaginaryRun sqrt step n x

/-- ml.py 815-819: `relative_partition_function`. -/
def relativePartitionFunction (x : Obj T R × R) : R := x.2 ^ 2

/-- `coefficient()` of `minitn/heom/propagate.py` 475-478: `-self.hbar if imaginary else 1.0 * self.hbar`. (That of `ml.py` is
`SplitProp.coefficient`.) -/
def heomCoefficient (hbar : R) (time : Option T) : R := if time.isNone then -hbar else hbar

/-- ml.py 118: `self.overall_norm = 1`. -/
def startNorm (s : Obj T R) : Obj T R × R := (s, 1)

end ML
