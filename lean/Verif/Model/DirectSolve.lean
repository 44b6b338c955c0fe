import Verif.Model.Eom
import Verif.Model.Vector
import Verif.Model.Normalize
import Verif.Model.Ode

/-!
`MultiLayer.direct_step` with a solver of `scipy.integrate`, the default (`ode_method='RK45'`): `minitn/algorithms/ml.py` 474-478 and
515-540, with `_solve_ode` (558-590, the loop is that of `Model/Ode.lean`).

The solver is an arbitrary deterministic program (`Solver`): both its constructor and its method `step` may call `diff` any number of times and
may raise an exception. Exceptions are not handled by `direct_step`. The state has a log of the calls of `reformer`, `diff` and `updater`, which the
program does not have.

Simplifications: `ode_in_real=True` (567-575) is not modelled here (SciPy rejects the two-dimensional `y0` it makes, and the exception reaches the caller; for the
projector splitting see `Verif.Model.OdeReal`). When `diff`, `reformer` or `updater`
themselves raise an exception, the state they leave behind is not modelled: it is that before the call. The recursion budget of the walks over the
network is the number of objects made so far.
-/

open Py

namespace DirectSolve

/-- What a constructor or a method of a solver does: it returns (with the state `z` of the solver), raises an exception, or calls `diff(t, y)` and goes
on with the result. -/
inductive Evals (T R Z : Type)
  | ret (z : Z)
  | raise (e : Err)
  | eval (t : T) (y : List R) (next : List R → Evals T R Z)

/-- A class of `scipy.integrate`: `OdeSolver(diff, t0, y0, t0 + ode_inter)`, `status`, `step()` and `y`. -/
structure Solver (K T R Z : Type) where
  init : T → List R → K → Evals T R Z
  status : Z → Ode.SolverStatus
  step : Z → Evals T R Z
  y : Z → List R

/-- An entry of the log: `reformer()` with the object before it and the inverse densities it has formed; `diff(t, y)` and what it has returned;
`updater(y)` with the object after it. -/
inductive Event (T R : Type)
  | reform (s : ML.Obj T R) (inv : Dict ℕ (Nd R))
  | eval (t : T) (y d : List R)
  | update (y : List R) (s : ML.Obj T R)

/-- The object, its attribute `inv_density`, and the log. -/
structure State (T R : Type) where
  obj : ML.Obj T R
  inv : Dict ℕ (Nd R)
  log : List (Event T R)

/-- The attributes that do not change, and the argument `imaginary`; `coef` is `coefficient()` as a function of `self.time`. -/
structure Config (T R : Type) where
  imaginary : Bool
  sqrt : R → R
  coef : Option T → R
  initEnergy : Option R
  lin : ML.Linalg R
  cmfSteps : ℕ
  maxOdeSteps : ℤ

variable {K T R Z : Type} [Zero T] [Field R] [StarRing R]

/-- `self.time = t if not imaginary else None`, ml.py 522 -/
def Config.time (c : Config T R) (t : T) : Option T := if c.imaginary then none else some t

/-- `diff(t, y)`, ml.py 517-526 -/
def diff (c : Config T R) (t : T) (y : List R) (st : State T R) : Res (State T R × List R) := do
  let s := st.obj
  let fuel := s.heap.next
  let (origin, _) ← s.heap.vectorize fuel s.root
  let h ← s.heap.tensorize fuel s.root y
  let s := { s with heap := h, time := c.time t }
  let s ← ML.eom fuel st.inv (c.coef s.time) c.initEnergy s
  let (ans, _) ← s.heap.vectorize fuel s.root true
  let h ← s.heap.tensorize fuel s.root origin
  pure (⟨{ s with heap := h }, st.inv, st.log ++ [.eval t y ans]⟩, ans)

/-- `reformer()`, ml.py 528-531; and 476-477 -/
def reform (c : Config T R) (st : State T R) : Res (State T R) := do
  let fuel := st.obj.heap.next
  let s ← ML.formEnv fuel false st.obj
  let (s, inv) ← ML.formInvDensity fuel c.lin s
  pure ⟨s, inv, st.log ++ [.reform st.obj inv]⟩

/-- `updater(y)`, ml.py 533-536 -/
def update (c : Config T R) (y : List R) (st : State T R) : Res (State T R) := do
  let s := st.obj
  let fuel := s.heap.next
  let h ← s.heap.tensorize fuel s.root y
  let ts ← h.visitor fuel s.root (h.node s.root).axis false
  let h ← ts.foldlM (fun h t => do
    let (h, _) ← h.normalize c.sqrt t
    pure h) h
  let s := { s with heap := h }
  pure ⟨s, st.inv, st.log ++ [.update y s]⟩

/-- The calls of `diff` made by a constructor or by `step()`. -/
def run (c : Config T R) : Evals T R Z → State T R → State T R × Res Z
  | .ret z, st => (st, .ok z)
  | .raise e, st => (st, .error e)
  | .eval t y next, st =>
    match diff c t y st with
    | .error e => (st, .error e)
    | .ok (st, d) => run c (next d) st

/-- What the loop of `_solve_ode` (576-588) calls. -/
def calls (c : Config T R) (o : Solver K T R Z) : Ode.Solver (State T R × Z) where
  status := fun p => o.status p.2
  step := fun p =>
    match run c (o.step p.2) p.1 with
    | (st, .error e) => ((st, p.2), .error e)
    | (st, .ok z) => ((st, z), .ok ())
  reformer := some fun p =>
    match reform c p.1 with
    | .error e => (p, .error e)
    | .ok st => ((st, p.2), .ok ())
  updater := fun p =>
    match update c (o.y p.2) p.1 with
    | .error e => (p, .error e)
    | .ok st => ((st, p.2), .ok ())

/-- `direct_step(ode_inter)` with a solver of `scipy.integrate`, ml.py 474-478, 515-540 and 558-566, 576-590. At most `fuel - 1` steps of the solver are modelled. -/
def directStep (c : Config T R) (o : Solver K T R Z) (fuel : ℕ) (tau : K) (s : ML.Obj T R) : State T R × Res Unit :=
  match reform c ⟨s, [], []⟩ with
  | .error e => (⟨s, [], []⟩, .error e)
  | .ok st =>
    match st.obj.heap.vectorize st.obj.heap.next st.obj.root with
    | .error e => (st, .error e)
    | .ok (y0, _) =>
      match run c (o.init (st.obj.time.getD 0) y0 tau) st with
      | (st, .error e) => (st, .error e)
      | (st, .ok z) =>
        let r := Ode.solveOde (calls c o) c.cmfSteps c.maxOdeSteps fuel (st, z)
        (r.1.1, r.2)

end DirectSolve
