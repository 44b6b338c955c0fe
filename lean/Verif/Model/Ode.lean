import Verif.Py.Basic
import Mathlib.Data.Nat.Notation
import Mathlib.Data.Int.Notation
import Mathlib.Algebra.Ring.Defs

/-!
`minitn/algorithms/ml.py`: `_solve_ode` (558-590), `log_inner_product` (542-556), the guard of `_split_prop`
(592-626), `snd_order_step` (647-652) and `propagator` (742-787). `minitn/heom/propagate.py` has the same code,
`minitn/heom/propagate2.py` (224-250) a propagator that handles no exception. `minitn/bases/girds.py` (198-216):
`Propagator.__call__`.

A state `σ` stands for everything that the calls may read and change (the solver, the network, `self`). A call is a
function that returns the state it leaves behind, also when it raises an exception.
-/

namespace Ode

open Py

/-- A Python call without result value. -/
abbrev Call (σ : Type) := σ → σ × Res Unit

/-- `ode_solver.status` -/
inductive SolverStatus
  | running
  | finished
  | failed
  deriving DecidableEq

/-- What `_solve_ode` calls: `ode_solver.status`, `ode_solver.step()`, `reformer()` (or `None`) and
`updater(ode_solver.y)`. -/
structure Solver (σ : Type) where
  status : σ → SolverStatus
  step : Call σ
  reformer : Option (Call σ)
  updater : Call σ

variable {σ : Type}

/-- Two calls one after the other. -/
def seq (f g : Call σ) : Call σ := fun s =>
  match f s with
  | (s, .error e) => (s, .error e)
  | (s, .ok _) => g s

/-- ml.py 580-586: what happens at a multiple of `cmf_steps`. -/
def checkpoint (o : Solver σ) (maxSteps : ℤ) (n : ℕ) : Call σ := fun s =>
  if maxSteps ≤ n then (s, .error .runtimeWarning)
  else match o.reformer with
    | none => (s, .ok ())
    | some f => f s

/-- ml.py 580-588: one pass of the loop. -/
def body (o : Solver σ) (cmf : ℕ) (maxSteps : ℤ) (n : ℕ) : Call σ :=
  seq (if n % cmf = 0 then checkpoint o maxSteps n else fun s => (s, .ok ())) (seq o.step o.updater)

/-- ml.py 576-589: `for n in count(1)`, for nonzero `cmf_steps`. -/
def loop (o : Solver σ) (cmf : ℕ) (maxSteps : ℤ) : ℕ → ℕ → Call σ
  | 0, _, s => (s, .error .outOfFuel)
  | fuel + 1, n, s =>
    if o.status s ≠ .running then (s, .ok ())
    else seq (body o cmf maxSteps n) (loop o cmf maxSteps fuel (n + 1)) s

/-- ml.py 558-590: `_solve_ode`, after the solver has been made. If `cmf_steps` is 0, both `n // cmf_steps` (578) and
`n % cmf_steps` (580) raise `ZeroDivisionError`, one of which is reached in the first pass. A negative `cmf_steps` is not
modelled. -/
def solveOde (o : Solver σ) (cmf : ℕ) (maxSteps : ℤ) (fuel : ℕ) : Call σ := fun s =>
  if cmf = 0 then (s, .error .zeroDivisionError) else loop o cmf maxSteps fuel 1 s

/-- ml.py 542-556: `with self.log_inner_product(): body`. The bare `except: pass` swallows every exception. Logging
is not modelled. -/
def logInnerProduct (body : Call σ) : Call σ := fun s =>
  match body s with
  | (s, .error _) => (s, .ok ())
  | (s, .ok _) => (s, .ok ())

/-- ml.py 592-626: `_split_prop(tensor)`: `isRoot` says whether `tensor.axis is None`, `setRoot` is
`self.root = tensor`. -/
def splitProp (isRoot : σ → Bool) (setRoot : σ → σ) (o : Solver σ) (cmf : ℕ) (maxSteps : ℤ) (fuel : ℕ) : Call σ :=
  fun s =>
    if isRoot s then logInnerProduct (solveOde o cmf maxSteps fuel) (setRoot s)
    else (s, .error .runtimeError)

/-! ### The propagator -/

/-- The state of a generator for its consumer. -/
inductive Status
  /-- at a `yield` -/
  | suspended
  /-- ended: `StopIteration` -/
  | stopped
  /-- ended with an exception -/
  | raised (e : Err)
  deriving DecidableEq

variable {K : Type} [Ring K]

/-- The loop of a propagator, for a consumer that calls `next` `k` times from count `n` on. The result is the list of
yielded values (time, root), each with the state at that time, and the status afterwards. `time t` is the assignment
of `self.time`, `step` the body after the `yield`, and `onError` says what an exception raised there does. The body
runs only when `next` is called again. -/
def generator {ρ : Type} (onError : Err → Status) (root : ρ) (steps : Option ℤ) (dt start : K) (time : K → σ → σ)
    (step : Call σ) : ℕ → ℕ → σ → List (K × ρ × σ) × Status
  | 0, _, _ => ([], .suspended)
  | k + 1, n, s =>
    if steps.any (fun m => decide (m ≤ (n : ℤ))) then ([], .stopped)
    else
      let t := start + (n : K) * dt
      let s := time t s
      if k = 0 then ([(t, root, s)], .suspended)
      else
        match step s with
        | (_, .error e) => ([(t, root, s)], onError e)
        | (s', .ok _) =>
          let rest := generator onError root steps dt start time step k (n + 1) s'
          ((t, root, s) :: rest.1, rest.2)

/-- ml.py 766-787: `propagator`. `time` is `self.time = time if not imaginary else None`; `step` includes the
normalization (783-784). `except RuntimeWarning: break`. -/
def propagate {ρ : Type} (root : ρ) (steps : Option ℤ) (dt start : K) (time : K → σ → σ) (step : Call σ) (k : ℕ)
    (s : σ) : List (K × ρ × σ) × Status :=
  generator (fun e => if e = .runtimeWarning then .stopped else .raised e) root steps dt start time step k 0 s

/-- The step functions of the class. -/
structure Steps (σ : Type) where
  unite : Bool → Call σ
  split : Bool → Call σ
  recursive : Call σ
  direct : Call σ

/-- ml.py 646-652: `snd_order_step(step)`; the argument of `step` is `backward`. That both are made with half of the
interval is part of `step` here. -/
def sndOrderStep (step : Bool → Call σ) : Call σ := seq (step false) (step true)

/-- `str.upper` of the first character, `'U'`, `'S'` and `'R'` being the only ones that matter. -/
def upperHead (name : List Char) : Option Char :=
  match name with
  | [] => none
  | c :: _ => some (if c = 'u' then 'U' else if c = 's' then 'S' else if c = 'r' then 'R' else c)

/-- ml.py 751-764: the choice of the step. `full` and `half` are the step functions with the whole and with half of
the interval. -/
def chooseStep (full half : Steps σ) (split : Bool) (psMethod : List Char) (sndOrder : Bool) : Res (Call σ) :=
  if split then
    match upperHead psMethod with
    | some 'U' => .ok (if sndOrder then sndOrderStep half.unite else full.unite false)
    | some 'S' => .ok (if sndOrder then sndOrderStep half.split else full.split false)
    | some 'R' => .ok full.recursive
    | _ => .error .valueError
  else .ok full.direct

/-- heom/propagate2.py 224-250: `ProjectorSplitting.propagator`: no exception is handled. -/
def propagate2 {ρ : Type} (root : ρ) (steps : Option ℤ) (dt start : K) (time : K → σ → σ) (step : Call σ) (k : ℕ)
    (s : σ) : List (K × ρ × σ) × Status :=
  generator .raised root steps dt start time step k 0 s

/-- girds.py 198-216: the values yielded by `Propagator.__call__(t0, dt, max_iter)`: times with the wave function.
`step` makes one step at the given time; exceptions are not modelled. -/
def gridPropagator {ω : Type} (t0 dt : K) (maxIter : ℕ) (step : K → ω → ω) (w : ω) : List (K × ω) :=
  (t0, w) :: ((List.range maxIter).foldl (fun (acc : List (K × ω) × ω) (i : ℕ) =>
    let time := t0 + (i : K) * dt
    let w := step time acc.2
    (acc.1 ++ [(time + dt, w)], w)) ([], w)).1

end Ode
