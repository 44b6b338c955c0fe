import Verif.Model.Env
import Verif.Model.Ode

/-!
Model of `MultiLayer.autocorr`, `minitn/algorithms/ml.py:789-813` (`minitn/heom/propagate.py` has the same code), on top
of `propagator` (742-787). The state is a pair: what the steps use besides the network, and the network.
-/

open Py

namespace Autocorr

variable {R : Type} [CommRing R] [StarRing R] {X K : Type} [Ring K]

/-- ml.py 797-800: `_init[t] = t.array` for all tensors of the network. -/
def initArrays (fuel : ℕ) (h : Heap R) (r : ℕ) : Res (Dict ℕ (Option (Nd R))) := do
  let ts ← h.visitor fuel r (h.node r).axis false
  pure (ts.foldl (fun d t => d.set t (h.array t)) [])

/-- ml.py 808: `t.aux = t.array if fast else np.conj(_init[t])`. -/
def setBra (fast : Bool) (init : Dict ℕ (Option (Nd R))) (h : Heap R) (t : ℕ) : Res (Heap R) :=
  if fast then .ok (h.setAux t (h.array t))
  else match init.get? t with
    | none => .error .keyError
    | some none => .error .typeError
    | some (some a) => .ok (h.setAux t (some a.conj))

/-- ml.py 807-809: the bra is stored in `aux`, and the inner product. -/
def measure (fuel : ℕ) (fast : Bool) (init : Dict ℕ (Option (Nd R))) (h : Heap R) (r : ℕ) :
    Res (Heap R × Option (Nd R)) := do
  let ts ← h.visitor fuel r (h.node r).axis false
  let h ← ts.foldlM (setBra fast init) h
  h.globalInnerProduct fuel r

/-- ml.py 812-813: `t.aux = None`. -/
def clear (fuel : ℕ) (h : Heap R) (r : ℕ) : Res (Heap R) := do
  let ts ← h.visitor fuel r (h.node r).axis false
  pure (ts.foldl (fun h t => h.setAux t none) h)

/-- ml.py 801-813, with the loop of `propagator` (770-787) in it, for a consumer that calls `next` `k` times, from
count `n` on. The result is the list of yielded values (time, value), each with the state at the `yield` of
`propagator` before it, and the status afterwards. `time t` is the assignment of `self.time`, `step` the body of
`propagator` after its `yield`. -/
def loop (fuel : ℕ) (fast : Bool) (init : Dict ℕ (Option (Nd R))) (r : ℕ) (steps : Option ℤ) (dt start : K)
    (time : K → X × Heap R → X × Heap R) (step : Ode.Call (X × Heap R)) :
    ℕ → ℕ → X × Heap R → List (K × Option (Nd R) × (X × Heap R)) × Ode.Status
  | 0, _, _ => ([], .suspended)
  | k + 1, n, s =>
    if steps.any (fun m => decide (m ≤ (n : ℤ))) then ([], .stopped)
    else
      let t := start + (n : K) * dt
      let s := time t s
      match measure fuel fast init s.2 r with
      | .error e => ([], .raised e)
      | .ok (h1, auto) =>
        let ans := (if fast then 2 * t else t, auto, s)
        if k = 0 then ([ans], .suspended)
        else
          match clear fuel h1 r with
          | .error e => ([ans], .raised e)
          | .ok h2 =>
            match step (s.1, h2) with
            | (_, .error e) => ([ans], if e = .runtimeWarning then .stopped else .raised e)
            | (s', .ok _) =>
              let rest := loop fuel fast init r steps dt start time step k (n + 1) s'
              (ans :: rest.1, rest.2)

/-- ml.py 789-813: `autocorr`, for `move_energy=False`. Asked for nothing, a generator does nothing. -/
def autocorr (fuel : ℕ) (fast : Bool) (r : ℕ) (steps : Option ℤ) (dt start : K)
    (time : K → X × Heap R → X × Heap R) (step : Ode.Call (X × Heap R)) (k : ℕ) (s : X × Heap R) :
    List (K × Option (Nd R) × (X × Heap R)) × Ode.Status :=
  if k = 0 then ([], .suspended)
  else if fast then loop fuel true [] r steps dt start time step k 0 s
  else match initArrays fuel s.2 r with
    | .error e => ([], .raised e)
    | .ok init => loop fuel false init r steps dt start time step k 0 s

end Autocorr
