import Verif.Model.PoDvr
import Verif.Model.Ode
import Verif.Model.Corr
import Mathlib.Analysis.SpecialFunctions.Complex.Circle

/-!
`PO_DVR.propagation`, `autocorrelation` and `spectrum` of `minitn/bases/dvr.py` (1044-1116, 1181-1246).

Numbers are exact. The solver of scipy is a parameter. A state `σ` stands for everything that the calls may read and change (the solver and
`self`). Logging is not modelled.
-/

open Py
open scoped BigOperators

noncomputable section

namespace PoProp

/-- What a `raise StopIteration` in a generator does for its consumer. Since Python 3.7 (PEP 479) it is turned into a RuntimeError; before,
the generator ended. -/
def stopIteration (pep479 : Bool) : Ode.Status := if pep479 then .raised .runtimeError else .stopped

/-- What `propagation` uses: `solver.t`, `solver.y` and its assignment, `solver.status == 'running'`, a step of a running solver,
`self.energy_expection` and the argument `updater`. -/
structure Env (σ : Type) where
  t : σ → ℝ
  y : σ → List ℂ
  setY : List ℂ → σ → σ
  running : σ → Bool
  advance : Ode.Call σ
  energy : List ℂ → σ → Res ℂ
  updater : Option (Ode.Call σ)
  normalizer : Option (List ℂ → σ → Res (List ℂ))

variable {σ : Type}

/-- `OdeSolver.step` of scipy: a solver that is not running refuses. -/
def Env.step (E : Env σ) : Ode.Call σ := fun s => if E.running s then E.advance s else (s, .error .runtimeError)

/-- dvr.py 1092-1093 -/
def Env.normalize (E : Env σ) (s : σ) : Res σ :=
  match E.normalizer with
  | none => .ok s
  | some f => do pure (E.setY (← f (E.y s) s) s)

/-- A yielded value: the time, the real and the imaginary part. -/
abbrev Yield : Type := ℝ × List ℝ × List ℝ

open Classical in
/-- dvr.py 1102-1107: is the propagation stopped? A `const_energy` of 0 is false. -/
def stops (const : Option ℝ) (e0 e : ℂ) : Bool :=
  decide (1e-8 < ‖e - e0‖) && (match const with
    | none => false
    | some c => decide (c ≠ 0) && decide (c < ‖e - e0‖))

/-- dvr.py 1112, 1116 -/
def Env.after (E : Env σ) : Ode.Call σ := fun s =>
  match E.updater with
  | none => (s, .ok ())
  | some f => f s

/-- dvr.py 1090-1116, for a consumer that calls `next` `k` times: the yielded values and the status afterwards. Every RuntimeError of
`solver.step()` is turned into a StopIteration. -/
def loop (E : Env σ) (pep479 : Bool) (const : Option ℝ) (e0 : ℂ) : ℕ → σ → List Yield × Ode.Status
  | 0, _ => ([], .suspended)
  | k + 1, s =>
    match E.normalize s with
    | .error e => ([], .raised e)
    | .ok s =>
      match E.energy (E.y s) s with
      | .error e => ([], .raised e)
      | .ok e =>
        if stops const e0 e then ([], stopIteration pep479)
        else
          let v : Yield := (E.t s, (E.y s).map Complex.re, (E.y s).map Complex.im)
          if k = 0 then ([v], .suspended)
          else match E.step s with
            | (_, .error .runtimeError) => ([v], stopIteration pep479)
            | (_, .error e) => ([v], .raised e)
            | (s, .ok _) =>
              match E.after s with
              | (_, .error e) => ([v], .raised e)
              | (s, .ok _) =>
                let rest := loop E pep479 const e0 k s
                (v :: rest.1, rest.2)

/-- `propagation`, dvr.py 1044-1116: `s` is the state after the solver has been made. -/
def propagation (E : Env σ) (pep479 : Bool) (const : Option ℝ) (init : List ℂ) (k : ℕ) (s : σ) : List Yield × Ode.Status :=
  if k = 0 then ([], .suspended) else
  match E.energy init s with
  | .error e => ([], .raised e)
  | .ok e0 => loop E pep479 const e0 k s

/-- `factor * h_op(x)`, or its negative -/
def scaled (f : ℂ) (h : List ℂ → Res (List ℂ)) (x : List ℂ) : Res (List ℂ) := do pure ((← h x).map fun a => f * a)

/-- The function given to the solver, dvr.py 1081-1087: `h_op` is applied to the real and the imaginary part. -/
def derivative (hbar : ℝ) (h : List ℂ → Res (List ℂ)) (y : List ℂ) : Res (List ℂ) := do
  let factor : ℝ ← Corr.rdiv 1 hbar
  let re : List ℂ := y.map fun a => ((a.re : ℝ) : ℂ)
  let im : List ℂ := y.map fun a => ((a.im : ℝ) : ℂ)
  let real ← scaled (factor : ℂ) h im
  let imag ← scaled (-(factor : ℂ)) h re
  pure (List.zipWith (fun a b => a + Complex.I * b) real imag)

/-- `np.dot(u, v)` for real vectors of the same length -/
def dot (u v : List ℝ) : Res ℝ := .ok (List.zipWith (fun a b : ℝ => a * b) u v).sum

/-- dvr.py 1206 -/
def auto (dot : List ℝ → List ℝ → Res ℝ) (re im : List ℝ) : Res ℂ := do
  let a ← dot re re
  let b ← dot im im
  let c ← dot re im
  pure ((a : ℂ) - (b : ℂ) + 2 * Complex.I * (c : ℂ))

open Classical in
/-- dvr.py 1202-1207: the loop over the values of the inner generator, whose status at the end is `st`. -/
def autoLoop (pep479 : Bool) (dot : List ℝ → List ℝ → Res ℝ) (t2 : ℝ) : List Yield → Ode.Status → List (ℝ × ℂ) × Ode.Status
  | [], st => ([], st)
  | (tau, re, im) :: rest, st =>
    if t2 ≤ tau then ([], stopIteration pep479)
    else match auto dot re im with
      | .error e => ([], .raised e)
      | .ok a =>
        let r := autoLoop pep479 dot t2 rest st
        ((tau * 2, a) :: r.1, r.2)

/-- `autocorrelation`, dvr.py 1181-1207, for a consumer that calls `next` `k` times. -/
def autocorrelation (E : Env σ) (pep479 : Bool) (const : Option ℝ) (dot : List ℝ → List ℝ → Res ℝ) (init : List ℂ) (stop : ℝ) (k : ℕ)
    (s : σ) : List (ℝ × ℂ) × Ode.Status :=
  let p := propagation E pep479 const init k s
  autoLoop pep479 dot (stop / 2) p.1 p.2

/-- `fftpack.ifft` -/
def ifft (x : List ℂ) : List ℂ := (List.range x.length).map fun k : ℕ =>
  (1 / (x.length : ℂ)) * ∑ j ∈ Finset.range x.length, x.getD j 0 * Complex.exp (2 * Real.pi * Complex.I * (j : ℂ) * (k : ℂ) / (x.length : ℂ))

open Classical in
/-- dvr.py 1230-1246, with all values of the generator. (If `tau` is a number of numpy, a division by 0 is a warning only.) -/
def spectrumOf (window : Option (ℝ → ℂ)) (l : List (ℝ × ℂ)) : Res (List ℝ × List ℂ) :=
  if l = [] then .error .valueError else do
  let ts : List ℝ := l.map Prod.fst
  let n : ℕ := l.length
  let tau ← Corr.rdiv (ts.getLastD 0 - ts.headD 0) ((n : ℝ) - 1)
  let uniform : Bool := ts.zipIdx.all fun p => decide (|p.1 - (p.2 : ℝ) * tau| < 1e-8)
  let au : List ℂ := match window with
    | none => l.map Prod.snd
    | some w => l.map fun p => p.2 * w p.1
  if uniform then do
    let omega ← Corr.rdiv (2 * Real.pi / (n : ℝ)) tau
    pure ((List.range n).map fun k : ℕ => (k : ℝ) * omega, ifft au)
  else .error .notImplementedError

/-- `spectrum`, dvr.py 1209-1246: `zip(*...)` calls `next` until the generator ends. `k` bounds the number of these calls. -/
def spectrum (E : Env σ) (pep479 : Bool) (const : Option ℝ) (dot : List ℝ → List ℝ → Res ℝ) (window : Option (ℝ → ℂ)) (init : List ℂ)
    (len : ℝ) (k : ℕ) (s : σ) : Res (List ℝ × List ℂ) :=
  match autocorrelation E pep479 const dot init len k s with
  | (_, .suspended) => .error .outOfFuel
  | (_, .raised e) => .error e
  | (l, .stopped) => spectrumOf window l

end PoProp

end
