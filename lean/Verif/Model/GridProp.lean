import Verif.Model.Grids
import Mathlib.Analysis.SpecialFunctions.Pow.Real

/-!
`minitn/bases/girds.py`: `GridBasis.exp`, `inner_product`, `norm` and `Propagator`, and `gaussian_wfn`.

A wave function is the list of its values at the points of the grid: interpolation (`keep_ft_type`) does not change these values. One state only
(`n_state = 1`). A potential is a function of time and position; `with_time` leaves functions without the argument `t` as they are.
`integrate.simps` is the parameter `simps`. Division by a norm that is zero, for which numpy gives `nan` and a warning, is 0 here.
-/

open Py

namespace Grids

noncomputable section

/-- `exp(c, v)(f)` on the points `xs`, for one state, girds.py 74-97 -/
def mulExp (c : ℂ) (v : ℂ → ℂ) (xs f : List ℂ) : List ℂ := List.zipWith (fun x y => Complex.exp (c * v x) * y) xs f

/-- `inner_product`, girds.py 39-48 -/
def innerProduct (simps : List ℂ → ℂ) (f g : List ℂ) : ℂ := simps (List.zipWith (fun x y => (starRingEnd ℂ) x * y) f g)

/-- `norm`, girds.py 50-51: the complex square root -/
def norm (simps : List ℂ → ℂ) (f : List ℂ) : ℂ := innerProduct simps f f ^ (1 / 2 : ℂ)

/-- A `Propagator`, girds.py 184-196. -/
structure Propagator where
  basis : Obj
  func : ℝ → ℂ → ℂ
  conjFunc : ℝ → ℂ → ℂ
  simps : List ℂ → ℂ

/-- The attributes that change: `wfn` and `renormalization_coeff`. -/
structure PState where
  wfn : List ℂ
  coeff : ℂ

/-- One step: girds.py 202-213. `self.basis.conj` is the same object at every step. -/
def Propagator.step (P : Propagator) (dt time : ℝ) (w : List ℂ) : Res (List ℂ) := do
  let hbar : ℂ := P.basis.basis.hbar
  let c ← P.basis.getConj
  let uv := mulExp (-1 * Complex.I * dt / 2 / hbar) (P.func time) P.basis.basis.xs
  let ut := mulExp (-1 * Complex.I * dt / hbar) (P.conjFunc time) c.basis.xs
  let f ← P.basis.ft (uv w)
  let g ← c.ft (ut f)
  pure (uv g)

/-- `normalize`, girds.py 218-224, with `conj=False` -/
def Propagator.normalize (P : Propagator) (s : PState) : PState :=
  let norm := norm P.simps s.wfn
  ⟨s.wfn.map (· / norm), s.coeff * norm⟩

/-- The loop of `__call__`, girds.py 209-216, from number `i` on, with `k` iterations left: the values that are yielded, with the coefficient
at that time. -/
def Propagator.loop (P : Propagator) (t0 dt : ℝ) (renormalize : Bool) : ℕ → ℕ → PState → Res (List (ℝ × PState))
  | 0, _, _ => .ok []
  | k + 1, i, s => do
    let time := t0 + i * dt
    let w ← P.step dt time s.wfn
    let s : PState := { s with wfn := w }
    let s := if renormalize then P.normalize s else s
    let rest ← P.loop t0 dt renormalize k (i + 1) s
    pure ((time + dt, s) :: rest)

/-- `__init__`, girds.py 185-196: the initial wave function and the coefficient 1. -/
def PState.new (init : List ℂ) : PState := ⟨init, 1⟩

/-- `__call__`, girds.py 198-216, in the state `s`: all that is yielded. -/
def Propagator.call (P : Propagator) (t0 dt : ℝ) (maxIter : ℕ) (renormalize : Bool) (s : PState) : Res (List (ℝ × PState)) := do
  let rest ← P.loop t0 dt renormalize maxIter 0 s
  pure ((t0, s) :: rest)

/-- `gaussian_wfn`, girds.py 227-234 -/
def gaussianWfn (x0 p0 alpha hbar : ℝ) (x : ℝ) : ℂ :=
  ((alpha / Real.pi) ^ (1 / 4 : ℝ) : ℝ) * Complex.exp (-alpha * (x - x0) ^ 2 / 2) * Complex.exp (1 * Complex.I * p0 * (x - x0) / hbar)

end

end Grids
