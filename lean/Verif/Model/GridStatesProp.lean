import Verif.Model.GridStates
import Verif.Model.Grids
import Mathlib.Analysis.SpecialFunctions.Pow.Real

/-!
`minitn/bases/girds.py`: `Propagator` (184-224) for several states. A wave function is the array of its values at the
points of the grid, of shape `(states, points)`: interpolation (`keep_ft_type`) does not change these values. A potential is a function of time
and of the array of the points. The linspace grid and the Fourier transform of one state are those of `Model/Grids`.
-/

open Py

noncomputable section

namespace GridStates

/-- `ft` of several states: `keep_ft_type`, girds.py 99-113, and `ft`, 140-145 and 170-175: `list(vec)` is the list of the rows. -/
def ft (o : Grids.Obj) (a : Nd ℂ) : Res (Nd ℂ) := do
  let rows ← o.fts ((List.range (a.dim 0)).map fun i : ℕ => (List.range (a.dim 1)).map fun k : ℕ => a.get [i, k])
  pure (Nd.ofFn [rows.length, (rows.getD 0 []).length] fun q => (rows.getD (q.getD 0 0) []).getD (q.getD 1 0) 0)

/-- A `Propagator`, girds.py 184-196. -/
structure Propagator where
  basis : Grids.Obj
  func : ℝ → List ℂ → Nd ℂ
  conjFunc : ℝ → List ℂ → Nd ℂ

variable (eigh : Nd ℂ → Res (List ℝ × Nd ℂ))

/-- One step: girds.py 202-213. -/
def Propagator.step (P : Propagator) (dt time : ℝ) (w : Nd ℂ) : Res (Nd ℂ) := do
  let hbar : ℂ := P.basis.basis.hbar
  let c ← P.basis.getConj
  let uv := GridStates.exp eigh (-1 * Complex.I * dt / 2 / hbar) (P.func time P.basis.basis.xs)
  let ut := GridStates.exp eigh (-1 * Complex.I * dt / hbar) (P.conjFunc time c.basis.xs)
  let x ← uv w
  let x ← ft P.basis x
  let x ← ut x
  let x ← ft c x
  uv x

/-- The loop of `__call__`, girds.py 209-216, from number `i` on, with `k` iterations left: what is yielded. -/
def Propagator.loop (P : Propagator) (t0 dt : ℝ) : ℕ → ℕ → Nd ℂ → Res (List (ℝ × Nd ℂ))
  | 0, _, _ => .ok []
  | k + 1, i, w => do
    let time := t0 + i * dt
    let w ← P.step eigh dt time w
    let rest ← P.loop t0 dt k (i + 1) w
    pure ((time + dt, w) :: rest)

/-- `__call__(t0, dt, max_iter)`, girds.py 198-216: all that is yielded. -/
def Propagator.call (P : Propagator) (t0 dt : ℝ) (maxIter : ℕ) (w : Nd ℂ) : Res (List (ℝ × Nd ℂ)) := do
  let rest ← P.loop eigh t0 dt maxIter 0 w
  pure ((t0, w) :: rest)

/-- `inner_product` of a wave function with itself and `norm`, girds.py 39-51: `simps` integrates every row, `np.sum` adds the integrals; the complex square root. -/
def norm (simps : List ℂ → ℂ) (w : Nd ℂ) : ℂ :=
  (((List.range (w.dim 0)).map fun i : ℕ => simps ((List.range (w.dim 1)).map fun k : ℕ => star (w.get [i, k]) * w.get [i, k])).sum) ^ (1 / 2 : ℂ)

/-- `wfn(x) / norm`, girds.py 223; division by a norm that is zero is 0 here (`nan` in numpy). -/
def divide (w : Nd ℂ) (z : ℂ) : Nd ℂ := ⟨w.shape, w.data.map (· / z)⟩

/-- The loop of `__call__` with `renormalize=True`, girds.py 209-216 with `normalize` (218-224): what is yielded, with the
`renormalization_coeff` at that time. -/
def Propagator.loopR (simps : List ℂ → ℂ) (P : Propagator) (t0 dt : ℝ) : ℕ → ℕ → Nd ℂ → ℂ → Res (List (ℝ × Nd ℂ × ℂ))
  | 0, _, _, _ => .ok []
  | k + 1, i, w, coeff => do
    let time := t0 + i * dt
    let w ← P.step eigh dt time w
    let norm := norm simps w
    let coeff := coeff * norm
    let w := divide w norm
    let rest ← P.loopR simps t0 dt k (i + 1) w coeff
    pure ((time + dt, w, coeff) :: rest)

/-- `__call__(t0, dt, max_iter, renormalize=True)` of a new object, girds.py 198-216. -/
def Propagator.callR (simps : List ℂ → ℂ) (P : Propagator) (t0 dt : ℝ) (maxIter : ℕ) (w : Nd ℂ) : Res (List (ℝ × Nd ℂ × ℂ)) := do
  let rest ← P.loopR eigh simps t0 dt maxIter 0 w 1
  pure ((t0, w, 1) :: rest)

end GridStates

end
