import Verif.Model.SplitProp
import Mathlib.Data.Complex.Basic

/-!
`ode_in_real=True`: `minitn/algorithms/ml.py` 567-575 in `_solve_ode` (558-590), for the propagation of one tensor (`_split_prop`, 592-626).
`minitn/heom/propagate.py` 576-584 has the same lines.

The solver of SciPy is again an arbitrary deterministic program, now one that works on real arrays (`PlanR`). SciPy itself raises `ValueError` for
every `y0` that is not one-dimensional: that is the program `PlanR.stop`, since `log_inner_product` (542-556) swallows all exceptions.
-/

open Py

namespace OdeReal

/-- What the solver and the loop of `_solve_ode` (576-590) do with the functions they are given: as `SplitProp.Plan`, with real arrays. -/
inductive PlanR (T : Type)
  | stop
  | eval (t : T) (x : Nd ℝ) (next : Nd ℝ → PlanR T)
  | update (x : Nd ℝ) (next : PlanR T)
  | reform (next : PlanR T)

/-- `np.array((y.real, y.imag), dtype='float64')`, ml.py 568 and 574, for a vector `y`. -/
noncomputable def pack (y : List ℂ) : Nd ℝ := ⟨[2, y.length], y.map Complex.re ++ y.map Complex.im⟩

/-- `np.array(x[0] + 1.0j * x[1], dtype='complex128')`, ml.py 572, for an array with two rows of `n` numbers. -/
noncomputable def unpack (x : Nd ℝ) (n : ℕ) : List ℂ :=
  List.zipWith (fun (a b : ℝ) => (a : ℂ) + Complex.I * (b : ℂ)) (x.data.take n) (x.data.drop n)

/-- What the solver does with the functions of `_split_prop`: `diff` is replaced (571-575), while `updater` and `reformer` are not, so that
`updater` (611-613) gets the real array: `np.reshape` looks at its elements in row-major order. Simplification: an argument `x` of `diff` that has not two rows ends the propagation. -/
noncomputable def toPlan {T : Type} : PlanR T → SplitProp.Plan T ℂ
  | .stop => .stop
  | .eval t x next =>
    match x.shape with
    | [2, n] => .eval t (unpack x n) fun d => toPlan (next (pack d))
    | _ => .stop
  | .update x next => .update (x.data.map fun a => (a : ℂ)) (toPlan next)
  | .reform next => .reform (toPlan next)

/-- The configuration of `Verif.Model.SplitProp` with `ode_in_real=True`, ml.py 558-590: `y0` is replaced (568). -/
noncomputable def config {K T : Type} (c : SplitProp.Config K T ℂ) (solver : T → Nd ℝ → K → PlanR T) : SplitProp.Config K T ℂ :=
  { c with solver := fun t0 y0 tau => toPlan (solver t0 (pack y0) tau) }

end OdeReal
