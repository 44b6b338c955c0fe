import Verif.Model.Sweep
import Verif.Model.Eom
import Verif.Model.Normalize

/-!
The parts of a projector-splitting sweep that `Verif.Model.Sweep` leaves open, for `MultiLayer` in `minitn/algorithms/ml.py`:
`_split_prop` (592-626) with `_solve_ode` (558-590), `_form_env` (409-417), `remove_env` (628-634), `coefficient` (470-472).

The ODE solver of SciPy is an arbitrary deterministic program that calls `diff`, makes steps and ends (`Plan`); whether it ends because
it has finished, because it has failed or because of an exception makes no difference, since `log_inner_product` (542-556) swallows
all exceptions. The recursion budget is the number of objects made so far. Besides, the state has a log of the calls of `diff`, which the program does not have.
-/

open Py

namespace SplitProp

/-- A call of `diff`: the object when the terms are visited (with the trial array in place), the tensor that is propagated, the argument
`cache`, the sum over the terms, and what `diff` returns. -/
structure Call (T R : Type) where
  obj : ML.Obj T R
  tensor : ℕ
  cache : Bool
  value : Nd R
  deriv : List R

/-- The fields of a `MultiLayer` object other than the network and the root; and the log. -/
structure Ext (T R : Type) where
  hList : List (ML.Term T R)
  fList : Option (List (ML.Term T R))
  time : Option T
  env : Dict (ℕ × ℕ × ℕ) (Option (Nd R))
  calls : List (Call T R)

/-- The object. -/
def Ext.obj {T R : Type} (x : Ext T R) (h : Heap R) (r : ℕ) : ML.Obj T R := ⟨h, r, x.hList, x.fList, x.time, x.env⟩

/-- The fields after a method has changed the object to `s`. -/
def Ext.take {T R : Type} (x : Ext T R) (s : ML.Obj T R) : Ext T R := { x with time := s.time, env := s.env }

/-- What the solver and the loop of `_solve_ode` (558-590) do with the three functions they are given: call `diff(t, y)`, `updater(y)`, or
`reformer()` (583-584), or end. -/
inductive Plan (T R : Type)
  | stop
  | eval (t : T) (y : List R) (next : List R → Plan T R)
  | update (y : List R) (next : Plan T R)
  | reform (next : Plan T R)

/-- What does not change during a sweep. `solver` is the method of `scipy.integrate` together with the loop of `_solve_ode`, given `t0`,
`y0` and `ode_inter`; `coef` is `coefficient()` as a function of `self.time`. -/
structure Config (K T R : Type) where
  imaginary : Bool
  sqrt : R → R
  coef : Option T → R
  initEnergy : Option R
  solver : T → List R → K → Plan T R
  svd : Heap.Svd R
  svdU : Heap.Svd R

variable {K T R : Type} [Zero T] [Field R] [StarRing R]

/-- `coefficient()`, ml.py 470-472; `i` is `1.0j`. -/
def coefficient (i hbar : R) (time : Option T) : R := if time.isNone then i * hbar else hbar

/-- ml.py 600-603: `ans = zeros_like(y)` and the sum over the terms. `tensor` is a root, so that no inverse density is used. -/
def sumTerms (fuel : ℕ) (cache : Bool) (t : ℕ) (n : ℕ) (s : ML.Obj T R) : Res (ML.Obj T R × Nd R) :=
  ML.termVisitor fuel true none false (fun m x => do
    let (s, a) ← ML.singleEom fuel cache [] t m x.1
    let sum ← x.2.add ⟨[a.shape.prod], a.data⟩
    pure (s, sum)) s ⟨[n], List.replicate n 0⟩

/-- ml.py 604-606: the value that `diff` returns, from the sum over the terms. -/
def finish (coef : R) (initEnergy : Option R) (y : List R) (v : Nd R) : List R :=
  let v := match initEnergy with
    | none => v.data
    | some e => List.zipWith (fun a b => a - e * b) v.data y
  v.map (· / coef)

/-- The calls that the solver makes for tensor `t`, ml.py 594-615. `np.reshape(y, tensor.shape)` raises an exception if `y` has the wrong
size, which ends the propagation (542-556). Simplification: an exception that is raised while the terms are visited or while the
tensor is normalized would end the propagation in the same way and leave the network in an intermediate state; here it is returned. -/
def run (c : Config K T R) (t : ℕ) (cache : Bool) : Plan T R → Ext T R × Heap R → Res (Ext T R × Heap R)
  | .stop, s => .ok s
  | .eval time y next, (x, h) =>
    match h.array t with
    | none => .ok (x, h)
    | some origin =>
      if y.length = origin.shape.prod then do
        let s0 : ML.Obj T R := { x.obj (h.setArray t (some ⟨origin.shape, y⟩)) t with
          time := if c.imaginary then none else some time }
        let (s, v) ← sumTerms h.next cache t y.length s0
        let d := finish (c.coef s.time) c.initEnergy y v
        let x := { x.take s with calls := x.calls ++ [⟨s0, t, cache, v, d⟩] }
        run c t cache (next d) (x, s.heap.setArray t (some origin))
      else .ok (x, h)
  | .update y next, (x, h) =>
    match h.array t with
    | none => .ok (x, h)
    | some origin =>
      if y.length = origin.shape.prod then do
        let (h, _) ← (h.setArray t (some ⟨origin.shape, y⟩)).normalize c.sqrt t (!c.imaginary)
        run c t cache next (x, h)
      else .ok (x, h)
  | .reform next, (x, h) =>
    if x.fList.isNone then run c t cache next (x, h)
    else do
      let s ← ML.formEnv h.next true (x.obj h t)
      run c t cache next (x.take s, s.heap)

/-- `_split_prop(t, tau, imaginary, cache)` after its check, ml.py 592-613 and 618-626. `np.reshape(None, -1)` is an array of one
object, which no solver takes: `TypeError`. -/
def evolve (c : Config K T R) (x : Ext T R) (h : Heap R) (t : ℕ) (tau : K) (cache : Bool) : Res (Ext T R × Heap R) :=
  match h.array t with
  | none => .error .typeError
  | some a => run c t cache (c.solver (x.time.getD 0) a.data tau) (x, h)

/-- `_form_env()`, ml.py 409-417 -/
def formEnv (c : Config K T R) (x : Ext T R) (h : Heap R) (r : ℕ) : Res (Ext T R × Heap R) := do
  let s ← ML.formEnv h.next false (x.obj h r)
  pure (x.take s, s.heap)

/-- `remove_env(*ts)`, ml.py 628-634: for every term of `h_list` (not of `f_list`), every tensor and every link it has now, the
entry is deleted if there is one. -/
def removeEnv (x : Ext T R) (h : Heap R) (ts : List ℕ) : Ext T R :=
  { x with
    env := (List.range x.hList.length).foldl (fun env n => ts.foldl (fun env t =>
      (h.linkages t).foldl (fun (env : Dict (ℕ × ℕ × ℕ) (Option (Nd R))) l =>
        env.filter fun p => decide (p.1 ≠ (n, t, l.1))) env) env) x.env }

/-- What `Verif.Model.Sweep` leaves open. -/
def hooks (c : Config K T R) : Sweep.Hooks K (Ext T R) R where
  evolve := evolve c
  formEnv := formEnv c
  removeEnv := removeEnv
  svd := c.svd
  svdU := c.svdU

end SplitProp
