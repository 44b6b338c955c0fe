import Verif.Model.SplitProp

/-!
Model of `ProjectorSplitting` in `minitn/heom/propagate2.py`: `term_visitor` 58-69, `_form_env` 71-79, `_single_diff` 81-111,
`_single_prop` 113-136, `remove_env` 138-144. Its sweeps `one_site_step` (166-188), `two_site_step` (190-222) and `snd_order_step`
(159-164) are those of `Verif.Model.Sweep`.

The object is an `ML.Obj`, of which `fList` is not used. SciPy's `solve_ivp` is an arbitrary deterministic program that calls `diff`
and ends with a vector (`Solve`). The recursion budget is the number of objects made so far. Besides, the state has a log of the calls
of `diff`, which the program does not have.
-/

open Py

namespace Splitting2

variable {K T R A : Type} [Zero T] [Field R] [StarRing R]

/-- `for leaf, array in term: leaf.set_array(array)`, propagate2.py 65-66. The operators of the terms are arrays; a function would be
evaluated here. -/
def setTerm (time : T) (term : ML.Term T R) (h : Heap R) : Heap R :=
  term.foldl (fun h p => h.setArray p.1 (some (p.2.at time))) h

/-- One pass of the loop of `term_visitor`, propagate2.py 64-69; `body n` is what the caller does for `yield n`. -/
def termPass (time : T) (body : ℕ → ML.Obj T R × A → Res (ML.Obj T R × A)) (n : ℕ) (term : ML.Term T R) (x : ML.Obj T R × A) :
    Res (ML.Obj T R × A) := do
  let (s, a) ← body n ({ x.1 with heap := setTerm time term x.1.heap }, x.2)
  pure ({ s with heap := term.foldl (fun h p => h.reset p.1) s.heap }, a)

/-- `for n in self.term_visitor(): body`, propagate2.py 58-69: the caches are emptied once, before the first term. -/
def termVisitor (fuel : ℕ) (body : ℕ → ML.Obj T R × A → Res (ML.Obj T R × A)) (s : ML.Obj T R) (a : A) : Res (ML.Obj T R × A) := do
  let time := s.time.getD 0
  let ts ← s.heap.visitor fuel s.root none true
  s.hList.zipIdx.foldlM (fun x p => termPass time body p.2 p.1 x) ({ s with heap := ts.foldl Heap.reset s.heap }, a)

/-- `_single_diff`, propagate2.py 81-111. The array contracted with all mean fields, from `env_` or computed (and not stored in
`env_`): as ml.py 369-377 with `cache=False`. -/
def singleDiff (fuel : ℕ) (t n : ℕ) (s : ML.Obj T R) : Res (ML.Obj T R × Nd R) :=
  match s.heap.array t with
  | none => .error .typeError
  | some a => do
    let (s, tmp) ← ML.applyFields fuel false n t (List.range (s.heap.order t)) (s, a)
    match (s.heap.node t).axis with
    | none => pure (s, tmp)
    | some _ => throw .runtimeError

/-- `diff`, propagate2.py 122-126: `ans = zeros_like(y)` and the sum over the terms. -/
def sumTerms (fuel t n : ℕ) (s : ML.Obj T R) : Res (ML.Obj T R × Nd R) :=
  termVisitor fuel (fun m x => do
    let (s, a) ← singleDiff fuel t m x.1
    let sum ← x.2.add ⟨[a.shape.prod], a.data⟩
    pure (s, sum)) s ⟨[n], List.replicate n 0⟩

/-- What `solve_ivp` does: call `diff(t, y)`, or end with `solver.y[:, -1]`. -/
inductive Solve (T R : Type)
  | stop (y : List R)
  | eval (t : T) (y : List R) (next : List R → Solve T R)

/-- What does not change during a sweep. `solver` is `solve_ivp`, given `t0`, `y0` and `tau`. -/
structure Config (K T R : Type) where
  solver : T → List R → K → Solve T R
  svd : Heap.Svd R
  svdU : Heap.Svd R

/-- The calls that the solver makes for tensor `t`, propagate2.py 119-134. `np.reshape(y, tensor.shape)` raises an exception if `y` has
the wrong size. The trial array stays in the tensor until the next call. -/
def run (t : ℕ) : Solve T R → SplitProp.Ext T R × Heap R → Res (SplitProp.Ext T R × Heap R)
  | .stop y, (x, h) =>
    match h.array t with
    | none => .error .typeError
    | some a => if y.length = a.shape.prod then .ok (x, h.setArray t (some ⟨a.shape, y⟩)) else .error .valueError
  | .eval _ y next, (x, h) =>
    match h.array t with
    | none => .error .typeError
    | some a =>
      if y.length = a.shape.prod then do
        let s0 := x.obj (h.setArray t (some ⟨a.shape, y⟩)) t
        let (s, v) ← sumTerms h.next t y.length s0
        run t (next v.data) ({ x.take s with calls := x.calls ++ [⟨s0, t, true, v, v.data⟩] }, s.heap)
      else .error .valueError

/-- `_single_prop(t, tau)` after its check, propagate2.py 119-136 -/
def evolve (c : Config K T R) (x : SplitProp.Ext T R) (h : Heap R) (t : ℕ) (tau : K) : Res (SplitProp.Ext T R × Heap R) :=
  match h.array t with
  | none => .error .typeError
  | some a => run t (c.solver (x.time.getD 0) a.data tau) (x, h)

/-- propagate2.py 72-78 -/
def formEnvTerms (fuel : ℕ) (s : ML.Obj T R) : Res (ML.Obj T R) := do
  let (s, _) ← termVisitor fuel (fun n x => do
    let ts ← x.1.heap.visitor fuel x.1.root none false
    let s ← ts.foldlM (fun s t => ML.formEnvAt fuel n t s) x.1
    pure (s, ())) { s with env := [] } ()
  pure s

/-- `_form_env()`, propagate2.py 71-79 -/
def formEnv (x : SplitProp.Ext T R) (h : Heap R) (r : ℕ) : Res (SplitProp.Ext T R × Heap R) := do
  let s ← formEnvTerms h.next (x.obj h r)
  pure (x.take s, s.heap)

/-- What `Verif.Model.Sweep` leaves open. `remove_env` (138-144) is the same as in ml.py. -/
def hooks (c : Config K T R) : Sweep.Hooks K (SplitProp.Ext T R) R where
  evolve x h t tau _ := evolve c x h t tau
  formEnv := formEnv
  removeEnv := SplitProp.removeEnv
  svd := c.svd
  svdU := c.svdU

end Splitting2
