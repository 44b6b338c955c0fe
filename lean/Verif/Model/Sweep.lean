import Verif.Model.Split
import Mathlib.Algebra.Field.Defs

/-!
Projector splitting, `minitn/algorithms/ml.py`: `_split_prop` (592-626), `remove_env` (628-634, only its calls),
`move` (636-645), `snd_order_step` (647-652), `split_step` (654-676), `unite_step` (678-710), `r_split_step` (712-740).
`minitn/heom/propagate.py` has the same methods, `minitn/heom/propagate2.py` (166-222) has them as `one_site_step` and
`two_site_step`.

What `_split_prop` does to its tensor (the mean fields, the ODE solver, the normalization) is an arbitrary function
`evolve`; so are the cache operations `_form_env` and `remove_env` (the cache is a part of the state `E`). They are defined in
`Verif.Model.SplitProp`. Besides, the state has a log of the propagations, which the program does not have.
-/

open Py

namespace Sweep

/-- One propagation: of tensor `tensor`, linked as `links` says at that time, for the time `tau`. -/
structure Event (K : Type) where
  tensor : ℕ
  links : List (ℕ × ℕ × ℕ)
  tau : K

/-- The network, `self.root`, the rest of `self`, and the log of propagations. -/
structure State (K E R : Type) where
  heap : Heap R
  root : ℕ
  ext : E
  log : List (Event K)

/-- What is not modelled here. `evolve x h t tau cache` is `_split_prop(t, tau, cache=cache)` after its check, ml.py
592-613 and 618-626; `formEnv x h root` is `_form_env()`, ml.py 409-417; `removeEnv x h ts` is `remove_env(*ts)`, ml.py
628-634. `svd` is `compressed_svd` as `split_unite` calls it (without limits), `svdU` as `unite_split` does (with
`svd_rank` and `svd_err`). -/
structure Hooks (K E R : Type) where
  evolve : E → Heap R → ℕ → K → Bool → Res (E × Heap R)
  formEnv : E → Heap R → ℕ → Res (E × Heap R)
  removeEnv : E → Heap R → List ℕ → E
  svd : Heap.Svd R
  svdU : Heap.Svd R

variable {K E R : Type} [CommRing R]

/-- `_split_prop`, ml.py 592-626: only a tensor without normalization axis is propagated, and becomes `self.root`. -/
def splitProp (H : Hooks K E R) (tau : K) (cache : Bool) (s : State K E R) (t : ℕ) : Res (State K E R) := do
  if (s.heap.node t).axis ≠ none then throw .runtimeError
  let (x, h) ← H.evolve s.ext s.heap t tau cache
  pure ⟨h, t, x, s.log ++ [⟨t, s.heap.linkages t, tau⟩]⟩

/-- An operator given to `move`. -/
abbrev Op (K E R : Type) : Type := State K E R → ℕ → Res (State K E R)

/-- `if operator is not None: mid = operator(mid)`; the operators of the sweeps return their argument. -/
def applyOp (op : Option (Op K E R)) (s : State K E R) (mid : ℕ) : Res (State K E R) :=
  match op with
  | none => .ok s
  | some f => f s mid

/-- `Tensor.split_unite(i, operator=op)`, `minitn/tensor.py:457-476`, where the operator may also change `self`. The
result is the new state, `mid` and `end`. -/
def splitUnite (svd : Heap.Svd R) (s : State K E R) (t i : ℕ) (op : Option (Op K E R)) :
    Res (State K E R × ℕ × ℕ) := do
  let (fin, j) ← (s.heap.access t).get! i
  let normalized := (s.heap.node t).normalized && (s.heap.node fin).normalized
  let (h, mid, _) ← s.heap.split svd t (.one i) none none (some t) normalized
  let s ← applyOp op { s with heap := h } mid
  let (h, _) ← s.heap.unite fin j (some fin) normalized
  pure ({ s with heap := h }, mid, fin)

/-- `Tensor.unite_split(i, operator=op)`, `minitn/tensor.py:478-503`, where the operator may also change `self`. -/
def uniteSplit (fuel : ℕ) (svd : Heap.Svd R) (s : State K E R) (t i : ℕ) (op : Option (Op K E R)) :
    Res (State K E R × ℕ × ℕ) := do
  let old ← s.heap.linkageVisitor fuel t none true false
  let (fin, j) ← (s.heap.access t).get! i
  let normalized := (s.heap.node t).normalized && (s.heap.node fin).normalized
  let axes := (List.range (s.heap.order fin - 1)).map fun k => i + k
  let (h, mid) ← s.heap.unite t i none normalized
  let s ← applyOp op { s with heap := h } mid
  let (h, _, _) ← s.heap.split svd mid (.many axes) (some (j, i)) (some fin) (some t) normalized
  let new ← h.linkageVisitor fuel t none true false
  if old = new then pure ({ s with heap := h }, mid, fin) else throw .assertionError

/-- `remove_env`, ml.py 628-634 -/
def removeEnv (H : Hooks K E R) (s : State K E R) (ts : List ℕ) : State K E R :=
  { s with ext := H.removeEnv s.ext s.heap ts }

/-- `move`, ml.py 636-645 -/
def move (H : Hooks K E R) (fuel : ℕ) (s : State K E R) (t i : ℕ) (op : Option (Op K E R) := none)
    (uniteFirst : Bool := false) : Res (State K E R) := do
  let (fin, _) ← (s.heap.access t).get! i
  let s := removeEnv H s [t, fin]
  let (s, mid, fin') ← if uniteFirst then uniteSplit fuel H.svdU s t i op else splitUnite H.svd s t i op
  pure (removeEnv H { s with root := fin } [t, mid, fin'])

/-- `_form_env`, ml.py 409-417 -/
def formEnv (H : Hooks K E R) (s : State K E R) : Res (State K E R) := do
  let (x, h) ← H.formEnv s.ext s.heap s.root
  pure { s with ext := x, heap := h }

/-- One pass of the loop of `split_step(backward=False)`, ml.py 670-675 -/
def splitPass [Neg K] (H : Hooks K E R) (fuel : ℕ) (tau : K) (s : State K E R) (e : Bool × ℕ × ℕ × ℕ × ℕ) :
    Res (State K E R) :=
  let (rev, t1, i, _, _) := e
  if !rev then move H fuel s t1 i
  else do
    let s ← splitProp H tau true s t1
    move H fuel s t1 i (some (splitProp H (-tau) true))

/-- One pass of the loop of `split_step(backward=True)`, ml.py 662-667 -/
def splitPassB [Neg K] (H : Hooks K E R) (fuel : ℕ) (tau : K) (s : State K E R) (e : Bool × ℕ × ℕ × ℕ × ℕ) :
    Res (State K E R) :=
  let (rev, t1, _, t2, j) := e
  if rev then do
    let s ← move H fuel s t2 j (some (splitProp H (-tau) true))
    splitProp H tau true s t1
  else move H fuel s t2 j

/-- `split_step`, ml.py 654-676 -/
def splitStep [Neg K] (H : Hooks K E R) (fuel : ℕ) (tau : K) (backward : Bool) (s : State K E R) :
    Res (State K E R) := do
  let s ← formEnv H s
  let linkages ← s.heap.decoratedLinkageVisitor fuel s.root (s.heap.node s.root).axis false
  if backward then
    let s ← splitProp H tau true s s.root
    linkages.reverse.foldlM (splitPassB H fuel tau) s
  else
    let s ← linkages.foldlM (splitPass H fuel tau) s
    splitProp H tau true s s.root

/-- `counter[t] -= 1` -/
def decr (c : Dict ℕ ℤ) (t : ℕ) : Res (Dict ℕ ℤ) := do
  let n ← c.get! t
  pure (c.set t (n - 1))

/-- One pass of the loop of `unite_step(backward=False)`, ml.py 700-708 -/
def unitePass [Neg K] (H : Hooks K E R) (fuel : ℕ) (tau : K) (origin : ℕ) (sc : State K E R × Dict ℕ ℤ)
    (e : Bool × ℕ × ℕ × ℕ × ℕ) : Res (State K E R × Dict ℕ ℤ) :=
  let (rev, t1, i, t2, _) := e
  let (s, c) := sc
  if !rev then do
    let n ← c.get! t2
    if n > 0 then
      let s ← move H fuel s t1 i
      pure (s, c)
    else pure (s, c)
  else do
    let s ← move H fuel s t1 i (some (splitProp H tau true)) true
    let c ← decr c t2
    let n ← c.get! t2
    if t2 ≠ origin ∨ n > 0 then
      let s ← splitProp H (-tau) true s t2
      pure (s, c)
    else pure (s, c)

/-- One pass of the loop of `unite_step(backward=True)`, ml.py 690-698 -/
def unitePassB [Neg K] (H : Hooks K E R) (fuel : ℕ) (tau : K) (origin : ℕ) (nOrigin : ℤ)
    (sc : State K E R × Dict ℕ ℤ) (e : Bool × ℕ × ℕ × ℕ × ℕ) : Res (State K E R × Dict ℕ ℤ) :=
  let (rev, t2, _, t1, i) := e
  let (s, c) := sc
  if rev then do
    let n ← c.get! t2
    let (s, c) ←
      if t2 ≠ origin ∨ n ≠ nOrigin then do
        let s ← splitProp H (-tau) true s t2
        let c ← decr c t2
        pure (s, c)
      else pure (s, c)
    let s ← move H fuel s t1 i (some (splitProp H tau true)) true
    pure (s, c)
  else do
    let n ← c.get! t2
    if n > 0 then
      let s ← move H fuel s t1 i
      pure (s, c)
    else pure (s, c)

/-- The counters of `unite_step`, ml.py 685-687: `t.children(leaf=False)` with the default axis. -/
def counters (h : Heap R) (ts : List ℕ) : Dict ℕ ℤ :=
  ts.foldl (fun (c : Dict ℕ ℤ) t => c.set t ((h.childrenDflt t false).length : ℤ)) []

/-- `unite_step`, ml.py 678-710 -/
def uniteStep [Neg K] (H : Hooks K E R) (fuel : ℕ) (tau : K) (backward : Bool) (s : State K E R) :
    Res (State K E R) := do
  let s ← formEnv H s
  let linkages ← s.heap.decoratedLinkageVisitor fuel s.root (s.heap.node s.root).axis false
  let origin := s.root
  let ts ← s.heap.visitor fuel s.root (s.heap.node s.root).axis false
  let c := counters s.heap ts
  let (s, c) ←
    if backward then do
      let n ← c.get! origin
      linkages.reverse.foldlM (unitePassB H fuel tau origin n) (s, c)
    else linkages.foldlM (unitePass H fuel tau origin) (s, c)
  if c.any fun p => decide (p.2 ≠ 0) then throw .assertionError
  pure s

/-- The loop of `branch_prop`, ml.py 728-731. `recur t j` is the recursive call of `r_split_step`. (`move` does not use its
fuel here.) -/
def branchLoop (H : Hooks K E R) (recur : ℕ → ℕ → State K E R → Res (State K E R)) (op1 op2 : Option (Op K E R)) (r : ℕ) :
    List (ℕ × ℕ × ℕ) → State K E R → Res (State K E R)
  | [], s => .ok s
  | (i, t, j) :: rest, s => do
    let s ← move H 0 s r i op1
    let s ← recur t j s
    let s ← move H 0 s t j op2
    branchLoop H recur op1 op2 r rest s

/-- `branch_prop`, ml.py 723-732 -/
def branchProp [Neg K] (H : Hooks K E R) (recur : ℕ → ℕ → State K E R → Res (State K E R)) (r : ℕ) (axis : Option ℕ)
    (tau : K) (backward : Bool) (s : State K E R) : Res (State K E R) :=
  let inv : Option (Op K E R) := some (splitProp H (-tau) false)
  let linkages := s.heap.children r axis false
  if backward then branchLoop H recur inv none r linkages s else branchLoop H recur none inv r linkages s

/-- `r_split_step` after `_form_env`, ml.py 719-740; `snd` is `self.snd_order`. -/
def rSplit [Field K] (H : Hooks K E R) (snd : Bool) : ℕ → K → ℕ → Option ℕ → State K E R → Res (State K E R)
  | 0, _, _, _, _ => .error .outOfFuel
  | fuel + 1, tau, r, axis, s =>
    if snd then do
      let recur := fun t j => rSplit H snd fuel (tau / 2) t (some j)
      let s ← branchProp H recur r axis (tau / 2) false s
      let s ← splitProp H tau true s r
      branchProp H recur r axis (tau / 2) true s
    else do
      let s ← branchProp H (fun t j => rSplit H snd fuel tau t (some j)) r axis tau false s
      splitProp H tau true s r

/-- `r_split_step()`, ml.py 712-740 -/
def rSplitStep [Field K] (H : Hooks K E R) (snd : Bool) (fuel : ℕ) (tau : K) (s : State K E R) :
    Res (State K E R) := do
  let s ← formEnv H s
  rSplit H snd fuel tau s.root none s

/-- `snd_order_step`, ml.py 647-652: a forward and a backward sweep of half the time. -/
def sndOrderStep [Field K] (step : K → Bool → State K E R → Res (State K E R)) (tau : K) (s : State K E R) :
    Res (State K E R) := do
  let s ← step (tau / 2) false s
  step (tau / 2) true s

end Sweep
