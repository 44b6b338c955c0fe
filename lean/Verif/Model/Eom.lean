import Verif.Model.MultiLayer
import Mathlib.Algebra.Field.Defs

/-!
The equations of motion of `MultiLayer` in `minitn/algorithms/ml.py`: `_single_eom` 347-390,
`_form_inv_density` 392-406, `_form_env` 409-417, `eom` 439-468, the "Newton" branch of `direct_step` 474-486.

Simplifications: the sum and the difference of arrays of different shapes are a `ValueError` (no broadcasting); the inverse densities are
handed from `_form_inv_density` to `eom` as a dictionary (`inv_density`); the two functions of `scipy.linalg` are parameters; `check=True`
of `eom` is not modelled.
-/

open Py

namespace ML

variable {T R : Type} [Zero T] [Field R] [StarRing R]

/-- ml.py 371-376: the mean field of term `n` for axis `i` of a tensor, from `env_` or computed (and stored if `cache`). -/
def meanField (fuel : ℕ) (cache : Bool) (n t i : ℕ) (s : Obj T R) : Res (Obj T R × Option (Nd R)) :=
  match s.env.get? (n, t, i) with
  | some e => .ok (s, e)
  | none => do
    let (h, e) ← s.heap.partialEnvProper fuel t i false
    pure ({ s with heap := h, env := if cache then s.env.set (n, t, i) e else s.env }, e)

/-- ml.py 369-377: the array contracted with all mean fields. -/
def applyFields (fuel : ℕ) (cache : Bool) (n t : ℕ) (is : List ℕ) (x : Obj T R × Nd R) : Res (Obj T R × Nd R) :=
  is.foldlM (fun x i => do
    let (s, e) ← meanField fuel cache n t i x.1
    let a ← Tensor.partialProduct x.2 i e
    pure (s, a)) x

/-- ml.py 380-389: the inverse density, and the projector, for a tensor with `axis`. -/
def project (array : Nd R) (axis : ℕ) (inv : Nd R) (tmp : Nd R) : Res (Nd R) := do
  let tmp ← Tensor.partialProduct tmp axis (some inv)
  let tmp1 := tmp
  let tmp ← Tensor.partialTrace tmp (some axis) array.conj (some axis)
  let tmp ← Tensor.partialProduct array axis (some tmp) 1
  tmp1.sub tmp

/-- `_single_eom`, ml.py 347-390. `order` is the number of links. -/
def singleEom (fuel : ℕ) (cache : Bool) (inv : Dict ℕ (Nd R)) (t n : ℕ) (s : Obj T R) : Res (Obj T R × Nd R) :=
  match s.heap.array t with
  | none => .error .typeError
  | some a => do
    let (s, tmp) ← applyFields fuel cache n t (List.range (s.heap.order t)) (s, a)
    match (s.heap.node t).axis with
    | none => pure (s, tmp)
    | some axis => do
      let i ← Dict.get! inv t
      let tmp ← project a axis i tmp
      pure (s, tmp)

/-- ml.py 458-460: `tensor.aux = tmp if prev is None else prev + tmp` -/
def addAux (h : Heap R) (t : ℕ) (tmp : Nd R) : Res (Heap R) :=
  match (h.node t).aux with
  | none => .ok (h.setAux t (some tmp))
  | some prev => do
    let sum ← prev.add tmp
    pure (h.setAux t (some sum))

/-- ml.py 457-460: the loop over the tensors for one term -/
def eomTerm (fuel : ℕ) (inv : Dict ℕ (Nd R)) (n : ℕ) (s : Obj T R) : Res (Obj T R) := do
  let ts ← s.heap.visitor fuel s.root (s.heap.node s.root).axis false
  ts.foldlM (fun s t => do
    let (s, tmp) ← singleEom fuel false inv t n s
    let h ← addAux s.heap t tmp
    pure { s with heap := h }) s

/-- ml.py 462-465, for one tensor; `tensor.aux /= …` of `None` is a `TypeError`. -/
def finishEom (coef : R) (initEnergy : Option R) (h : Heap R) (t : ℕ) : Res (Heap R) :=
  match (h.node t).aux with
  | none => .error .typeError
  | some a =>
    let a : Nd R := ⟨a.shape, a.data.map (· / coef)⟩
    match (h.node t).axis, initEnergy, h.array t with
    | none, some e, some b => do
      let c ← a.sub ⟨b.shape, b.data.map (e * ·)⟩
      pure (h.setAux t (some c))
    | _, _, _ => .ok (h.setAux t (some a))

/-- `eom()`, ml.py 439-466 -/
def eom (fuel : ℕ) (inv : Dict ℕ (Nd R)) (coef : R) (initEnergy : Option R) (s : Obj T R) : Res (Obj T R) := do
  let ts ← s.heap.visitor fuel s.root (s.heap.node s.root).axis true
  let s := { s with heap := ts.foldl (fun h t => h.setAux t none) s.heap }
  let (s, _) ← termVisitor fuel false none false (fun n x => do
    let s ← eomTerm fuel inv n x.1
    pure (s, ())) s ()
  let ts ← s.heap.visitor fuel s.root (s.heap.node s.root).axis false
  let h ← ts.foldlM (finishEom coef initEnergy) s.heap
  pure { s with heap := h }

/-- ml.py 414-416: the mean fields at all axes of one tensor, for term `n` -/
def formEnvAt (fuel n t : ℕ) (s : Obj T R) : Res (Obj T R) :=
  (List.range (s.heap.order t)).foldlM (fun s i => do
    let (h, e) ← s.heap.partialEnvProper fuel t i false
    pure { s with heap := h, env := s.env.set (n, t, i) e }) s

/-- `_form_env(update)`, ml.py 409-417 -/
def formEnv (fuel : ℕ) (update : Bool) (s : Obj T R) : Res (Obj T R) := do
  let (s, _) ← termVisitor fuel false none update (fun n x => do
    let ts ← x.1.heap.visitor fuel x.1.root none false
    let s ← ts.foldlM (fun s t => formEnvAt fuel n t s) x.1
    pure (s, ())) { s with env := [] } ()
  pure s

/-- The functions `pinv2` and `inv` of `scipy.linalg` (which may raise), and the attributes `pinv` and `regular_err`. -/
structure Linalg (R : Type) where
  pinv2 : Nd R → Res (Nd R)
  inv : Nd R → Res (Nd R)
  usePinv : Bool
  regularErr : R

/-- ml.py 401-404: the inverse of a density matrix; a missing density (`None`) is a `TypeError` -/
def Linalg.invert (lin : Linalg R) (density : Option (Nd R)) (n : ℕ) : Res (Nd R) :=
  match density with
  | none => .error .typeError
  | some d =>
    if lin.usePinv then lin.pinv2 d
    else do
      let d ← d.add ⟨[n, n], (Nd.identity n : Nd R).data.map (lin.regularErr * ·)⟩
      lin.inv d

/-- ml.py 397-405, for one object -/
def invDensityAt (fuel : ℕ) (lin : Linalg R) (x : Heap R × Dict ℕ (Nd R)) (t : ℕ) : Res (Heap R × Dict ℕ (Nd R)) :=
  match (x.1.node t).axis with
  | none => .ok x
  | some axis => do
    let (h, d) ← x.1.partialEnvProper fuel t axis false
    let n ← h.shapeAt t axis
    let m ← lin.invert d n
    pure (h, x.2.set t m)

/-- `_form_inv_density`, ml.py 392-406 -/
def formInvDensity (fuel : ℕ) (lin : Linalg R) (s : Obj T R) : Res (Obj T R × Dict ℕ (Nd R)) := do
  let ts ← s.heap.visitor fuel s.root none true
  let h := ts.foldl Heap.reset s.heap
  let ts ← h.visitor fuel s.root none true
  let (h, inv) ← ts.foldlM (invDensityAt fuel lin) (h, [])
  pure ({ s with heap := h }, inv)

/-- The first statements of `direct_step`, ml.py 476-477 and 480 (487 for RK4): the derivatives of all arrays are left in `aux`.
`coef` is `coefficient()`, `initEnergy` the attribute `init_energy`. -/
def derivative (fuel : ℕ) (lin : Linalg R) (coef : R) (initEnergy : Option R) (s : Obj T R) : Res (Obj T R) := do
  let s ← formEnv fuel false s
  let (s, inv) ← formInvDensity fuel lin s
  eom fuel inv coef initEnergy s

/-- ml.py 482-486, for one tensor: an Euler step -/
def eulerAt (dt : R) (h : Heap R) (t : ℕ) : Res (Heap R) :=
  match h.array t, (h.node t).aux with
  | some a, some d => do
    let y ← a.add ⟨d.shape, d.data.map (dt * ·)⟩
    pure ((h.setArray t (some y)).setAux t none)
  | _, _ => .error .typeError

/-- `direct_step` with `ode_method='Newton'`, ml.py 474-486. `coef` is `coefficient()`, `initEnergy` the attribute `init_energy`. -/
def newtonStep (fuel : ℕ) (lin : Linalg R) (coef : R) (initEnergy : Option R) (dt : R) (s : Obj T R) : Res (Obj T R) := do
  let s ← derivative fuel lin coef initEnergy s
  let ts ← s.heap.visitor fuel s.root (s.heap.node s.root).axis false
  let h ← ts.foldlM (eulerAt dt) s.heap
  pure { s with heap := h }

end ML
