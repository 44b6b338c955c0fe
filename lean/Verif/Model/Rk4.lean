import Verif.Model.Eom

/-!
The branch `ode_method='RK4'` of `MultiLayer.direct_step`, `minitn/algorithms/ml.py` 474-478 and 486-513.

Simplifications: as in `Model/Eom.lean`. The dictionaries `k[0]`, …, `k[3]` have the tensors (here their numbers) as keys.
-/

open Py

namespace ML

variable {T R : Type} [Zero T] [Field R] [StarRing R]

/-- ml.py 490-495, for one tensor: `k[0][t] = y0`, `k[1][t] = k1`, and the array becomes `y0 + k1 / 2`. -/
def rkFirst (dt : R) (x : Heap R × Dict ℕ (Nd R) × Dict ℕ (Nd R)) (t : ℕ) : Res (Heap R × Dict ℕ (Nd R) × Dict ℕ (Nd R)) :=
  match x.1.array t, (x.1.node t).aux with
  | some y0, some d => do
    let k1 : Nd R := ⟨d.shape, d.data.map (dt * ·)⟩
    let y ← y0.add ⟨k1.shape, k1.data.map (· / 2)⟩
    pure (x.1.setArray t (some y), x.2.1.set t y0, x.2.2.set t k1)
  | _, _ => .error .typeError

/-- ml.py 497-501 (`half`) and 503-507 (otherwise), for one tensor: `k[2][t] = k2` and the array becomes `y0 + k2 / 2`;
`k[3][t] = k3` and the array becomes `y0 + k3`. -/
def rkMid (dt : R) (half : Bool) (k0 : Dict ℕ (Nd R)) (x : Heap R × Dict ℕ (Nd R)) (t : ℕ) : Res (Heap R × Dict ℕ (Nd R)) := do
  let y0 ← Dict.get! k0 t
  match (x.1.node t).aux with
  | none => .error .typeError
  | some d => do
    let k : Nd R := ⟨d.shape, d.data.map (dt * ·)⟩
    let y ← y0.add (if half then ⟨k.shape, k.data.map (· / 2)⟩ else k)
    pure (x.1.setArray t (some y), x.2.set t k)

/-- ml.py 509-513, for one tensor: the array becomes `y0 + (k1 + 2 k2 + 2 k3 + k4) / 6` and `aux` is removed. -/
def rkLast (dt : R) (k0 k1 k2 k3 : Dict ℕ (Nd R)) (h : Heap R) (t : ℕ) : Res (Heap R) := do
  let y0 ← Dict.get! k0 t
  match (h.node t).aux with
  | none => .error .typeError
  | some d => do
    let k4 : Nd R := ⟨d.shape, d.data.map (dt * ·)⟩
    let k1 ← Dict.get! k1 t
    let k2 ← Dict.get! k2 t
    let k3 ← Dict.get! k3 t
    let a ← k1.add ⟨k2.shape, k2.data.map (2 * ·)⟩
    let a ← a.add ⟨k3.shape, k3.data.map (2 * ·)⟩
    let a ← a.add k4
    let y ← y0.add ⟨a.shape, a.data.map (· / 6)⟩
    pure ((h.setArray t (some y)).setAux t none)

/-- `direct_step` with `ode_method='RK4'`, ml.py 474-478 and 486-513: the mean fields and inverse densities are formed once, then `eom()`
is called four times. `coef` is `coefficient()`, `initEnergy` the attribute `init_energy`, `dt` is `ode_inter`. -/
def rk4Step (fuel : ℕ) (lin : Linalg R) (coef : R) (initEnergy : Option R) (dt : R) (s : Obj T R) : Res (Obj T R) := do
  let s ← formEnv fuel false s
  let (s, inv) ← formInvDensity fuel lin s
  let s ← eom fuel inv coef initEnergy s
  let ts ← s.heap.visitor fuel s.root (s.heap.node s.root).axis false
  let (h, k0, k1) ← ts.foldlM (rkFirst dt) (s.heap, [], [])
  let s ← eom fuel inv coef initEnergy { s with heap := h }
  let ts ← s.heap.visitor fuel s.root (s.heap.node s.root).axis false
  let (h, k2) ← ts.foldlM (rkMid dt true k0) (s.heap, [])
  let s ← eom fuel inv coef initEnergy { s with heap := h }
  let ts ← s.heap.visitor fuel s.root (s.heap.node s.root).axis false
  let (h, k3) ← ts.foldlM (rkMid dt false k0) (s.heap, [])
  let s ← eom fuel inv coef initEnergy { s with heap := h }
  let ts ← s.heap.visitor fuel s.root (s.heap.node s.root).axis false
  let h ← ts.foldlM (rkLast dt k0 k1 k2 k3) s.heap
  pure { s with heap := h }

end ML
