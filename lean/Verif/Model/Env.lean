import Verif.Model.Heap
import Mathlib.Algebra.Star.Basic

/-!
Model of the contractions over a network in `minitn/tensor.py`: `partial_env`, `global_inner_product`,
`matrix_element` and relatives.
-/

open Py

namespace Heap

variable {R : Type} [CommRing R] [StarRing R]

/-- `self.aux if use_aux else np.conj(self.array)`, `minitn/tensor.py:340`. -/
def braArray (h : Heap R) (t : ℕ) (useAux : Bool) : Option (Nd R) :=
  if useAux then (h.node t).aux else (h.array t).map Nd.conj

/-- `i in self._partial_env and not use_aux`, `minitn/tensor.py:328-329`: the cached value if any. -/
def cached (h : Heap R) (t : ℕ) (i : Option ℕ) (useAux : Bool) : Option (Option (Nd R)) :=
  if useAux then none else i.bind fun k => Dict.get? (h.node t).penv k

/-- The condition for using normalization, `minitn/tensor.py:335`. -/
def shortcut (h : Heap R) (t : ℕ) (i : Option ℕ) (useAux : Bool) (env : List (ℕ × Option (Nd R))) : Bool :=
  !useAux && decide (i = (h.node t).axis) && (h.node t).normalized && env.all fun p => p.2.isNone

/-- `minitn/tensor.py:338-341`: the contraction of the array with the environments and the other array.
Simplification: a missing array raises `TypeError` at once (numpy raises this or another exception). -/
def contractEnv (h : Heap R) (t : ℕ) (i : Option ℕ) (useAux : Bool) (env : List (ℕ × Option (Nd R))) :
    Res (Nd R) := do
  match h.array t, h.braArray t useAux with
  | some a, some b =>
    let temp ← env.foldlM (fun a p => Tensor.partialProduct a p.1 p.2) a
    Tensor.partialTrace temp i b i
  | _, _ => .error .typeError

/-- `minitn/tensor.py:334-342`. -/
def envAnswer (h : Heap R) (t : ℕ) (i : Option ℕ) (useAux : Bool) (env : List (ℕ × Option (Nd R))) :
    Res (Option (Nd R)) :=
  if h.shortcut t i useAux env then .ok none else (h.contractEnv t i useAux env).map some

/-- `minitn/tensor.py:343-348`: cache the answer, and the answer. The number `1.` is the array of shape
`()` with that entry. -/
def envStore (h : Heap R) (t : ℕ) (i : Option ℕ) (useAux : Bool) (ans : Option (Nd R)) :
    Heap R × Option (Nd R) :=
  match i with
  | some k => (if useAux then h else h.upd t fun n => { n with penv := n.penv.set k ans }, ans)
  | none => (h, some (ans.getD ⟨[], [1]⟩))

/-- `Tensor.partial_env(i, proper=False, use_aux)`, `minitn/tensor.py:306-348`, and
`Leaf.partial_env`, `:865-874`. Recursion over the links; the heap (whose caches are updated) is threaded
through. -/
def partialEnv : ℕ → Heap R → ℕ → Option ℕ → Bool → Res (Heap R × Option (Nd R))
  | 0, _, _, _, _ => .error .outOfFuel
  | fuel + 1, h, t, i, useAux =>
    if h.isLeaf t then .ok (h, if useAux then (h.node t).aux else h.array t)
    else match h.cached t i useAux with
    | some v => .ok (h, v)
    | none => do
      let (h', env) ← (h.children t i).foldlM (fun s x => do
        let (h', e) ← partialEnv fuel s.1 x.2.1 (some x.2.2) useAux
        pure (h', s.2 ++ [(x.1, e)])) (h, ([] : List (ℕ × Option (Nd R))))
      let ans ← h'.envAnswer t i useAux env
      pure (h'.envStore t i useAux ans)

/-- One step of the list comprehension in `partial_env`, `minitn/tensor.py:332-333`. -/
def envStep (fuel : ℕ) (useAux : Bool) (s : Heap R × List (ℕ × Option (Nd R))) (x : ℕ × ℕ × ℕ) :
    Res (Heap R × List (ℕ × Option (Nd R))) := do
  let (h', e) ← partialEnv fuel s.1 x.2.1 (some x.2.2) useAux
  pure (h', s.2 ++ [(x.1, e)])

/-- `Tensor.partial_env(i, proper=True, use_aux)`, `minitn/tensor.py:320-323`; `RuntimeError` at a Leaf,
`:871-872`. -/
def partialEnvProper (fuel : ℕ) (h : Heap R) (t i : ℕ) (useAux : Bool) : Res (Heap R × Option (Nd R)) := do
  if h.isLeaf t then throw .runtimeError
  let (child, j) ← (h.access t).get! i
  partialEnv fuel h child (some j) useAux

/-- `Tensor.global_inner_product`, `minitn/tensor.py:350-355`. -/
def globalInnerProduct (fuel : ℕ) (h : Heap R) (t : ℕ) : Res (Heap R × Option (Nd R)) := do
  let ls ← h.leaves fuel t
  partialEnv fuel (ls.foldl (fun h l => h.setAux l none) h) t none true

/-- `Tensor.matrix_element`, `minitn/tensor.py:357-362`. -/
def matrixElement (fuel : ℕ) (h : Heap R) (t : ℕ) : Res (Heap R × Option (Nd R)) := do
  let ls ← h.leaves fuel t
  partialEnv fuel (ls.foldl (fun h l => h.setAux l (h.array l)) h) t none true

/-- `for t in self.visitor(leaf=False): t.aux = np.conj(t.array)`, `minitn/tensor.py:367-368`, `:378-379`.
Simplification: `np.conj(None)` raises `TypeError`; here it leaves `None`. -/
def conjAux (fuel : ℕ) (h : Heap R) (t : ℕ) : Res (Heap R) := do
  let ts ← h.visitor fuel t (h.node t).axis false
  pure (ts.foldl (fun h u => h.setAux u ((h.array u).map Nd.conj)) h)

/-- `Tensor.global_square`, `minitn/tensor.py:364-370`. -/
def globalSquare (fuel : ℕ) (h : Heap R) (t : ℕ) : Res (Heap R × Option (Nd R)) := do
  let h ← h.conjAux fuel t
  globalInnerProduct fuel h t

/-- `Tensor.expection`, `minitn/tensor.py:375-380`. -/
def expection (fuel : ℕ) (h : Heap R) (t : ℕ) : Res (Heap R × Option (Nd R)) := do
  let h ← h.conjAux fuel t
  matrixElement fuel h t

/-- `Tensor.local_inner_product`, `minitn/tensor.py:382-386`. -/
def localInnerProduct (h : Heap R) (t : ℕ) : Res (Nd R) :=
  match h.array t, (h.node t).aux with
  | some a, some b => Tensor.partialTrace a (h.node t).axis b (h.node t).axis
  | _, _ => .error .typeError

end Heap
