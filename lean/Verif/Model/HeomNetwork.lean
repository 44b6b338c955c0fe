import Verif.Model.Heom
import Verif.Model.Heap

/-! `minitn/heom/network.py`: the network of one tensor that holds the whole extended density. -/

open Py

namespace Heom

/-- `str(k)` -/
def strNat (k : ℕ) : List Char := (toString k).toList

/-- Link new leaves with the given names to the axes `k`, `k + 1`, ... of `r`: `root[k] = (Leaf(name=...), 0)`. -/
def attachLeaves {R : Type} (r : ℕ) : ℕ → List (List Char) → Heap R → Heap R
  | _, [], h => h
  | k, nm :: rest, h =>
    let (h, c) := h.alloc (Node.leaf (some nm))
    attachLeaves r (k + 1) rest (h.link r k c 0)

noncomputable section

/-- `get_n_state`, network.py 26-29 -/
def getNState (rho : Nd ℂ) : Res ℕ :=
  if rho.shape.length = 2 ∧ rho.shape.getD 0 0 = rho.shape.getD 1 0 then .ok (rho.shape.getD 0 0) else .error .assertionError

/-- `simple_heom`, network.py 32-54. Returns the heap and the root. The outer product with `ext` is written out. -/
def simpleHeom (h : Heap ℂ) (rho : Nd ℂ) (nIndices : List ℕ) : Res (Heap ℂ × ℕ) := do
  let nState ← getNState rho
  if nIndices.prod = 0 then throw .indexError
  let ext := fun a : ℕ => if a = 0 then (1 : ℂ) else 0
  let outer := Nd.ofFn (rho.shape ++ [nIndices.prod]) fun p => rho.get (p.take 2) * ext (p.getD 2 0)
  let rhoN ← outer.reshape ([nState, nState] ++ nIndices)
  let (h, root) := h.alloc (Node.tensor (some "root".toList) (some rhoN) none)
  let d := nIndices.length
  pure (attachLeaves root 0 ([strNat d, strNat (d + 1)] ++ (List.range d).map strNat) h, root)

end

end Heom
