import Verif.Model.Normalize
import Verif.Model.Triangular

/-!
`minitn/models/network.py`, lines 9-47: `autocomplete`. The branch of `MultiLayer.autocomplete`
(`minitn/algorithms/ml.py`, lines 255-278) without `max_entangled` is the same code.

`sqrt` stands for `np.sqrt` and `rank` for `np.linalg.matrix_rank`. `root.visitor(leaf=False)` is a generator, run between
the assignments of arrays; the walk reads only links, axes and classes, which are not assigned here, so the list of tensors
is computed first. `n_bond_dict` is a dictionary with keys `(tensor, axis, tensor, axis)`.

`max_entangled=True` is in `Model/MaxEntangled`.
-/

open Py

namespace Heap

variable {R : Type} [Field R] [StarRing R]

/-- network.py 32-34: `array = np.zeros((n_parent, width))`, `for n, v_i in zip(cols, array): v_i[n] = 1.` (`zip` stops
at the shorter one; an index that is too large is an `IndexError`). -/
def unitRows (nParent width : ℕ) (cols : List ℕ) : Res (Nd R) :=
  if ∀ c ∈ cols.take nParent, c < width then
    .ok (Nd.ofFn [nParent, width] fun idx => if cols[idx.getD 0 0]? = some (idx.getD 1 0) then 1 else 0)
  else .error .indexError

/-- network.py 21-37: the array for tensor `t`. `np.prod([])` is the float `1.0`, which `np.zeros` does not take. -/
def initArray (h : Heap R) (dims : Dict (ℕ × ℕ × ℕ × ℕ) ℕ) (t : ℕ) : Res (Nd R) := do
  let axis := (h.node t).axis
  let nChildren ← (h.childrenDflt t).mapM fun x => Dict.get! dims (t, x.1, x.2.1, x.2.2)
  let (nParent, shape) ← match axis with
    | some k => do
      let (p, i) ← (h.access t).get! k
      let n ← Dict.get! dims (p, i, t, k)
      pure (n, n :: nChildren)
    | none => pure (1, nChildren)
  if nChildren = [] then throw .typeError
  let array ← unitRows nParent nChildren.prod (Triangular.triangular nChildren)
  let array ← array.reshape shape
  match axis with
  | some k => array.moveaxis 0 k
  | none => pure array

/-- tensor.py 388-391: `t.local_norm()` for a tensor with `axis`: sets `aux`; the square root is taken of each entry. -/
def localNorm (sqrt : R → R) (h : Heap R) (t axis : ℕ) : Res (Heap R × Nd R) :=
  match h.array t with
  | none => .error .typeError
  | some array => do
    let h := h.setAux t (some array.conj)
    let ans ← Tensor.partialTrace array (some axis) array.conj (some axis)
    pure (h, ⟨ans.shape, ans.data.map sqrt⟩)

/-- network.py 20-43: the body of the loop. -/
def completeOne (sqrt : R → R) (rank : Nd R → ℕ) (dims : Dict (ℕ × ℕ × ℕ × ℕ) ℕ) (h : Heap R) (t : ℕ) : Res (Heap R) :=
  match h.array t with
  | some _ => .ok h
  | none => do
    let array ← initArray h dims t
    let h := h.setArray t (some array)
    let (h, _) ← normalize sqrt h t true
    match (h.node t).axis with
    | none => pure h
    | some k => do
      let (h, nrm) ← localNorm sqrt h t k
      let n ← h.shapeAt t k
      if rank nrm = n then pure h else throw .assertionError

/-- network.py 9-47: `autocomplete(root, n_bond_dict)`. -/
def autocomplete (sqrt : R → R) (rank : Nd R → ℕ) (fuel : ℕ) (dims : Dict (ℕ × ℕ × ℕ × ℕ) ℕ) (h : Heap R) (root : ℕ) :
    Res (Heap R) := do
  let ts ← h.visitor fuel root (h.node root).axis false
  let h ← ts.foldlM (completeOne sqrt rank dims) h
  let all ← h.visitor fuel root (h.node root).axis true
  all.forM fun t => h.checkCompletness t true
  pure h

end Heap
