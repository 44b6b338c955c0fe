import Verif.Model.Autocomplete
import Verif.Model.Davidson
import Verif.Model.MultiLayer
import Mathlib.Data.Real.Star

/-!
`minitn/algorithms/ml.py`, lines 193-278: `_local_matvec` and `autocomplete(max_entangled=True)` (the same text in
`minitn/heom/propagate.py`).

Numbers are exact reals, as in `Model/Davidson`: so the local Hamiltonians are real here. `rank` stands for `np.linalg.matrix_rank`, and
`cfg`, `lib` are the class attributes of `DavidsonAlgorithm` and the functions of `scipy.linalg` that it calls. The `print` of line 242 is
not modelled.
-/

open Py
open scoped BigOperators

noncomputable section

namespace ML

open Heap Davidson

/-- ml.py 195-198 and 200-204: the operator of the first term that consists of one pair with this Leaf. -/
def localTerm (leaf : ℕ) (terms : List (Term ℝ ℝ)) : Option (TermOp ℝ ℝ) :=
  terms.findSome? fun term => match term with
    | [p] => if p.1 = leaf then some p.2 else none
    | _ => none

/-- ml.py 194-206: the matrix that `_local_matvec(leaf)` applies: from `h_list`, else from `f_list` at time `0.0`. (A function in `h_list`
has no `shape`; a matrix in `f_list` cannot be called.) -/
def localHamiltonian (s : Obj ℝ ℝ) (leaf : ℕ) : Res (Nd ℝ) :=
  match localTerm leaf s.hList with
  | some (.mat a) => .ok a
  | some (.fn _) => .error .attributeError
  | none => match localTerm leaf (s.fList.getD []) with
    | some (.fn f) => .ok (f 0)
    | some (.mat _) => .error .typeError
    | none => .error .runtimeError

/-- ml.py 208-211: `matvec` for a vector of length `n ** 2`; the vector is the matrix with the rows `v[0:n]`, `v[n:2n]`, …. Reshaping the
vector, or the product, is a `ValueError` unless the matrix is `n × n`. -/
def localMatvec (n : ℕ) (a : Nd ℝ) : Res (Vec (n * n) → Vec (n * n)) :=
  if a.shape = [n, n] then
    .ok fun v i => ∑ k : Fin n, a.get [i / n, k] * v ⟨k * n + i % n, by
      have hk := k.2
      have hi : i % n < n := Nat.mod_lt _ (by omega)
      calc k * n + i % n < k * n + n := by omega
        _ = (k + 1) * n := by ring
        _ ≤ n * n := Nat.mul_le_mul_right _ (by omega)⟩
  else .error .valueError

/-- ml.py 239-240: `vec_i = np.reshape(np.diag(np.ones((n_leaf,)) / np.sqrt(n_leaf)), -1)` -/
def maxVec (n : ℕ) : Vec (n * n) := fun i => if i.1 / n = i.1 % n then 1 / Real.sqrt n else 0

/-- ml.py 233-236: the first child whose name does not end with `'`, and its dimension. Without such a child `n_leaf` is not bound. (Simplified:
the code would then use the value of the tensor before, if there was one.) -/
def primaryLeaf (h : Heap ℝ) (dims : Dict (ℕ × ℕ × ℕ × ℕ) ℕ) (t : ℕ) : List (ℕ × ℕ × ℕ) → Res (ℕ × ℕ)
  | [] => .error .unboundLocalError
  | (i, leaf, j) :: xs => match (h.node leaf).name with
    | none => .error .attributeError
    | some name =>
      if name.getLast? = some '\'' then primaryLeaf h dims t xs
      else do
        let n ← Dict.get! dims (t, i, leaf, j)
        pure (leaf, n)

/-- ml.py 248-251: `for j in range(m): v = np.zeros((N,)); v[j] = 1.0; array.append(v)` -/
def padRows (N m : ℕ) : Res (List (Vec N)) := (List.range m).mapM fun j =>
  if j < N then .ok (fun i => if i.1 = j then 1 else 0 : Vec N) else .error .indexError

/-- ml.py 245-252: cut the search space to `m` vectors, or fill it up. -/
def fitRows {N : ℕ} (m : ℕ) (vecs : List (Vec N)) : Res (List (Vec N)) :=
  if m ≤ vecs.length then .ok (vecs.take m)
  else do
    let pad ← padRows N (m - vecs.length)
    let array := vecs ++ pad
    if array.length = m then pure array else throw .assertionError

/-- `np.allclose(u, v)` -/
def allclose {N : ℕ} (u v : Vec N) : Prop := ∀ i, |u i - v i| ≤ 1 / 10 ^ 8 + 1 / 10 ^ 5 * |v i|

/-- ml.py 254: `np.reshape(array, (n_parent, n_leaf, n_leaf))` -/
def pairTensor (n : ℕ) (rows : List (Vec (n * n))) : Nd ℝ :=
  Nd.ofFn [rows.length, n, n] fun idx =>
    if h : idx.getD 1 0 * n + idx.getD 2 0 < n * n then rows.getD (idx.getD 0 0) 0 ⟨_, h⟩ else 0

open Classical in
/-- ml.py 239-253: the rows of the array for a pair of leaves, given the matrix of the local Hamiltonian. -/
def pairRows (cfg : Davidson.Config) (lib : ∀ N, Lib N) (n nParent : ℕ) (a : Nd ℝ) : Res (List (Vec (n * n))) := do
  let matvec ← localMatvec n a
  let vecs ← kernelSearch cfg (lib (n * n)) (init cfg matvec [maxVec n] nParent none)
  let rows ← fitRows nParent vecs
  match rows with
  | [] => throw .indexError
  | v :: _ => if allclose v (maxVec n) then pure rows else throw .assertionError

/-- ml.py 231-254: the array for a tensor `t` with no tensor below it. -/
def pairArray (cfg : Davidson.Config) (lib : ∀ N, Lib N) (s : Obj ℝ ℝ) (h : Heap ℝ) (dims : Dict (ℕ × ℕ × ℕ × ℕ) ℕ) (t : ℕ) : Res (Nd ℝ) :=
  match (h.node t).axis with
  | none => .error .runtimeError
  | some k => do
    if (h.childrenDflt t).length ≠ 2 then throw .runtimeError
    let (leaf, n) ← primaryLeaf h dims t (h.childrenDflt t)
    let (p, i) ← (h.access t).get! k
    let nParent ← Dict.get! dims (p, i, t, k)
    let a ← localHamiltonian s leaf
    let rows ← pairRows cfg lib n nParent a
    pure (pairTensor n rows)

/-- ml.py 272-274 -/
def finishOne (sqrt : ℝ → ℝ) (rank : Nd ℝ → ℕ) (h : Heap ℝ) (t : ℕ) (array : Nd ℝ) : Res (Heap ℝ) := do
  let h := h.setArray t (some array)
  let (h, _) ← normalize sqrt h t true
  match (h.node t).axis with
  | none => pure h
  | some k => do
    let (h, nrm) ← localNorm sqrt h t k
    let n ← h.shapeAt t k
    if rank nrm = n then pure h else throw .assertionError

/-- ml.py 228-274: the body of the loop. -/
def completeMax (cfg : Davidson.Config) (lib : ∀ N, Lib N) (sqrt : ℝ → ℝ) (rank : Nd ℝ → ℕ) (s : Obj ℝ ℝ) (dims : Dict (ℕ × ℕ × ℕ × ℕ) ℕ)
    (h : Heap ℝ) (t : ℕ) : Res (Heap ℝ) :=
  match h.array t with
  | some _ => .ok h
  | none => do
    let array ← if (h.childrenDflt t false).isEmpty then pairArray cfg lib s h dims t else initArray h dims t
    finishOne sqrt rank h t array

/-- ml.py 215-278: `autocomplete(n_bond_dict, max_entangled=True)` -/
def autocompleteMax (cfg : Davidson.Config) (lib : ∀ N, Lib N) (sqrt : ℝ → ℝ) (rank : Nd ℝ → ℕ) (fuel : ℕ) (dims : Dict (ℕ × ℕ × ℕ × ℕ) ℕ)
    (s : Obj ℝ ℝ) : Res (Obj ℝ ℝ) := do
  let ts ← s.heap.visitor fuel s.root (s.heap.node s.root).axis false
  let h ← ts.foldlM (completeMax cfg lib sqrt rank s dims) s.heap
  let all ← h.visitor fuel s.root (h.node s.root).axis true
  all.forM fun t => h.checkCompletness t true
  pure { s with heap := h }

end ML
