import Verif.Nd.Ops

/-!
`minitn/bases/dvr.py`: `PO_DVR.subindex` (1248-1266), `PO_DVR._calc_diag` (920-931), `PO_DVR.h_mat` (955-973).
`minitn/algorithms/mctdh.py`: `MCTDH._partial_transform` (288-308), `MCTDH.get_sub_vec` (310-326).
-/

open scoped BigOperators
open Py

namespace Dvr

/-- dvr.py 1257-1259: `prods`, with `n_list` nonempty or not. -/
def prods (nl : List ℕ) : List ℕ :=
  (List.range (nl.length - 1)).foldl (fun l k => l ++ [l.getLastD 0 * nl.getD (nl.length - 1 - k) 0]) [1]

/-- dvr.py 1260-1265: the loop; `prods.pop()` raises `IndexError` on an empty list, `N // 0` raises
`ZeroDivisionError`. -/
def subLoop : ℕ → List ℕ → ℕ → Res (List ℕ)
  | 0, _, _ => .ok []
  | r + 1, ps, N =>
    match ps.getLast? with
    | none => .error .indexError
    | some base =>
      if base = 0 then .error .zeroDivisionError
      else do
        let rest ← subLoop r ps.dropLast (N % base)
        pure (N / base :: rest)

/-- dvr.py 1248-1266: `subindex(N)` for `n_list = nl`. -/
def subindex (nl : List ℕ) (N : ℕ) : Res (List ℕ) := subLoop nl.length (prods nl) N

/-- dvr.py 923-931: `_calc_diag(func)`: `grid j n` is `grid_points_list[j][n]`. -/
def calcDiag {R X : Type} (nl : List ℕ) (grid : ℕ → ℕ → X) (func : List X → R) : Res (List R) :=
  (List.range nl.prod).mapM fun i => do
    let sub ← subindex nl i
    pure (func ((sub.zipIdx).map fun p => grid p.2 p.1))

variable {R : Type} [CommRing R]

/-- `np.array(list(map(mat.dot, v)))` for a matrix `v`: every row is multiplied by `mat`. (If `v` has no rows the array
has one axis instead of two; the theorems are about arrays without empty axes.) -/
def mapDot (mat v : Nd R) : Nd R :=
  Nd.ofFn [v.dim 0, mat.dim 0] fun idx =>
    ∑ k ∈ Finset.range (mat.dim 1), mat.get [idx.getD 1 0, k] * v.get [idx.getD 0 0, k]

/-- mctdh.py 288-308: `_partial_transform(i, tensor, mat)`; also the body of the loop in dvr.py 963-970, where `mat` is
the square matrix of `h_i`. -/
def partialTransform (i : ℕ) (tensor mat : Nd R) : Res (Nd R) := do
  let shape := tensor.shape.eraseIdx i ++ [mat.dim 0]
  let v ← tensor.swapaxes (tensor.ndim - 1) i
  let v ← v.reshapeInfer [] [mat.dim 1]
  let v := mapDot mat v
  let v ← v.reshape shape
  v.swapaxes (v.ndim - 1) i

/-- dvr.py 959-975: `_matvec(vec)`; `h_list` holds the matrices of the one-dimensional Hamiltonians. -/
def matvec (hList : List (Nd R)) (vRst : Option (List R)) (vec : List R) : Res (List R) := do
  let ioSizes := hList.map fun h => h.dim 0
  let v ← (⟨[vec.length], vec⟩ : Nd R).reshape ioSizes
  let ans ← hList.zipIdx.foldlM (fun (ans : Nd R) p => do
    let w ← partialTransform p.2 v p.1
    ans.add w) (⟨ioSizes, v.data.map fun _ => 0⟩ : Nd R)
  match vRst with
  | none => pure ans.data
  | some d =>
    if d.length = vec.length then pure (List.zipWith (· + ·) ans.data (List.zipWith (· * ·) d vec))
    else throw .valueError

end Dvr

namespace Mctdh

/-- mctdh.py 76-80: `shape_list` and `size_list` from the argument: the shapes `(n_i, m_i)`, followed by the shape of
the coefficient tensor. -/
def shapeList (arg : List (ℕ × ℕ)) : List (List ℕ) := arg.map (fun p => [p.1, p.2]) ++ [arg.map Prod.snd]

/-- mctdh.py 79 -/
def sizeList (shapes : List (List ℕ)) : List ℕ := shapes.map List.prod

/-- `vec[start:end]` -/
def slice {α : Type} (v : List α) (s e : ℕ) : List α := (v.take e).drop s

/-- mctdh.py 310-326: `get_sub_vec(i, vec)`; Python's `%` of a possibly negative number by a positive one is
`Int.emod`. -/
def getSubVec {α : Type} (shapes : List (List ℕ)) (i : ℤ) (vec : List α) : Res (Nd α) :=
  let sizes := sizeList shapes
  if sizes.length = 0 then .error .zeroDivisionError
  else
    let i := (i % (sizes.length : ℤ)).toNat
    let start := (sizes.take i).sum
    let stop := (sizes.take (i + 1)).sum
    let sub := slice vec start stop
    (⟨[sub.length], sub⟩ : Nd α).reshape (shapes.getD i [])

/-- `np.concatenate([...], axis=None)` of arrays, as in `init_state` (168-170) and `term_hamiltonian` (225-231). -/
def concatenate {α : Type} (blocks : List (Nd α)) : List α := (blocks.map Nd.data).flatten

end Mctdh
