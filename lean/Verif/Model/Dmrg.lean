import Verif.Nd.Einsum
import Verif.Model.CompressedSvd
import Mathlib.Algebra.Field.Defs

/-!
Model of `minitn/algorithms/dmrg.py`: matrix product states and operators, one-site and two-site DMRG.

An MPS matrix `A` has the indices `[s, i, j]`, an MPO matrix `W` the indices `[a, b, s, t]`. The numbers are elements of a commutative
ring `R`; `np.linalg.svd` and `scipy.sparse.linalg.eigsh` are parameters.
-/

open scoped BigOperators
open Py

namespace Dmrg

variable {R : Type} [CommRing R]

/-- `l[i]` -/
def item {α : Type} (l : List α) (i : ℕ) : Res α :=
  match l[i]? with
  | some x => .ok x
  | none => .error .indexError

/-- `x[idx]` for a full index. -/
def entry (x : Nd R) (idx : List ℕ) : Res R := if Valid x.shape idx then .ok (x.get idx) else .error .indexError

/-- `contract_from_left`, dmrg.py 110-138 -/
def contractFromLeft (L A : Nd R) (W : Option (Nd R)) (B : Nd R) : Res (Nd R) :=
  match W with
  | some W => do
    let temp ← Nd.einsum ['s', 'i', 'j'] ['a', 'i', 'k'] ['s', 'a', 'j', 'k'] A L
    let temp ← Nd.einsum ['s', 'a', 'j', 'k'] ['a', 'b', 's', 't'] ['t', 'b', 'j', 'k'] temp W
    Nd.einsum ['t', 'b', 'j', 'k'] ['t', 'k', 'l'] ['b', 'j', 'l'] temp B
  | none => do
    let temp ← Nd.einsum ['s', 'i', 'j'] ['i', 'k'] ['s', 'j', 'k'] A L
    Nd.einsum ['s', 'j', 'k'] ['s', 'k', 'l'] ['j', 'l'] temp B

/-- `contract_from_right`, dmrg.py 141-169 -/
def contractFromRight (Rt A : Nd R) (W : Option (Nd R)) (B : Nd R) : Res (Nd R) :=
  match W with
  | some W => do
    let temp ← Nd.einsum ['s', 'i', 'j'] ['b', 'j', 'l'] ['s', 'b', 'i', 'l'] A Rt
    let temp ← Nd.einsum ['s', 'b', 'i', 'l'] ['a', 'b', 's', 't'] ['t', 'a', 'i', 'l'] temp W
    Nd.einsum ['t', 'a', 'i', 'l'] ['t', 'k', 'l'] ['a', 'i', 'k'] temp B
  | none => do
    let temp ← Nd.einsum ['s', 'i', 'j'] ['j', 'l'] ['s', 'i', 'l'] A Rt
    Nd.einsum ['s', 'i', 'l'] ['s', 'k', 'l'] ['i', 'k'] temp B

/-- `np.array([[[1.0]]])` -/
def one3 : Nd R := ⟨[1, 1, 1], [1]⟩

/-- `np.array([[1.0]])` -/
def one2 : Nd R := ⟨[1, 1], [1]⟩

/-- `mat_element`, dmrg.py 519-547 -/
def matElement (mps1 : List (Nd R)) (mpo : Option (List (Nd R))) (mps2 : List (Nd R)) : Res R :=
  match mpo with
  | some mpo => do
    let L ← (List.range mpo.length).foldlM (fun L i => do
      let A ← item mps1 i
      let W ← item mpo i
      let B ← item mps2 i
      contractFromLeft L A (some W) B) one3
    entry L [0, 0, 0]
  | none => do
    if mps1.length ≠ mps2.length then throw .assertionError
    let L ← (List.range mps1.length).foldlM (fun L i => do
      let A ← item mps1 i
      let B ← item mps2 i
      contractFromLeft L A none B) one2
    entry L [0, 0]

/-- `np.diag(S)` -/
def diag (S : List R) : Nd R :=
  Nd.ofFn [S.length, S.length] fun p => if p.getD 0 0 = p.getD 1 0 then S.getD (p.getD 0 0) 0 else 0

/-- `compress_svd`, dmrg.py 233-254, without the compress error -/
def compressSvd (U : Nd R) (S : List R) (V : Nd R) (m : ℕ) : Nd R × List R × Nd R :=
  let dim := min S.length m
  (CompressedSvd.takeCols U dim, S.take dim, CompressedSvd.takeRows V dim)

/-- `np.linalg.svd(mat, full_matrices=0)` -/
abbrev SvdFn (R : Type) : Type := Nd R → Nd R × List R × Nd R

/-- `_move_right`, dmrg.py 277-289 -/
def moveRight (svd : SvdFn R) (mat matNext : Nd R) (trunc : ℕ) : Res (Nd R × Nd R) := do
  let s0 ← item mat.shape 0
  let s1 ← item mat.shape 1
  let s2 ← item mat.shape 2
  let m ← mat.reshape [s0 * s1, s2]
  let (U, S, V) := svd m
  let (U, S, V) := compressSvd U S V trunc
  let mat ← U.reshapeInfer [s0, s1] []
  let SV ← (diag S).matmul V
  let matNext ← Nd.einsum ['m', 'j'] ['t', 'j', 'k'] ['t', 'm', 'k'] SV matNext
  pure (mat, matNext)

/-- `_move_left`, dmrg.py 291-305 -/
def moveLeft (svd : SvdFn R) (mat matPrev : Nd R) (trunc : ℕ) : Res (Nd R × Nd R) := do
  let s0 ← item mat.shape 0
  let s1 ← item mat.shape 1
  let s2 ← item mat.shape 2
  let m ← (mat.transposeCore [1, 0, 2]).reshape [s1, s0 * s2]
  let (U, S, V) := svd m
  let (U, S, V) := compressSvd U S V trunc
  let mat ← V.reshapeInfer [] [s0, s2]
  let mat := mat.transposeCore [1, 0, 2]
  let US ← U.matmul (diag S)
  let matPrev ← Nd.einsum ['r', 'h', 'i'] ['i', 'm'] ['r', 'h', 'm'] matPrev US
  pure (mat, matPrev)

/-- `EnvTensor.io_shape`, dmrg.py 192 -/
def ioShape (L W Rt : Nd R) : Res (List ℕ) := do
  let a ← item W.shape 3
  let b ← item L.shape 2
  let c ← item Rt.shape 2
  pure [a, b, c]

/-- `EnvTensor._matvec`, dmrg.py 196-200 -/
def envMatvec (L W Rt A : Nd R) : Res (Nd R) := do
  let io ← ioShape L W Rt
  let A ← A.reshape io
  let temp ← Nd.einsum ['a', 'i', 'j'] ['s', 'i', 'k'] ['a', 'j', 's', 'k'] L A
  let temp ← Nd.einsum ['a', 'j', 's', 'k'] ['a', 'b', 's', 't'] ['b', 'j', 't', 'k'] temp W
  let temp ← Nd.einsum ['b', 'j', 't', 'k'] ['b', 'k', 'l'] ['t', 'j', 'l'] temp Rt
  temp.reshape [io.prod]

/-- The eigensolver: given the environment tensor (by `L`, `W`, `R`) and the start vector, the first eigenvector `V[:, 0]`. -/
abbrev EigFn (R : Type) : Type := Nd R → Nd R → Nd R → Nd R → Nd R

/-- `opt_one_site`, dmrg.py 203-230, without the energy -/
def optOneSite (eig : EigFn R) (L W Rt A : Nd R) : Res (Nd R) := do
  let io ← ioShape L W Rt
  let v0 ← A.reshape [io.prod]
  (eig L W Rt v0).reshape io

/-- The state of `dmrg1`, `dmrg2`: the matrices and the stacks of environments (the end of the list `L_list` is the head here). `log`
is not in the code: it records the site, the environments used for the optimization and the matrices at that time. -/
structure State (R : Type) where
  mps : List (Nd R)
  ls : List (Nd R)
  rs : List (Nd R)
  log : List (ℕ × Nd R × Nd R × List (Nd R))

/-- `l[-1]` -/
def top {α : Type} : List α → Res α
  | [] => .error .indexError
  | x :: _ => .ok x

/-- `l.pop()` -/
def pop {α : Type} : List α → Res (α × List α)
  | [] => .error .indexError
  | x :: l => .ok (x, l)

/-- `_contract_Rs`, dmrg.py 307-312 (`stop = 0`), 464-468 (`stop = 1`); the end of the list is the head here. -/
def contractRs (stop : ℕ) (mpo mps : List (Nd R)) : Res (List (Nd R)) :=
  ((List.range mpo.length).filter (fun i => stop < i)).reverse.foldlM (fun rs i => do
    let t ← top rs
    let A ← item mps i
    let W ← item mpo i
    let r ← contractFromRight t A (some W) A
    pure (r :: rs)) [one3]

/-- One step of the right sweep of `dmrg1`, dmrg.py 319-325 -/
def right1 (svd : SvdFn R) (eig : EigFn R) (mpo : List (Nd R)) (trunc : ℕ) (st : State R) (i : ℕ) : Res (State R) := do
  let L ← top st.ls
  let (Rt, rs) ← pop st.rs
  let W ← item mpo i
  let A ← item st.mps i
  let V ← optOneSite eig L W Rt A
  let next ← item st.mps (i + 1)
  let (A', next') ← moveRight svd V next trunc
  let mps := (st.mps.set i A').set (i + 1) next'
  let L' ← contractFromLeft L A' (some W) A'
  pure ⟨mps, L' :: st.ls, rs, st.log ++ [(i, L, Rt, st.mps)]⟩

/-- One step of the left sweep of `dmrg1`, dmrg.py 331-337 -/
def left1 (svd : SvdFn R) (eig : EigFn R) (mpo : List (Nd R)) (trunc : ℕ) (st : State R) (i : ℕ) : Res (State R) := do
  let Rt ← top st.rs
  let (L, ls) ← pop st.ls
  let W ← item mpo i
  let A ← item st.mps i
  let V ← optOneSite eig L W Rt A
  let prev ← item st.mps (i - 1)
  let (A', prev') ← moveLeft svd V prev trunc
  let mps := (st.mps.set i A').set (i - 1) prev'
  let R' ← contractFromRight Rt A' (some W) A'
  pure ⟨mps, ls, R' :: st.rs, st.log ++ [(i, L, Rt, st.mps)]⟩

/-- One pass of the loop over `sweep`, dmrg.py 318-341 -/
def sweep1 (svd : SvdFn R) (eig : EigFn R) (mpo : List (Nd R)) (trunc : ℕ) (st : State R) : Res (State R) := do
  let st ← (List.range (mpo.length - 1)).foldlM (right1 svd eig mpo trunc) st
  ((List.range st.mps.length).filter (fun i => 0 < i)).reverse.foldlM (left1 svd eig mpo trunc) st

/-- `dmrg1(mpo, initial_mps, trunc, sweeps)`, dmrg.py 257-342; the returned value is `mps`. -/
def dmrg1 (svd : SvdFn R) (eig : EigFn R) (mpo mps : List (Nd R)) (trunc sweeps : ℕ) : Res (State R) := do
  let rs ← contractRs 0 mpo mps
  (List.range (sweeps / 2)).foldlM (fun st _ => sweep1 svd eig mpo trunc st) ⟨mps, [one3], rs, []⟩

/-- `coarse_grain_mps`, dmrg.py 345-364 -/
def coarseGrainMps (A B : Nd R) : Res (Nd R) := do
  let a0 ← item A.shape 0
  let b0 ← item B.shape 0
  let a1 ← item A.shape 1
  let b2 ← item B.shape 2
  let C ← Nd.einsum ['s', 'i', 'j'] ['t', 'j', 'k'] ['s', 't', 'i', 'k'] A B
  C.reshape [a0 * b0, a1, b2]

/-- `coarse_grain_mpo`, dmrg.py 367-395 -/
def coarseGrainMpo (W X : Nd R) : Res (Nd R) := do
  let C ← Nd.einsum ['a', 'b', 's', 't'] ['b', 'c', 'u', 'v'] ['a', 'c', 's', 'u', 't', 'v'] W X
  let w0 ← item W.shape 0
  let x1 ← item X.shape 1
  let w2 ← item W.shape 2
  let x2 ← item X.shape 2
  let w3 ← item W.shape 3
  let x3 ← item X.shape 3
  C.reshape [w0, x1, w2 * x2, w3 * x3]

/-- `fine_grain_mps`, dmrg.py 398-444; `toRight` is `direction == '>'`, otherwise the direction is `'<'`. -/
def fineGrainMps (svd : SvdFn R) (C : Nd R) (d1 d2 : ℕ) (toRight : Bool) (trunc : ℕ) : Res (Nd R × Nd R) := do
  let c1 ← item C.shape 1
  let c2 ← item C.shape 2
  let mat ← C.reshape [d1, d2, c1, c2]
  let mat := mat.transposeCore [0, 2, 1, 3]
  let mat ← mat.reshape [d1 * c1, d2 * c2]
  let (U, S, V) := svd mat
  let (U, S, V) := if trunc ≠ 0 then compressSvd U S V trunc else (U, S, V)
  let (A, B) ← if toRight then do pure (U, ← (diag S).matmul V) else do pure (← U.matmul (diag S), V)
  let A ← A.reshapeInfer [d1, c1] []
  let B ← B.reshapeInfer [] [d2, c2]
  pure (A, B.transposeCore [1, 0, 2])

/-- One step of the right sweep of `dmrg2`, dmrg.py 483-492 -/
def right2 (svd : SvdFn R) (eig : EigFn R) (mpo : List (Nd R)) (trunc : ℕ) (st : State R) (i : ℕ) : Res (State R) := do
  let L ← top st.ls
  let (Rt, rs) ← pop st.rs
  let A ← item st.mps i
  let B ← item st.mps (i + 1)
  let d1 ← item A.shape 0
  let d2 ← item B.shape 0
  let C ← coarseGrainMps A B
  let W ← item mpo i
  let X ← item mpo (i + 1)
  let Y ← coarseGrainMpo W X
  let V ← optOneSite eig L Y Rt C
  let (A', B') ← fineGrainMps svd V d1 d2 true trunc
  let mps := (st.mps.set i A').set (i + 1) B'
  let L' ← contractFromLeft L A' (some W) A'
  pure ⟨mps, L' :: st.ls, rs, st.log ++ [(i, L, Rt, st.mps)]⟩

/-- One step of the left sweep of `dmrg2`, dmrg.py 499-508 -/
def left2 (svd : SvdFn R) (eig : EigFn R) (mpo : List (Nd R)) (trunc : ℕ) (st : State R) (i : ℕ) : Res (State R) := do
  let Rt ← top st.rs
  let (L, ls) ← pop st.ls
  let A ← item st.mps (i - 1)
  let B ← item st.mps i
  let d1 ← item A.shape 0
  let d2 ← item B.shape 0
  let C ← coarseGrainMps A B
  let W ← item mpo (i - 1)
  let X ← item mpo i
  let Y ← coarseGrainMpo W X
  let V ← optOneSite eig L Y Rt C
  let (A', B') ← fineGrainMps svd V d1 d2 false trunc
  let mps := (st.mps.set (i - 1) A').set i B'
  let R' ← contractFromRight Rt B' (some X) B'
  pure ⟨mps, ls, R' :: st.rs, st.log ++ [(i - 1, L, Rt, st.mps)]⟩

/-- One pass of the loop over `sweep`, dmrg.py 482-512 -/
def sweep2 (svd : SvdFn R) (eig : EigFn R) (mpo : List (Nd R)) (trunc : ℕ) (st : State R) : Res (State R) := do
  let st ← (List.range (mpo.length - 2)).foldlM (right2 svd eig mpo trunc) st
  ((List.range st.mps.length).filter (fun i => 1 < i)).reverse.foldlM (left2 svd eig mpo trunc) st

/-- `dmrg2(mpo, initial_mps, trunc, sweeps)`, dmrg.py 447-516 -/
def dmrg2 (svd : SvdFn R) (eig : EigFn R) (mpo mps : List (Nd R)) (trunc sweeps : ℕ) : Res (State R) := do
  let rs ← contractRs 1 mpo mps
  (List.range (sweeps / 2)).foldlM (fun st _ => sweep2 svd eig mpo trunc st) ⟨mps, [one3], rs, []⟩

section
variable {K : Type} [Field K]

/-- `np.array(rows)` for rows of 2×2 matrices. -/
def blocks (rows : List (List (Nd K))) (cols : ℕ) : Nd K :=
  Nd.ofFn [rows.length, cols, 2, 2] fun p =>
    (((rows.getD (p.getD 0 0) []).getD (p.getD 1 0) ⟨[], []⟩).get [p.getD 2 0, p.getD 3 0])

/-- A 2×2 matrix -/
def mat2 (a b c d : K) : Nd K := ⟨[2, 2], [a, b, c, d]⟩

/-- `heisenberg(N, J, Jz, h)`, dmrg.py 66-107 -/
def heisenberg (N : ℕ) (J Jz h : K) : List (Nd K) :=
  let I := mat2 1 0 0 1
  let Z := mat2 0 0 0 (0 : K)
  let Sz := mat2 (1 / 2) 0 0 (-(1 / 2))
  let Sp := mat2 0 0 1 (0 : K)
  let Sm := mat2 0 1 0 (0 : K)
  let first := blocks [[Nd.smul (-h) Sz, Nd.smul (J / 2) Sm, Nd.smul (J / 2) Sp, Nd.smul (Jz / 2) Sz, I]] 5
  let W := blocks [[I, Z, Z, Z, Z], [Sp, Z, Z, Z, Z], [Sm, Z, Z, Z, Z], [Sz, Z, Z, Z, Z],
    [Nd.smul (-h) Sz, Nd.smul (J / 2) Sm, Nd.smul (J / 2) Sp, Nd.smul (Jz / 2) Sz, I]] 5
  let last := blocks [[I], [Sp], [Sm], [Sz], [Nd.smul (-h) Sz]] 1
  [first] ++ List.replicate (N - 2) W ++ [last]

end

end Dmrg
