import Verif.Model.Contract
import Verif.Model.Corr
import Verif.Nd.Ops
import Mathlib.Analysis.Real.Sqrt

/-!
The hierarchical equations of motion as sums of products: `minitn/heom/hierachy.py`, `minitn/heom/eom.py` and `minitn/heom/eom2.py`.

Numbers are exact complex numbers. Here `basis=None`; the branches for a DVR basis are in `Model/HeomDvr`. Conversions of the data type and the `print` calls are dropped.
-/

open Py

namespace Heom

noncomputable section

/-- A term of a sum of products: labels of axes with the matrices acting on them. -/
abbrev Term := List (ℕ × Nd ℂ)

/-- `l[k]` -/
def item {α : Type} (l : List α) (k : ℕ) : Res α :=
  match l[k]? with
  | some x => .ok x
  | none => .error .indexError

/-- `np.eye(n, k=k)` -/
def npEye (n : ℕ) (k : ℤ) : Nd ℂ := Nd.ofFn [n, n] fun p => if (p.getD 1 0 : ℤ) = p.getD 0 0 + k then 1 else 0

/-- `np.diag(v)` for a vector -/
def npDiag (v : List ℂ) : Nd ℂ := Nd.ofFn [v.length, v.length] fun p => if p.getD 0 0 = p.getD 1 0 then v.getD (p.getD 0 0) 0 else 0

/-- `np.arange(n)` -/
def arange (n : ℕ) : List ℂ := (List.range n).map fun a : ℕ => (a : ℂ)

/-- `np.sqrt(np.arange(n))` -/
def sqrtArange (n : ℕ) : List ℂ := (List.range n).map fun a : ℕ => ((Real.sqrt a : ℝ) : ℂ)

/-- `np.transpose(a)` of a matrix -/
def transpose (a : Nd ℂ) : Nd ℂ := a.transposeCore [1, 0]

/-- `gen_extended_rho`: hierachy.py 66-81, eom.py 54-69, eom2.py 54-69 (the same text). The outer product with `ext` is written out. -/
def genExtendedRho (nDims : List ℕ) (rho : Nd ℂ) : Res (Nd ℂ) := do
  let shape := rho.shape
  if ¬ (shape.length = 2 ∧ shape.getD 0 0 = shape.getD 1 0) then throw .assertionError
  if nDims.prod = 0 then throw .indexError
  let ext := fun a : ℕ => if a = 0 then (1 : ℂ) else 0
  let outer := Nd.ofFn (nDims.prod :: shape) fun p => ext (p.getD 0 0) * rho.get (p.drop 1)
  outer.reshape (nDims ++ shape)

/-- `Hierachy`, hierachy.py 24-56. `scale` is the class attribute (26), which `models/sbm.py` overwrites on an object. -/
structure Hierachy where
  nDims : List ℕ
  h : Nd ℂ
  op : Nd ℂ
  corr : Corr.Correlation
  scale : ℂ

namespace Hierachy

/-- `Hierachy.__init__`, hierachy.py 28-56 -/
def init (nDims : List ℕ) (h op : Nd ℂ) (corr : Corr.Correlation) : Res Hierachy := do
  if nDims.length ≠ corr.kMax then throw .assertionError
  if op.ndim ≠ 2 then throw .assertionError
  if op.shape ≠ h.shape then throw .assertionError
  pure ⟨nDims, h, op, corr, 1⟩

variable (H : Hierachy)

/-- `self._i`, `self._j`: hierachy.py 44-45 -/
def i : ℕ := H.nDims.length
def j : ℕ := H.nDims.length + 1

/-- `_raiser`, hierachy.py 83-88 -/
def raiser (k : ℕ) : Res (Nd ℂ) := do
  let dim ← item H.nDims k
  (npEye dim 1).matmul (npDiag (sqrtArange dim))

/-- `_lower`, hierachy.py 101-106 -/
def lower (k : ℕ) : Res (Nd ℂ) := do
  let dim ← item H.nDims k
  (npDiag (sqrtArange dim)).matmul (npEye dim (-1))

/-- `_numberer`, hierachy.py 119-122 -/
def numberer (k : ℕ) : Res (Nd ℂ) := do
  let dim ← item H.nDims k
  pure (npDiag (arange dim))

/-- The body of the loop of `_diff`, hierachy.py 148-165 -/
def diffK (k : ℕ) : Res (List Term) := do
  let ck ← item H.corr.coeff k
  let cck ← item H.corr.conjCoeff k
  let g ← item H.corr.derivative k
  let num ← H.numberer k
  let r ← H.raiser k
  let l ← H.lower k
  let cf ← Corr.div ck H.scale
  let ccf ← Corr.div cck H.scale
  let x ← (Nd.smul cf r).add (Nd.smul H.scale l)
  let y ← (Nd.smul ccf r).add (Nd.smul H.scale l)
  pure [[(k, Nd.smul g num)], [(H.i, Nd.smul (-1 * Complex.I) H.op), (k, x)], [(H.j, Nd.smul (1 * Complex.I) H.op), (k, y)]]

/-- `_diff`, hierachy.py 136-167 -/
def diff : Res (List Term) := do
  let derivative : List Term := [[(H.i, Nd.smul (-1 * Complex.I) H.h)], [(H.j, Nd.smul (1 * Complex.I) H.h)]]
  let dks ← (List.range H.nDims.length).mapM H.diffK
  pure (derivative ++ dks.flatten)

end Hierachy

/-- `Correlation` of `minitn/heom/noise.py` (34-50): only the attributes read by `eom.py` and `eom2.py`. -/
structure Noise where
  kMax : ℕ
  symm : List ℂ
  asymm : List ℂ
  exp : List ℂ

/-- `Hierachy` of eom.py (24-52) and of eom2.py (24-52) -/
structure Hierachy2 where
  nDims : List ℕ
  h : Nd ℂ
  op : Nd ℂ
  corr : Noise

namespace Hierachy2

/-- `Hierachy.__init__`, eom.py 27-52, eom2.py 27-52 -/
def init (nDims : List ℕ) (h op : Nd ℂ) (corr : Noise) : Res Hierachy2 := do
  if nDims.length ≠ corr.kMax then throw .assertionError
  if op.ndim ≠ 2 then throw .assertionError
  if op.shape ≠ h.shape then throw .assertionError
  pure ⟨nDims, h, op, corr⟩

variable (H : Hierachy2)

/-- `self._i`, `self._j`: eom.py 45-46, eom2.py 45-46 -/
def i : ℕ := H.nDims.length
def j : ℕ := H.nDims.length + 1

/-- `hbar`, eom.py 25, eom2.py 25 -/
def hbar : ℂ := 1

/-- `_raiser`, eom2.py 71-74 -/
def raiser (k : ℕ) : Res (Nd ℂ) := do
  let dim ← item H.nDims k
  pure (npEye dim 1)

/-- `_lower`, eom2.py 76-79 -/
def lower (k : ℕ) : Res (Nd ℂ) := do
  let dim ← item H.nDims k
  pure (npEye dim (-1))

/-- `_raiser`, eom.py 71-74 -/
def raiser1 (k : ℕ) : Res (Nd ℂ) := do
  let dim ← item H.nDims k
  pure (npEye dim (-1))

/-- `_lower`, eom.py 76-79 -/
def lower1 (k : ℕ) : Res (Nd ℂ) := do
  let dim ← item H.nDims k
  pure (npEye dim 1)

/-- `_numberer` with `start=0`: eom.py 81-82, eom2.py 81-82 -/
def numberer (k : ℕ) : Res (Nd ℂ) := do
  let dim ← item H.nDims k
  pure (npDiag (arange dim))

/-- `_sqrt_numberer` with `start=0`: eom.py 84-85, eom2.py 84-85 -/
def sqrtNumberer (k : ℕ) : Res (Nd ℂ) := do
  let dim ← item H.nDims k
  pure (npDiag (sqrtArange dim))

/-- `_diff_ij`: eom.py 87-92, eom2.py 87-96 -/
def diffIJ : List Term := [[(H.i, Nd.smul (-1 * Complex.I) (transpose H.h))], [(H.j, Nd.smul (1 * Complex.I) H.h)]]

/-- `_diff_n`, eom.py 94-111 -/
def diffN1 : Res (List Term) := do
  let ts ← (H.corr.exp.zipIdx).mapM fun (g, k) => do
    let num ← H.numberer k
    pure [[(k, Nd.smul (-g) num)]]
  pure ts.flatten

/-- The body of the loop of `_diff_n`, eom2.py 103-112, for the pair `(i, j)`; `close` is `np.allclose(·, 0.0)`; no term if the
condition fails. `gamma` is the diagonal matrix of `exp_coeff` (100-101). -/
def diffNPair (close : ℂ → Bool) (i j : ℕ) : Res (List Term) := do
  if ¬ (i < H.corr.exp.length ∧ j < H.corr.exp.length) then throw .indexError
  let g := if i = j then H.corr.exp.getD i 0 else 0
  if close g then pure []
  else
    let num ← H.numberer i
    if i = j then pure [[(i, Nd.smul (-g) num)]]
    else
      let ni ← H.sqrtNumberer i
      let nj ← H.sqrtNumberer j
      let r ← H.raiser i
      let l ← H.lower j
      let x ← r.matmul ni
      let y ← nj.matmul l
      pure [[(i, Nd.smul (-g) num), (i, x), (j, y)]]

/-- `_diff_n`, eom2.py 98-114, for a one-dimensional `exp_coeff` -/
def diffN (close : ℂ → Bool) : Res (List Term) := do
  let n := H.nDims.length
  let ts ← ((List.range n).flatMap fun i => (List.range n).map fun j => (i, j)).mapM fun (i, j) => H.diffNPair close i j
  pure ts.flatten

/-- `_diff_k`, eom2.py 116-127 -/
def diffK (k : ℕ) : Res (List Term) := do
  let s ← item H.corr.symm k
  let a ← item H.corr.asymm k
  let c := s + Complex.I * a
  let num ← H.numberer k
  let r ← H.raiser k
  let l ← H.lower k
  let rn ← r.matmul num
  pure [[(H.i, Nd.smul (-1 * Complex.I / hbar) (transpose H.op)), (k, l)],
    [(H.j, Nd.smul (1 * Complex.I / hbar) H.op), (k, l)],
    [(H.i, Nd.smul (-1 * Complex.I / hbar * c) (transpose H.op)), (k, rn)],
    [(H.j, Nd.smul (1 * Complex.I / hbar * (starRingEnd ℂ) c) H.op), (k, rn)]]

/-- `_diff_k`, eom.py 113-125 -/
def diffK1 (k : ℕ) : Res (List Term) := do
  let s ← item H.corr.symm k
  let a ← item H.corr.asymm k
  let c := s + Complex.I * a
  let num ← H.sqrtNumberer k
  let r ← H.raiser1 k
  let l ← H.lower1 k
  let nl ← num.matmul l
  let rn ← r.matmul num
  pure [[(H.i, Nd.smul (-1 * Complex.I / hbar) H.op), (k, nl)],
    [(H.j, Nd.smul (1 * Complex.I / hbar) H.op), (k, nl)],
    [(H.i, Nd.smul (-1 * Complex.I / hbar * c) H.op), (k, rn)],
    [(H.j, Nd.smul (1 * Complex.I / hbar * (starRingEnd ℂ) c) H.op), (k, rn)]]

/-- `diff`, eom2.py 129-139 -/
def diff (close : ℂ → Bool) : Res (List Term) := do
  let dn ← H.diffN close
  let dks ← (List.range H.nDims.length).mapM H.diffK
  pure (H.diffIJ ++ dn ++ dks.flatten)

/-- `diff`, eom.py 127-137 -/
def diff1 : Res (List Term) := do
  let dn ← H.diffN1
  let dks ← (List.range H.nDims.length).mapM H.diffK1
  pure (H.diffIJ ++ dn ++ dks.flatten)

end Hierachy2

end

end Heom
