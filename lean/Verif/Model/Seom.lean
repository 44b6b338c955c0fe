import Verif.Model.Heom

/-!
`minitn/heom/seom.py`: the hierarchy of extended wave functions `c[n_0, ..., n_(K-1), q, p]` as a sum of products. Numbers are exact complex
numbers; `exp_coeff` is one-dimensional.
-/

open Py

namespace Seom

open Heom

noncomputable section

/-- `Hierachy`, seom.py 24-53. `op` and `h` are stored transposed (51-52). -/
structure Hierachy where
  nDims : List ℕ
  h : Nd ℂ
  op : Nd ℂ
  corr : Noise

/-- `Hierachy.__init__`, seom.py 27-53 -/
def init (nDims : List ℕ) (h op : Nd ℂ) (corr : Noise) : Res Hierachy := do
  if nDims.length ≠ corr.kMax then throw .assertionError
  if op.ndim ≠ 2 then throw .assertionError
  if op.shape ≠ h.shape then throw .assertionError
  pure ⟨nDims, transpose h, transpose op, corr⟩

namespace Hierachy

variable (H : Hierachy)

/-- `self._p`, seom.py 45 -/
def p : ℕ := H.nDims.length + 1

/-- `hbar`, seom.py 25 -/
def hbar : ℂ := 1

/-- `creator`, seom.py 55-60 -/
def creator (k : ℕ) : Res (Nd ℂ) := do
  let dim ← item H.nDims k
  (npEye dim 1).matmul (npDiag (sqrtArange dim))

/-- `annihilator`, seom.py 62-67 -/
def annihilator (k : ℕ) : Res (Nd ℂ) := do
  let dim ← item H.nDims k
  (npDiag (sqrtArange dim)).matmul (npEye dim (-1))

/-- `numberer`, seom.py 69-71 -/
def numberer (k : ℕ) : Res (Nd ℂ) := do
  let dim ← item H.nDims k
  pure (npDiag (arange dim))

/-- `_diff_h`, seom.py 73-76 -/
def diffH : List Term := [[(H.p, H.h)]]

/-- The body of the loop of `_diff_n`, seom.py 82-90, for the pair `(i, j)`; `close` is `np.allclose(·, 0.0)`; no term if the condition
fails. `gamma` is the diagonal matrix of `exp_coeff` (79-80). -/
def diffNPair (close : ℂ → Bool) (i j : ℕ) : Res (List Term) := do
  if ¬ (i < H.corr.exp.length ∧ j < H.corr.exp.length) then throw .indexError
  let g := if i = j then H.corr.exp.getD i 0 else 0
  if close g then pure []
  else
    let num ← H.numberer i
    let term : Term := [(i, Nd.smul (1 / 2 * Complex.I * hbar * g) num)]
    if i ≠ j then
      let at' ← H.creator i
      let a ← H.annihilator j
      pure [term ++ [(i, at'), (j, a)]]
    else pure [term]

/-- `_diff_n`, seom.py 78-91 -/
def diffN (close : ℂ → Bool) : Res (List Term) := do
  let n := H.nDims.length
  let ts ← ((List.range n).flatMap fun i => (List.range n).map fun j => (i, j)).mapM fun (i, j) => H.diffNPair close i j
  pure ts.flatten

/-- `_diff_k`, seom.py 93-101 -/
def diffK (k : ℕ) : Res (List Term) := do
  let s ← item H.corr.symm k
  let a' ← item H.corr.asymm k
  let c := s + Complex.I * a'
  let at' ← H.creator k
  let a ← H.annihilator k
  pure [[(H.p, H.op), (k, a)], [(H.p, Nd.smul c H.op), (k, at')]]

/-- `diff`, seom.py 103-113 -/
def diff (close : ℂ → Bool) : Res (List Term) := do
  let dn ← H.diffN close
  let dks ← (List.range H.nDims.length).mapM H.diffK
  pure (H.diffH ++ dn ++ dks.flatten)

end Hierachy

end

end Seom
