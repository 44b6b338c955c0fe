import Verif.Model.Heom
import Verif.Model.DvrFunc

/-!
`Hierachy` of `minitn/heom/hierachy.py` with a DVR as the basis of some of the modes.
-/

open Py

namespace Heom

noncomputable section

/-- An entry of `basis` that is not `None`: a sine DVR. `eigMat` is what its method `eig_mat` returns; the classes of `minitn/bases/dvr.py`
have no such method (`none`), but it can be attached to an object. -/
structure ModeBasis where
  dvr : SineDVR
  eigMat : Option (Nd ℂ)

namespace ModeBasis

variable (B : ModeBasis)

/-- The argument of `print`, hierachy.py 93-98, 111-116 and 127-133: `eig_mat().T @ ans @ eig_mat()`. Only its exceptions matter. -/
def show_ (ans : Nd ℂ) : Res Unit :=
  match B.eigMat with
  | none => .error .attributeError
  | some u => do
    let _ ← (← (transpose u).matmul ans).matmul u
    pure ()

/-- `self.basis[k].q_mat() / np.sqrt(2)` and `self.basis[k].dq_mat() / np.sqrt(2)`, hierachy.py 90-91 and 108-109 -/
def q : Nd ℂ := Nd.smul (((Real.sqrt 2)⁻¹ : ℝ) : ℂ) B.dvr.qMat
def dq : Res (Nd ℂ) := do pure (Nd.smul (((Real.sqrt 2)⁻¹ : ℝ) : ℂ) (← B.dvr.dqMat))

/-- `_raiser`, hierachy.py 89-99 -/
def raiser : Res (Nd ℂ) := do
  let ans := transpose (← B.q.sub (← B.dq))
  B.show_ ans
  pure ans

/-- `_lower`, hierachy.py 107-117 -/
def lower : Res (Nd ℂ) := do
  let ans := transpose (← B.q.add (← B.dq))
  B.show_ ans
  pure ans

/-- `_numberer`, hierachy.py 123-134: `**2` acts on each entry. -/
def numberer : Res (Nd ℂ) := do
  let n := B.dvr.gridPoints.length
  let q2 : Nd ℂ := ⟨B.dvr.qMat.shape, B.dvr.qMat.data.map fun a => a ^ 2⟩
  let dq2 ← B.dvr.dq2Mat
  let ans := transpose (Nd.smul 0.5 (← (← q2.sub dq2).sub (npEye n 0)))
  B.show_ ans
  pure ans

end ModeBasis

/-- A `Hierachy` with the argument `basis`, hierachy.py 47-50 -/
structure HierachyB extends Hierachy where
  basis : List (Option ModeBasis)

namespace HierachyB

variable (H : HierachyB)

/-- `_raiser`, hierachy.py 83-99 -/
def raiser (k : ℕ) : Res (Nd ℂ) := do
  match ← item H.basis k with
  | none => H.toHierachy.raiser k
  | some B => B.raiser

/-- `_lower`, hierachy.py 101-117 -/
def lower (k : ℕ) : Res (Nd ℂ) := do
  match ← item H.basis k with
  | none => H.toHierachy.lower k
  | some B => B.lower

/-- `_numberer`, hierachy.py 119-134 -/
def numberer (k : ℕ) : Res (Nd ℂ) := do
  match ← item H.basis k with
  | none => H.toHierachy.numberer k
  | some B => B.numberer

/-- `fk`, hierachy.py 150-153. The square root of a negative number is nan in numpy; it is 0 here (Mathlib's convention), the theorems assume
that the number is positive. -/
def fk (k : ℕ) (ck cck : ℂ) : Res ℂ := do
  match ← item H.basis k with
  | none => pure H.scale
  | some _ => pure ((Real.sqrt (((ck + cck) / 2).re) : ℝ) : ℂ)

/-- The body of the loop of `_diff`, hierachy.py 147-165 -/
def diffK (k : ℕ) : Res (List Term) := do
  let ck ← item H.corr.coeff k
  let cck ← item H.corr.conjCoeff k
  let f ← H.fk k ck cck
  let g ← item H.corr.derivative k
  let num ← H.numberer k
  let cf ← Corr.div ck f
  let r ← H.raiser k
  let l ← H.lower k
  let x ← (Nd.smul cf r).add (Nd.smul f l)
  let ccf ← Corr.div cck f
  let y ← (Nd.smul ccf r).add (Nd.smul f l)
  pure [[(k, Nd.smul g num)], [(H.i, Nd.smul (-1 * Complex.I) H.op), (k, x)], [(H.j, Nd.smul (1 * Complex.I) H.op), (k, y)]]

/-- `_diff`, hierachy.py 136-167 -/
def diff : Res (List Term) := do
  let derivative : List Term := [[(H.i, Nd.smul (-1 * Complex.I) H.h)], [(H.j, Nd.smul (1 * Complex.I) H.h)]]
  let dks ← (List.range H.nDims.length).mapM H.diffK
  pure (derivative ++ dks.flatten)

end HierachyB

end

end Heom
