import Verif.Model.Phonon
import Mathlib.Analysis.SpecialFunctions.Trigonometric.Basic

/-!
`minitn/bases/dvr.py`: the sine DVR (`DVR`, `SineDVR`, `FastSineDVR`).

Numbers are exact; matrices and vectors have complex entries (numpy's are real or complex). `lower_bound`, `upper_bound`, `hbar` and `m_e`
are real. The theorems assume that the interval has positive length and `m_e` is not 0, so that no division by zero occurs.
-/

open Py
open scoped BigOperators

noncomputable section

/-- `SineDVR`, dvr.py 576-614: `a`, `b` are the bounds, `n` the number of points; `vFunc` and `hCache` are the attributes `v_func` and
`_h_mat` of `DVR` (dvr.py 91-105). -/
structure SineDVR where
  a : ℝ
  b : ℝ
  n : ℕ
  hbar : ℝ
  me : ℝ
  vFunc : Option (List ℝ → Res (List ℂ))
  hCache : Option (Nd ℂ)

namespace SineDVR

variable (D : SineDVR)

/-- dvr.py 613 -/
def length : ℝ := D.b - D.a

/-- `grid_points`, dvr.py 618-620 -/
def gridPoints : List ℝ := (List.range D.n).map fun i : ℕ => D.a + D.length / (D.n + 1) * (i + 1)

/-- `_u_mat`, dvr.py 622-625 -/
def uMat : Nd ℂ := Nd.ofFn [D.n, D.n] fun p =>
  ((Real.sqrt (2 / (D.n + 1)) * Real.sin (((p.getD 0 0 : ℝ) + 1) * ((p.getD 1 0 : ℝ) + 1) * Real.pi / (D.n + 1)) : ℝ) : ℂ)

/-- `dvr2fbr_vec`, dvr.py 203-214 -/
def dvr2fbrVec (v : List ℂ) : Res (List ℂ) := matVec D.uMat v

/-- `fbr2dvr_vec`, dvr.py 257-269 -/
def fbr2dvrVec (v : List ℂ) : Res (List ℂ) := matVec (Heom.transpose D.uMat) v

/-- `dvr2fbr_mat`, dvr.py 190-201 -/
def dvr2fbrMat (M : Nd ℂ) : Res (Nd ℂ) := do D.uMat.matmul (← M.matmul (Heom.transpose D.uMat))

/-- `fbr2dvr_mat`, dvr.py 244-255 -/
def fbr2dvrMat (M : Nd ℂ) : Res (Nd ℂ) := do (Heom.transpose D.uMat).matmul (← M.matmul D.uMat)

/-- `np.diag(-(j * np.pi / self.length)**2)`, dvr.py 648-649 and 661-662 -/
def lapDiag : Nd ℂ := npDiagK ((List.range D.n).map fun j : ℕ => ((-((((j : ℝ) + 1) * Real.pi / D.length) ^ 2) : ℝ) : ℂ)) 0

/-- `dq2_mat`, dvr.py 640-651 -/
def dq2Mat : Res (Nd ℂ) := D.fbr2dvrMat D.lapDiag

/-- `t_mat`, dvr.py 653-664 -/
def tMat : Res (Nd ℂ) := do
  let factor : ℂ := ((-(D.hbar ^ 2) / (2 * D.me) : ℝ) : ℂ)
  pure (Nd.smul factor (← D.fbr2dvrMat D.lapDiag))

/-- The values `self.v_func(self.grid_points)`, dvr.py 132 and 836. `v_func` is `None` before `set_v_func`: `TypeError`. -/
def potential : Res (List ℂ) :=
  match D.vFunc with
  | none => .error .typeError
  | some f => f D.gridPoints

/-- `v_mat`, dvr.py 123-134 -/
def vMat : Res (Nd ℂ) := do pure (npDiagK (← D.potential) 0)

/-- `h_mat`, dvr.py 146-156 -/
def hMat : Res (Nd ℂ) :=
  match D.hCache with
  | some M => .ok M
  | none => do (← D.tMat).add (← D.vMat)

/-- `set_v_func`, dvr.py 106-115 -/
def setVFunc (f : List ℝ → Res (List ℂ)) : SineDVR := { D with vFunc := some f, hCache := none }

/-- `solve`, dvr.py 158-188: only its effect on the object's matrix, `self._h_mat = self.h_mat()`; the eigensolver that follows may fail, and
whether it does not matter for the attribute. If `h_mat` raises, nothing is changed. -/
def solve : SineDVR :=
  match D.hMat with
  | .ok M => { D with hCache := some M }
  | .error _ => D

/-- `scipy.fftpack.dst(v, type=1)` -/
def dst1 (v : List ℂ) : List ℂ := (List.range v.length).map fun k : ℕ =>
  2 * ∑ j ∈ Finset.range v.length, v.getD j 0 * ((Real.sin (Real.pi * ((k : ℝ) + 1) * ((j : ℝ) + 1) / (v.length + 1)) : ℝ) : ℂ)

/-- `self.hbar * j * np.pi / self.length)**2 / (2 * self.m_e)`, dvr.py 838 -/
def tDiag : List ℂ := (List.range D.n).map fun j : ℕ => (((D.hbar * ((j : ℝ) + 1) * Real.pi / D.length) ^ 2 / (2 * D.me) : ℝ) : ℂ)

/-- `_Hamiltonian._matvec` of `FastSineDVR.h_mat`, dvr.py 821-831 -/
def fastMatvec (v t vec : List ℂ) : List ℂ :=
  let t := t.map (· / (2 * ((v.length : ℂ) + 1)))
  let vec1 := List.zipWith (· * ·) v vec
  let vec2 := dst1 (List.zipWith (· * ·) t (dst1 vec))
  vadd vec1 vec2

/-- `FastSineDVR.h_mat`, dvr.py 803-839, if `_h_mat` is `None`. -/
def fastHMat : Res LinOp := do
  let v ← D.potential
  pure ⟨v.length, fun vec => .ok (fastMatvec v D.tDiag vec), fun vec => .ok (fastMatvec v D.tDiag vec)⟩

end SineDVR

end
