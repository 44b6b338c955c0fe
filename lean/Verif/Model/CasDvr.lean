import Verif.Model.BasisFunc
import Verif.Model.SineDvr
import Mathlib.MeasureTheory.Integral.IntervalIntegral.Basic

/-!
`minitn/lib/symbolic.py`: operators and their matrices; `minitn/bases/dvr.py`: `CasDVR`.

A sympy expression in `x` is the function it denotes. `sym.integrate` and `quad` are exact, or the caller's (`quad`): the theorems say which.
`scipy.linalg.eigh` is a parameter.
-/

open Py MeasureTheory
open scoped BigOperators

noncomputable section

namespace Symbolic

/-- `prod_op(f(x))`, symbolic.py 60-63: multiplication with a function -/
def prodOp (f y : ℝ → ℝ) : ℝ → ℝ := fun x => f x * y x

/-- `diff(n)`, symbolic.py 66-70 -/
def diff (n : ℕ) (y : ℝ → ℝ) : ℝ → ℝ := iteratedDeriv n y

/-- `matrix_element(i, op, j, cut_off, num_prec)`, symbolic.py 73-88: without `num_prec` the integral over the line or over `cut_off`, with it the
numerical quadrature (numerical.py 111-127), over `cut_off` or from -10⁴ to 10⁴. -/
def matrixElement (quad : (ℝ → ℝ) → ℝ → ℝ → ℕ → ℝ) (i : ℝ → ℝ) (op : (ℝ → ℝ) → ℝ → ℝ) (j : ℝ → ℝ) (cutOff : Option (ℝ × ℝ))
    (numPrec : Option ℕ) : ℝ :=
  let prod : ℝ → ℝ := fun x => i x * op j x
  match numPrec with
  | none =>
    match cutOff with
    | none => ∫ x, prod x
    | some interval => ∫ x in interval.1..interval.2, prod x
  | some p =>
    match cutOff with
    | none => quad prod (-1e4) 1e4 p
    | some interval => quad prod interval.1 interval.2 p

/-- `matrix_repr(op, basis, cut_off, num_prec)`, symbolic.py 91-104. The loops compute the element for each pair `j ≤ i` and write it to both places. -/
def matrixRepr (quad : (ℝ → ℝ) → ℝ → ℝ → ℕ → ℝ) (op : (ℝ → ℝ) → ℝ → ℝ) (basis : List (ℝ → ℝ)) (cutOff : Option (ℝ × ℝ))
    (numPrec : Option ℕ) : Nd ℂ :=
  Nd.ofFn [basis.length, basis.length] fun p =>
    let i : ℕ := max (p.getD 0 0) (p.getD 1 0)
    let j : ℕ := min (p.getD 0 0) (p.getD 1 0)
    ((matrixElement quad (basis.getD i fun _ => 0) op (basis.getD j fun _ => 0) cutOff numPrec : ℝ) : ℂ)

end Symbolic

/-- The arguments of `CasDVR`, dvr.py 500-511; `f` and `inv` are `trans_func_pair`. -/
structure CasArgs where
  basis : List (ℝ → ℝ)
  cutOff : Option (ℝ × ℝ)
  f : Option (ℝ → ℝ)
  inv : Option (ℝ → ℝ)
  numPrec : Option ℕ
  hbar : ℝ
  me : ℝ

/-- The object: its arguments, `grid_points` and `_u_mat`. -/
structure CasDVR extends CasArgs where
  grid : List ℝ
  uMat : Nd ℂ

namespace CasDVR

/-- A real matrix as a complex one. -/
def cast (u : Nd ℝ) : Nd ℂ := ⟨u.shape, u.data.map fun x : ℝ => (x : ℂ)⟩

/-- `_sym_calc_q_mat`, dvr.py 513-528 (`id_op` if no function is given) -/
def qMatrix (quad : (ℝ → ℝ) → ℝ → ℝ → ℕ → ℝ) (A : CasArgs) : Nd ℂ :=
  Symbolic.matrixRepr quad (Symbolic.prodOp (A.f.getD fun x => x)) A.basis A.cutOff A.numPrec

/-- `__init__` and `_calculate_dvr`, dvr.py 500-541 -/
def create (quad : (ℝ → ℝ) → ℝ → ℝ → ℕ → ℝ) (eigh : Nd ℂ → Res (List ℝ × Nd ℝ)) (A : CasArgs) : Res CasDVR := do
  let (x, u) ← eigh (qMatrix quad A)
  pure { A with grid := x.map (A.inv.getD fun x => x), uMat := cast u }

/-- `n`, dvr.py 98 -/
def n (D : CasDVR) : ℕ := D.basis.length

/-- `dvr2fbr_vec`, dvr.py 203-214 -/
def dvr2fbrVec (D : CasDVR) (v : List ℂ) : Res (List ℂ) := matVec D.uMat v

/-- `fbr2dvr_mat`, dvr.py 245-256 -/
def fbr2dvrMat (D : CasDVR) (M : Nd ℂ) : Res (Nd ℂ) := do (Heom.transpose D.uMat).matmul (← M.matmul D.uMat)

/-- `t_mat`, dvr.py 543-558 -/
def tMat (quad : (ℝ → ℝ) → ℝ → ℝ → ℕ → ℝ) (D : CasDVR) : Res (Nd ℂ) := do
  let factor : ℂ := ((-(D.hbar ^ 2) / (2 * D.me) : ℝ) : ℂ)
  let t := Symbolic.matrixRepr quad (Symbolic.diff 2) D.basis D.cutOff D.numPrec
  pure (Nd.smul factor (← D.fbr2dvrMat t))

/-- `fbr2cont`, dvr.py 272-291, with `CasDVR.fbr_func`, dvr.py 560-573 -/
def fbr2cont (D : CasDVR) (vec : List ℂ) (x : ℝ) : Res ℂ :=
  (List.range D.n).foldlM (fun (psi : ℂ) (j : ℕ) =>
    match vec[j]? with
    | none => .error .indexError
    | some c => .ok (psi + ((D.basis.getD j fun _ => 0) x : ℂ) * c)) 0

/-- `dvr2cont`, dvr.py 216-229 -/
def dvr2cont (D : CasDVR) (vec : List ℂ) : Res (ℝ → Res ℂ) := do
  let vec ← D.dvr2fbrVec vec
  pure (D.fbr2cont vec)

end CasDVR

end
