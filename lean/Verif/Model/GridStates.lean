import Verif.Model.Phonon
import Mathlib.Analysis.SpecialFunctions.Trigonometric.Basic

/-!
`minitn/bases/girds.py`: `GridBasis.mop` (56-72) and `GridBasis.exp` (74-97) for several states. The values `v(x)` of the potential at the points
of the grid are an array of shape `(states, states, points)`, those of the wave function an array of shape `(states, points)`.
`scipy.linalg.eigh` is a parameter. Numbers are exact.
-/

open Py
open scoped BigOperators

noncomputable section

namespace GridStates

/-- `np.einsum('ijk,jk->ik', v, f)`, girds.py 70. The sizes of `j` and `k` must agree. -/
def mop (v f : Nd ℂ) : Res (Nd ℂ) :=
  match v.shape, f.shape with
  | [n, m, p], [m', p'] =>
    if m = m' ∧ p = p' then
      .ok (Nd.ofFn [n, p] fun q => ∑ j ∈ Finset.range m, v.get [q.getD 0 0, j, q.getD 1 0] * f.get [j, q.getD 1 0])
    else .error .valueError
  | _, _ => .error .valueError

/-- The element of the list in girds.py 92-93 for one point: `a` is the matrix at this point, `vec` the vector. `exp(c * w) * ...` needs equal
lengths (broadcasting of a vector of length 1 is not modelled: `eigh` gives as many eigenvalues as rows). -/
def expPoint (eigh : Nd ℂ → Res (List ℝ × Nd ℂ)) (c : ℂ) (a : Nd ℂ) (vec : List ℂ) : Res (List ℂ) := do
  let (w, u) ← eigh a
  let x ← matVec (Heom.transpose u).conj vec
  if w.length = x.length then matVec u (List.zipWith (fun (e : ℝ) y => Complex.exp (c * e) * y) w x) else throw .valueError

/-- `exp(c, v)(f)` on the points, girds.py 88-94: `zip` stops at the shorter one. (Without points `np.transpose` of an empty list has one axis
and not two.) -/
def exp (eigh : Nd ℂ → Res (List ℝ × Nd ℂ)) (c : ℂ) (v f : Nd ℂ) : Res (Nd ℂ) := do
  let a := v.transposeCore [2, 0, 1]
  let b := f.transposeCore [1, 0]
  let rows ← (List.range (min (a.dim 0) (b.dim 0))).mapM fun k : ℕ =>
    expPoint eigh c (Nd.ofFn [a.dim 1, a.dim 2] fun q => a.get (k :: q)) ((List.range (b.dim 1)).map fun j : ℕ => b.get [k, j])
  pure (Nd.ofFn [(rows.getD 0 []).length, rows.length] fun q => (rows.getD (q.getD 1 0) []).getD (q.getD 0 0) 0)

end GridStates

end
