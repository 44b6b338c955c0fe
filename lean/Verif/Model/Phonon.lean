import Verif.Model.Heom

/-!
`minitn/models/particles.py`: the operators of a truncated harmonic oscillator.

Numbers are exact; vectors are lists of complex numbers (numpy arrays of shape `(n,)` with complex entries). `omega`, `mass` and `hbar` are
real. The square root of a negative number, for which numpy gives `nan` with a warning, is 0 here; the theorems that depend on it assume
positive parameters.
-/

open Py
open scoped BigOperators

noncomputable section

/-- `np.diag(v, k)` -/
def npDiagK (v : List ℂ) (k : ℤ) : Nd ℂ :=
  Nd.ofFn [v.length + k.natAbs, v.length + k.natAbs] fun p =>
    if (p.getD 1 0 : ℤ) = p.getD 0 0 + k then v.getD (min (p.getD 0 0) (p.getD 1 0)) 0 else 0

/-- `M @ v` for a matrix and a vector -/
def matVec (M : Nd ℂ) (v : List ℂ) : Res (List ℂ) :=
  match M.shape with
  | [n, m] => if m = v.length then .ok ((List.range n).map fun a => ∑ b ∈ Finset.range m, M.get [a, b] * v.getD b 0) else .error .valueError
  | _ => .error .valueError

/-- `scipy.sparse.linalg.LinearOperator`: its shape and what `matvec` and `rmatvec` call. -/
structure LinOp where
  dim : ℕ
  mv : List ℂ → Res (List ℂ)
  rmv : List ℂ → Res (List ℂ)

/-- `LinearOperator.matvec`: it checks the dimension of the argument. -/
def LinOp.matvec (o : LinOp) (v : List ℂ) : Res (List ℂ) := if v.length = o.dim then o.mv v else .error .valueError

/-- `LinearOperator.rmatvec` -/
def LinOp.rmatvec (o : LinOp) (v : List ℂ) : Res (List ℂ) := if v.length = o.dim then o.rmv v else .error .valueError

/-- `a + b`, `a - b` for arrays of one shape, and scalar multiples -/
def vadd (a b : List ℂ) : List ℂ := List.zipWith (· + ·) a b
def vsub (a b : List ℂ) : List ℂ := List.zipWith (· - ·) a b
def vsmul (c : ℂ) (a : List ℂ) : List ℂ := a.map (c * ·)

/-- `Phonon`, particles.py 17-33 -/
structure Phonon where
  dim : ℕ
  omega : ℝ
  mass : ℝ
  hbar : ℝ

namespace Phonon

variable (P : Phonon)

/-- `check_vec`, particles.py 35-39 -/
def checkVec (v : List ℂ) : Res Unit := if v.length ≠ P.dim then .error .typeError else .ok ()

/-- `np.array([np.sqrt(i) for i in range(self.dim)])`, particles.py 45 and 51 -/
def sqrts : List ℂ := (List.range P.dim).map fun i : ℕ => ((Real.sqrt i : ℝ) : ℂ)

/-- `raising`, particles.py 41-46. `ans[1:] = vec[:-1]` on zeros. -/
def raising (v : List ℂ) : Res (List ℂ) := do
  P.checkVec v
  let ans := (0 :: v.dropLast).take v.length
  pure (List.zipWith (· * ·) ans P.sqrts)

/-- `lowering`, particles.py 48-53. `ans[:-1] = tmp[1:]` on zeros. -/
def lowering (v : List ℂ) : Res (List ℂ) := do
  P.checkVec v
  let tmp := List.zipWith (· * ·) P.sqrts v
  pure ((tmp.tail ++ [0]).take v.length)

/-- `operator`, particles.py 55-60: `LinearOperator((dim, dim), matvec=rmatvec, rmatvec=rmatvec)`. -/
def operator (matvec : List ℂ → Res (List ℂ)) (rmatvec : Option (List ℂ → Res (List ℂ))) : LinOp :=
  let rmatvec := rmatvec.getD matvec
  ⟨P.dim, rmatvec, rmatvec⟩

/-- `np.sqrt(np.arange(1, self.dim))` -/
def sqrtsFromOne : List ℂ := (List.range (P.dim - 1)).map fun i : ℕ => ((Real.sqrt (i + 1 : ℕ) : ℝ) : ℂ)

/-- `creation_operator`, dense, particles.py 62-65 -/
def creation : Nd ℂ := npDiagK P.sqrtsFromOne (-1)
/-- `creation_operator`, not dense, particles.py 66-68 -/
def creationOp : LinOp := P.operator P.raising (some P.lowering)
/-- `annihilation_operator`, dense, particles.py 70-73 -/
def annihilation : Nd ℂ := npDiagK P.sqrtsFromOne 1
/-- `annihilation_operator`, not dense, particles.py 74-76 -/
def annihilationOp : LinOp := P.operator P.lowering (some P.raising)

/-- particles.py 80 -/
def coordinateCoeff : ℂ := ((Real.sqrt (P.hbar / P.mass / P.omega / 2) : ℝ) : ℂ)
/-- `coordinate_operator`, dense, particles.py 78-82 -/
def coordinate : Res (Nd ℂ) := do pure (Nd.smul P.coordinateCoeff (← P.creation.add P.annihilation))
/-- `coordinate_operator`, not dense, particles.py 83-89 -/
def coordinateOp : LinOp :=
  P.operator (fun x => do pure (vsmul P.coordinateCoeff (vadd (← P.raising x) (← P.lowering x)))) none

/-- particles.py 93 -/
def momentumCoeff : ℂ := Complex.I * ((Real.sqrt (P.hbar * P.mass * P.omega / 2) : ℝ) : ℂ)
/-- `momentum_operator`, dense, particles.py 91-95 -/
def momentum : Res (Nd ℂ) := do pure (Nd.smul P.momentumCoeff (← P.creation.sub P.annihilation))
/-- `momentum_operator`, not dense, particles.py 96-102 -/
def momentumOp : LinOp :=
  P.operator (fun x => do pure (vsmul P.momentumCoeff (vsub (← P.raising x) (← P.lowering x)))) none

/-- `number_operator`, dense, particles.py 104-107 -/
def number : Nd ℂ := npDiagK ((List.range P.dim).map fun i : ℕ => (i : ℂ)) 0
/-- `number_operator`, not dense, particles.py 108-114 -/
def numberOp : LinOp := P.operator (fun x => do P.raising (← P.lowering x)) none

/-- particles.py 118 -/
def hamiltonianCoeff : ℂ := ((P.hbar * P.omega : ℝ) : ℂ)
/-- `hamiltonian`, dense, particles.py 116-120 -/
def hamiltonian : Nd ℂ := npDiagK ((List.range P.dim).map fun i : ℕ => P.hamiltonianCoeff * (1 / 2 + (i : ℂ))) 0
/-- `hamiltonian`, not dense, particles.py 121-127 -/
def hamiltonianOp : LinOp :=
  P.operator (fun x => do pure (vsmul P.hamiltonianCoeff (vadd (← P.raising (← P.lowering x)) (vsmul (1 / 2) x)))) none

end Phonon

end
