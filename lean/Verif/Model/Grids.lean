import Verif.Py.Basic
import Mathlib.Analysis.SpecialFunctions.Trigonometric.Basic
import Mathlib.Analysis.SpecialFunctions.Complex.Circle

/-!
`minitn/bases/girds.py`: position and momentum grids and the Fourier transform between them.

Numbers are exact. Division by zero, for which numpy gives `inf` or `nan` and a warning, is modelled as `ZeroDivisionError`. `hbar` is real;
the square root of a negative number is 0 here (`nan` in numpy), and the theorems assume it positive. A wave function given as a callable is
sampled on the grid first (`as_array`); the interpolation of the result is not modelled.
-/

open Py
open scoped BigOperators

namespace Grids

noncomputable section

/-- The two classes. -/
inductive Kind
  | coordinate
  | momentum
  deriving DecidableEq

/-- `GridBasis`, girds.py 16-21: the points and `hbar`. -/
structure Basis where
  kind : Kind
  xs : List ℂ
  hbar : ℝ

/-- `np.linspace(xmin, xmax, num=npts, endpoint=True)` -/
def linspace (xmin xmax : ℂ) (npts : ℕ) : List ℂ :=
  if npts = 1 then [xmin] else (List.range npts).map fun i : ℕ => xmin + i * ((xmax - xmin) / (npts - 1))

/-- `Coordinate(xmin, xmax, npts, hbar)`, `Momentum(...)`, girds.py 16-21, 117-120, 149-152 -/
def Basis.new (kind : Kind) (xmin xmax : ℂ) (npts : ℕ) (hbar : ℝ) : Basis := ⟨kind, linspace xmin xmax npts, hbar⟩

/-- `width`, girds.py 35-37 -/
def Basis.width (b : Basis) : Res ℂ :=
  match b.xs.head?, b.xs.getLast? with
  | some x, some y => .ok (y - x)
  | _, _ => .error .indexError

open Classical in
/-- Division. -/
def div (a b : ℂ) : Res ℂ := if b = 0 then .error .zeroDivisionError else .ok (a / b)

/-- The new conjugate basis of a `Coordinate`, girds.py 126-130 -/
def conjOfCoordinate (b : Basis) : Res Basis := do
  let n := b.xs.length
  let width ← div (2 * Real.pi * b.hbar * n) (← b.width)
  let half : ℂ ← if n % 2 = 1 then pure (1 / 2) else do
    let q ← div 1 ((n : ℂ) - 1)
    pure (1 / 2 * (1 - q))
  pure (Basis.new .momentum ((half - 1) * width) (half * width) n b.hbar)

/-- The new conjugate basis of a `Momentum`, girds.py 158-160 -/
def conjOfMomentum (b : Basis) : Res Basis := do
  let n := b.xs.length
  let halfWidth ← div (Real.pi * b.hbar * n) (← b.width)
  pure (Basis.new .coordinate (-halfWidth) halfWidth n b.hbar)

/-- An object: its basis and the attribute `_conj` (`None` until the property is read). The conjugate object refers back to this one
(`co.conj = self`). -/
structure Obj where
  basis : Basis
  conj : Option Basis

/-- A new object. -/
def Obj.new (b : Basis) : Obj := ⟨b, none⟩

/-- The property `conj`, girds.py 122-133 and 154-163: the conjugate object. -/
def Obj.getConj (o : Obj) : Res Obj :=
  match o.conj with
  | some c => .ok ⟨c, some o.basis⟩
  | none => do
    let c ← (match o.basis.kind with
      | .coordinate => conjOfCoordinate o.basis
      | .momentum => conjOfMomentum o.basis)
    pure ⟨c, some o.basis⟩

/-- `fftshift` of a vector: the second half (beginning at `(n + 1) // 2`) first. -/
def fftshift (v : List ℂ) : List ℂ := v.drop ((v.length + 1) / 2) ++ v.take ((v.length + 1) / 2)

/-- `ifftshift` of a vector. -/
def ifftshift (v : List ℂ) : List ℂ := v.drop (v.length / 2) ++ v.take (v.length / 2)

/-- `fft` of a vector: `ValueError` for no data points. -/
def fft (v : List ℂ) : Res (List ℂ) :=
  if v.length = 0 then .error .valueError
  else .ok ((List.range v.length).map fun k : ℕ => ∑ j ∈ Finset.range v.length,
    v.getD j 0 * Complex.exp (-(2 * Real.pi * Complex.I * j * k / v.length)))

/-- `ifft` of a vector. -/
def ifft (v : List ℂ) : Res (List ℂ) :=
  if v.length = 0 then .error .valueError
  else .ok ((List.range v.length).map fun j : ℕ => (∑ k ∈ Finset.range v.length,
    v.getD k 0 * Complex.exp (2 * Real.pi * Complex.I * j * k / v.length)) / v.length)

/-- `ft` on one vector: `Coordinate.ft`, girds.py 140-145, and `Momentum.ft`, girds.py 170-175. -/
def Obj.ft (o : Obj) (v : List ℂ) : Res (List ℂ) := do
  let c ← o.getConj
  let root : ℂ := ((Real.sqrt (2 * Real.pi * o.basis.hbar) : ℝ) : ℂ)
  match o.basis.kind with
  | .coordinate => do
    let coeff ← div root (← c.basis.width)
    let f ← fft (ifftshift v)
    pure ((fftshift f).map (coeff * ·))
  | .momentum => do
    let coeff ← div root (← c.basis.width)
    let f ← ifft (ifftshift v)
    pure ((fftshift f).map (coeff * o.basis.xs.length * ·))

/-- `ft` on several states: `keep_ft_type`, girds.py 99-113. -/
def Obj.fts (o : Obj) (vs : List (List ℂ)) : Res (List (List ℂ)) := vs.mapM o.ft

end

end Grids
