import Verif.Model.Corr

/-!
`minitn/heom/spd.py`: the Bose function and the spectral densities with their poles. Real and complex numbers for floating point. Frequencies
are numbers (the code also takes arrays, elementwise).
-/

open Py

namespace Spd

noncomputable section

/-- `BoseEinstein.__init__`, spd.py 27-33: what is stored as `beta`. -/
def newBose (beta : Option ℝ) : Res (Option ℝ) := match beta with
  | none => .ok none
  | some b => if 0 ≤ b then .ok (some b) else .error .assertionError

/-- `BoseEinstein.function`, spd.py 35-40. numpy gives `inf` with a warning where the denominator is 0. -/
def function (beta : Option ℝ) (w : ℝ) : Res ℝ := match beta with
  | none => .ok 1
  | some b =>
    let d := 1 - Real.exp (-b * w)
    if d = 0 then .error .runtimeWarning else .ok (1 / d)

/-- `BoseEinstein.matsubara`, spd.py 61-63: a list of `n` pairs. -/
def matsubara (n : ℕ) : Res (List (List ℝ)) := .ok ((List.range n).map fun i : ℕ => [1, 2 * Real.pi * ((i : ℝ) + 1)])

/-- `BoseEinstein.pade1`, spd.py 65-91: `_eigvalsh` (20-22) returns a list, so that `2.0 / _eigvalsh(subdiag_q)[:n]` in line 73 is a
`TypeError`. -/
def pade1 (n : ℕ) : Res (List (List ℝ)) := if n = 0 then .error .assertionError else .error .typeError

/-- `a, b = x`: a `ValueError` unless `x` has two items. -/
def unpack2 {α : Type} (x : List α) : Res (α × α) := match x with
  | [a, b] => .ok (a, b)
  | _ => .error .valueError

/-- `s.lower()` of a string, given by its characters. -/
def lower (s : List Char) : List Char := s.map Char.toLower

/-- `BoseEinstein.residues`, spd.py 42-59 -/
def residues (beta : Option ℝ) (n : ℤ) (decompMethod : List Char) : Res (List (ℂ × ℂ)) := do
  let method ← (if lower decompMethod = ['p', 'a', 'd', 'e'] then .ok pade1
    else if lower decompMethod = ['m', 'a', 't', 's', 'u', 'b', 'a', 'r', 'a'] then .ok matsubara
    else .error .notImplementedError : Res (ℕ → Res (List (List ℝ))))
  if n < 0 then .error .assertionError else
  match beta with
  | none => pure []
  | some b =>
    if n = 0 then pure [] else do
    let (residues, zetas) ← unpack2 (← method n.toNat)
    let u ← (residues.zip zetas).mapM fun x : ℝ × ℝ => do pure (← Corr.div x.1 b, ← Corr.div (-Complex.I * x.2) b)
    let v ← (residues.zip zetas).mapM fun x : ℝ × ℝ => do pure (← Corr.div x.1 b, ← Corr.div (Complex.I * x.2) b)
    pure (u ++ v)

/-- `Drude`, spd.py 131-137 -/
structure Drude where
  lam : ℝ
  gamma : ℝ

/-- `Drude.spectral_density`, spd.py 139-142 -/
def Drude.spectralDensity (D : Drude) (w : ℝ) : Res ℝ := Corr.rdiv (2 / Real.pi * D.lam * D.gamma * w) (w ^ 2 + D.gamma ^ 2)

/-- `Drude.residues`, spd.py 144-147 -/
def Drude.residues (D : Drude) : List (ℂ × ℂ) :=
  [(D.lam * D.gamma / Real.pi, -Complex.I * D.gamma), (D.lam * D.gamma / Real.pi, Complex.I * D.gamma)]

/-- `Brownian`, spd.py 150-157 -/
structure Brownian where
  lam : ℝ
  gamma : ℝ
  omega0 : ℝ

/-- `gamma**2` where `gamma` is the function imported from `math` (spd.py 9) -/
def gammaSquared : Res ℝ := .error .typeError

/-- `Brownian.spectral_density`, spd.py 159-165 -/
def Brownian.spectralDensity (B : Brownian) (w : ℝ) : Res ℝ := do
  let x ← Corr.rdiv (4 / Real.pi * B.lam * B.gamma * (B.omega0 ^ 2 + (← gammaSquared)) * w) ((w - B.omega0) ^ 2 + B.gamma ^ 2)
  Corr.rdiv x ((w + B.omega0) ^ 2 + B.gamma ^ 2)

/-- `Brownian.residues`, spd.py 167-177 -/
def Brownian.residues (B : Brownian) : Res (List (ℂ × ℂ)) :=
  [-Complex.I * (B.gamma + Complex.I * B.omega0), -Complex.I * (B.gamma - Complex.I * B.omega0), Complex.I * (B.gamma + Complex.I * B.omega0),
    Complex.I * (B.gamma - Complex.I * B.omega0)].mapM fun a : ℂ => do
      let r ← Corr.rdiv (B.lam * B.gamma * (B.omega0 ^ 2 + (← gammaSquared))) (Real.pi * B.omega0)
      pure ((r : ℂ), a)

end

end Spd
