import Verif.Py.Basic
import Mathlib.Algebra.Field.Defs
import Mathlib.Order.Defs.LinearOrder

/-!
`minitn/lib/units.py`: unit conversion.

Floating-point numbers are modelled by the elements of an ordered field `K`: rounding, overflow, `nan` and infinities are not
modelled. The physical constants from `scipy` are parameters.
-/

namespace Units

open Py

/-- A unit: a Python `str` or `None`. -/
abbrev Name := Option String

/-- The entries of `scipy.constants.physical_constants` that units.py reads (16-30). -/
structure Constants (K : Type) where
  hartree : K
  hartreeEv : K
  hartreeInvMeter : K
  hartreeKelvin : K
  time : K
  kelvinHartree : K
  length : K
  mass : K

variable {K : Type} [Field K] [LinearOrder K]

/-- `atomic_unit_in`, units.py 13-31 -/
def atomicUnitIn (c : Constants K) : Dict Name K :=
  [(none, 1),
   (some "J", c.hartree),
   (some "eV", c.hartreeEv),
   (some "meV", 1 / 1000 * c.hartreeEv),
   (some "cm-1", 1 / 100 * c.hartreeInvMeter),
   (some "K", c.hartreeKelvin),
   (some "s", c.time),
   (some "fs", 10 ^ 15 * c.time),
   (some "ps", 10 ^ 12 * c.time),
   (some "K-1", c.kelvinHartree),
   (some "m", c.length),
   (some "pm", 10 ^ 12 * c.length),
   (some "kg", c.mass)]

/-- `synonyms`, units.py 33-40 -/
def synonyms : Dict Name (List String) :=
  [(none, ["au", "a.u."]),
   (some "K", ["kelvin"]),
   (some "eV", ["ev"]),
   (some "meV", ["mev"]),
   (some "K-1", ["inverse kelvin"]),
   (some "cm-1", ["cm^(-1), cm^{-1}"])]

/-- units.py 55-59: the first key whose synonyms contain `s`. -/
def findSynonym (s : String) : Dict Name (List String) → Option Name
  | [] => none
  | (key, l) :: d => if s ∈ l then some key else findSynonym s d

/-- `Quantity.standardize`, units.py 51-63 -/
def standardize (c : Constants K) (unit : Name) : Res Name :=
  match unit with
  | none => .ok none
  | some s =>
    if (atomicUnitIn c).contains (some s) then .ok (some s)
    else match findSynonym s synonyms with
      | some key => .ok key
      | none => .error .valueError

/-- An object of class `Quantity`. -/
structure Quantity (K : Type) where
  value : K
  unit : Name

/-- `Quantity(value, unit)`, units.py 43-49 -/
def Quantity.new (c : Constants K) (value : K) (unit : Name) : Res (Quantity K) := do
  let u ← standardize c unit
  pure ⟨value, u⟩

/-- `value_in_au`, units.py 65-67 -/
def Quantity.valueInAu (c : Constants K) (q : Quantity K) : Res K := do
  let f ← (atomicUnitIn c).get! q.unit
  pure (q.value / f)

/-- `convert_to`, units.py 69-73. The object is changed and returned; here the new object is returned. -/
def Quantity.convertTo (c : Constants K) (q : Quantity K) (unit : Name) : Res (Quantity K) := do
  let u ← standardize c unit
  let v ← q.valueInAu c
  let f ← (atomicUnitIn c).get! u
  pure ⟨v * f, u⟩

/-- `__neg__`, units.py 79-81 -/
def Quantity.neg (c : Constants K) (q : Quantity K) : Res (Quantity K) := Quantity.new c (-q.value) q.unit

/-- `__add__`, units.py 83-85 -/
def Quantity.add (c : Constants K) (p q : Quantity K) : Res (Quantity K) := do
  Quantity.new c ((← p.valueInAu c) + (← q.valueInAu c)) none

/-- `__sub__`, units.py 87-89 -/
def Quantity.sub (c : Constants K) (p q : Quantity K) : Res (Quantity K) := do
  Quantity.new c ((← p.valueInAu c) - (← q.valueInAu c)) none

/-- `__mul__`, units.py 91-93, by a number. -/
def Quantity.mul (c : Constants K) (p : Quantity K) (x : K) : Res (Quantity K) := do
  Quantity.new c ((← p.valueInAu c) * x) none

/-- `__truediv__`, units.py 95-97, by a number. -/
def Quantity.div (c : Constants K) (p : Quantity K) (x : K) : Res (Quantity K) := do
  let v ← p.valueInAu c
  if x = 0 then .error .zeroDivisionError else Quantity.new c (v / x) none

/-- What a quantity may be compared with. -/
inductive Operand (K : Type)
  | quantity (q : Quantity K)
  | number (x : K)

/-- `__eq__`, units.py 99-109 -/
def Quantity.eq (c : Constants K) (p : Quantity K) : Operand K → Res Bool
  | .quantity q => do pure (decide ((← p.valueInAu c) = (← q.valueInAu c)))
  | .number x => if x = 0 then .ok (decide (p.value = 0)) else .error .typeError

/-- `__gt__`, units.py 111-121 -/
def Quantity.gt (c : Constants K) (p : Quantity K) : Operand K → Res Bool
  | .quantity q => do pure (decide ((← p.valueInAu c) > (← q.valueInAu c)))
  | .number x => if x = 0 then .ok (decide (p.value > 0)) else .error .typeError

end Units
