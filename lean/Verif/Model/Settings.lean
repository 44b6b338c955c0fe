import Verif.Py.Basic
import Mathlib.Data.Nat.Notation

/-!
Model of `MultiLayer.settings`, `minitn/algorithms/ml.py` 63-96 (`minitn/heom/propagate.py` has the same code), and of the lookup of attributes it
relies on. Classes and objects are numbers. Names are lists of characters, values of attributes (numbers, strings, functions, methods) are of any
type. Attributes of the metaclass and the attributes `__slots__`, `__getattr__` and descriptors are left out.
-/

open Py

namespace Settings

/-- The `__dict__` of each class and its `__mro__` (the class itself first), the class and the `__dict__` of each object. -/
structure World (V : Type) where
  attrs : ℕ → Dict (List Char) V
  mro : ℕ → List ℕ
  cls : ℕ → ℕ
  inst : ℕ → Dict (List Char) V

variable {V : Type}

/-- `getattr(cls, name)`: the first class in the method resolution order that has it. -/
def lookup (attrs : ℕ → Dict (List Char) V) (name : List Char) : List ℕ → Option V
  | [] => none
  | c :: cs => match Dict.get? (attrs c) name with
    | some v => some v
    | none => lookup attrs name cs

/-- `getattr(cls, name)`, `none` for `AttributeError`. -/
def classAttr (w : World V) (c : ℕ) (name : List Char) : Option V := lookup w.attrs name (w.mro c)

/-- `getattr(obj, name)`, as in `self.hbar`: the object's own attribute, or that of its class. -/
def objAttr (w : World V) (o : ℕ) (name : List Char) : Option V :=
  match Dict.get? (w.inst o) name with
  | some v => some v
  | none => classAttr w (w.cls o) name

/-- `setattr(cls, name, value)` -/
def setClass (w : World V) (c : ℕ) (name : List Char) (value : V) : World V :=
  { w with attrs := fun c' => if c' = c then (w.attrs c).set name value else w.attrs c' }

/-- `settings(cls, **kwargs)`, ml.py 92-96, with the state that is left also when an exception is raised. Called on an object, as in
`solver.settings(...)`, `cls` is the class of the object. -/
def settings (c : ℕ) : Dict (List Char) V → World V → World V × Res Unit
  | [], w => (w, .ok ())
  | (name, value) :: kwargs, w =>
    match classAttr w c name with
    | none => (w, .error .attributeError)
    | some _ => settings c kwargs (setClass w c name value)

end Settings
