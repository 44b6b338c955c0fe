/-!
Python values used by the model: exceptions and insertion-ordered dictionaries.
-/

namespace Py

/-- Exceptions raised by the modelled code (or by the numpy/builtin calls it makes).
`outOfFuel` is not a Python exception: it marks an unfinished run of the model of a
recursion or loop whose termination is not structural. -/
inductive Err
  | keyError
  | indexError
  | runtimeError
  | runtimeWarning
  | typeError
  | valueError
  | attributeError
  | assertionError
  | unboundLocalError
  | notImplementedError
  | stopIteration
  | zeroDivisionError
  | axisError
  | outOfFuel
  deriving DecidableEq, Repr

/-- Result of a Python call. -/
abbrev Res (α : Type _) := Except Err α

/-- A Python `dict`: key/value pairs in insertion order. -/
abbrev Dict (κ : Type _) (ν : Type _) := List (κ × ν)

namespace Dict

variable {κ ν : Type _} [DecidableEq κ]

/-- `d.get(k)` -/
def get? : Dict κ ν → κ → Option ν
  | [], _ => none
  | (k', v) :: d, k => if k' = k then some v else get? d k

/-- `d[k] = v`: overwrites in place, or appends. -/
def set : Dict κ ν → κ → ν → Dict κ ν
  | [], k, v => [(k, v)]
  | (k', v') :: d, k, v => if k' = k then (k, v) :: d else (k', v') :: set d k v

/-- `d.pop(k)` / `del d[k]` (the dictionary part; nothing happens if `k` is missing,
callers raise `KeyError` themselves). -/
def del : Dict κ ν → κ → Dict κ ν
  | [], _ => []
  | (k', v') :: d, k => if k' = k then d else (k', v') :: del d k

/-- `list(d)` -/
def keys (d : Dict κ ν) : List κ := d.map Prod.fst

/-- `k in d` -/
def contains (d : Dict κ ν) (k : κ) : Bool := (get? d k).isSome

/-- `d[k]`, raising `KeyError` -/
def get! (d : Dict κ ν) (k : κ) : Res ν :=
  match get? d k with
  | some v => .ok v
  | none => .error .keyError

/-- The representation invariant of a dictionary: every key occurs once. -/
def Wf (d : Dict κ ν) : Prop := (keys d).Nodup

end Dict

end Py
