import Verif.Model.Noise

/-!
`minitn/heom/noise.py`: `Drude` as an object with state, and `lazyproperty` of `minitn/lib/tools.py` (19-30), which computes a value when it
is read for the first time and then stores it on the object under the same name.
-/

open Py

namespace DrudeNoise

noncomputable section

/-- The state of a `Drude` object: the parameters, those that the closure `spectrum` holds (noise.py 73, 24-30), and the stored values of the
three properties. -/
structure State where
  params : Drude
  captured : Drude
  exp : Option (List ℝ)
  symm : Option (List ℝ)
  asymm : Option (List ℝ)

/-- A computation that may fail and may change the object (also if it fails). -/
abbrev Act (α : Type) := State → Res α × State

/-- Sequence: an error ends the computation and keeps the changes made so far. -/
def Act.bind {α β : Type} (x : Act α) (f : α → Act β) : Act β := fun s =>
  match x s with
  | (.ok a, s') => f a s'
  | (.error e, s') => (.error e, s')

/-- A computation that does not touch the object. -/
def Act.lift {α : Type} (r : Res α) : Act α := fun s => (r, s)

/-- A list comprehension. -/
def Act.forEach {α β : Type} (f : α → Act β) : List α → Act (List β)
  | [] => Act.lift (.ok [])
  | x :: l => (f x).bind fun y => (Act.forEach f l).bind fun ys => Act.lift (.ok (y :: ys))

/-- `Drude.__init__`, noise.py 64-74 -/
def newState (D : Drude) : State := ⟨D, D, none, none, none⟩

/-- `lazyproperty.__get__`, tools.py 23-29: the stored value hides the property. -/
def lazyGet {α : Type} (stored : State → Option α) (store : α → State → State) (func : Act α) : Act α := fun s =>
  match stored s with
  | some v => (.ok v, s)
  | none => (func.bind fun v => fun s' => (.ok v, store v s')) s

/-- Reading `exp_coeff`, noise.py 76-88 -/
def readExp : Act (List ℝ) := lazyGet State.exp (fun v s => { s with exp := some v }) fun s => (expCoeff s.params, s)

/-- `_s(k)`, noise.py 94-99 -/
def symmOne (bh : ℝ) (k : ℕ) : Act ℝ := fun s =>
  if k = 0 then (Corr.rdiv (s.params.omega0 * s.params.lam) (Real.tan (bh * s.params.omega0 / 2)), s) else
    (readExp.bind fun e => fun s' => ((do
      let g ← Corr.item e k
      Corr.rdiv (2 * (← spectrum s'.captured g)) bh), s')) s

/-- Reading `symm_coeff`, noise.py 90-101 -/
def readSymm : Act (List ℝ) := lazyGet State.symm (fun v s => { s with symm := some v }) fun s =>
  ((Act.lift (betaHbar s.params)).bind fun bh => Act.forEach (symmOne bh) (List.range s.params.kMax)) s

/-- Reading `asymm_coeff`, noise.py 103-113 -/
def readAsymm : Act (List ℝ) := lazyGet State.asymm (fun v s => { s with asymm := some v }) fun s => (.ok (asymmCoeff s.params), s)

/-- What a user does with the object: read a property or write the parameters. -/
inductive Op
  | exp
  | symm
  | asymm
  | write (D : Drude)

/-- The value of a read (`[]` for a write) and the new state. -/
def step : Op → Act (List ℝ)
  | .exp => readExp
  | .symm => readSymm
  | .asymm => readAsymm
  | .write D => fun s => (.ok [], { s with params := D })

/-- A history. -/
def runOps : List Op → State → State
  | [], s => s
  | o :: l, s => runOps l (step o s).2

end

end DrudeNoise
