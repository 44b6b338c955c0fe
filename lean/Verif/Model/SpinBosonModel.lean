import Verif.Model.SpinBoson
import Verif.Model.Phonon
import Mathlib.Analysis.SpecialFunctions.Log.Basic
import Mathlib.Analysis.SpecialFunctions.Trigonometric.Basic

/-!
`minitn/models/spinboson.py`: the constructor of `SpinBosonModel` and the methods which build its Hamiltonian.

Numbers are exact: `float`s are reals, arrays are complex. The square root of a negative number, for which numpy gives `nan` with a warning,
is 0, and a division by zero is 0; the theorems assume positive frequencies and reorganisation energies that are not negative.
`RotSpinBosonModel` (249-280) calls this constructor and repeats its body, with `including_bath=True` as default.
-/

open Py

namespace SpinBoson

noncomputable section

/-- The keyword arguments: `none` if the attribute was not set. Unknown ones are ignored (spinboson.py 49-54). Of the parameters of the
outer part only the presence matters. -/
structure Params where
  e1 : Option ℝ := none
  e2 : Option ℝ := none
  v : Option ℝ := none
  omegaList : Option (List ℝ) := none
  lambdaList : Option (List ℝ) := none
  dimList : Option (List ℕ) := none
  outer : List (Option ℝ) := List.replicate 7 none
  mu : Option ℝ := none
  tau : Option ℝ := none
  td : Option ℝ := none
  omega : Option ℝ := none

/-- `getattr(self, name)` -/
def getAttr {α : Type} (x : Option α) : Res α := match x with | some a => .ok a | none => .error .attributeError

/-- `np.array([[a, b], [c, d]])` -/
def arr2 (a b c d : ℝ) : Nd ℂ := ⟨[2, 2], [(a : ℂ), (b : ℂ), (c : ℂ), (d : ℂ)]⟩

/-- The attributes which the methods change, spinboson.py 55-60 -/
structure State where
  elecLeaf : Option String := none
  innerPrefix : Option String := none
  outerPrefix : Option String := none
  leaves : List String := []
  dimensions : Dict String ℕ := []

/-- `electron_hamiltonian`, spinboson.py 170-182, with the default name -/
def electronHamiltonian (P : Params) (s : State) : Res (State × List (Term ℂ)) := do
  let e1 ← getAttr P.e1
  let e2 ← getAttr P.e2
  let v ← getAttr P.v
  let leaf := "ELEC"
  let s := { s with elecLeaf := some leaf, leaves := s.leaves ++ [leaf], dimensions := s.dimensions.set leaf 2 }
  pure (s, [[(leaf, arr2 e1 v v e2)]])

/-- The loop of `vibration_hamiltonian`, spinboson.py 212-222, from the number `n` on. -/
def vibrationLoop (elec pre : String) : ℕ → List (ℕ × ℝ × ℝ) → State → List (Term ℂ) → Res (State × List (Term ℂ))
  | _, [], s, hs => .ok (s, hs)
  | n, (dim, omega, c) :: l, s, hs => do
    let projector := arr2 0 0 0 1
    let ph : Phonon := ⟨dim, omega, 1, 1⟩
    let leaf := pre ++ toString n
    let s := { s with leaves := s.leaves ++ [leaf], dimensions := s.dimensions.set leaf dim }
    let q ← ph.coordinate
    let hs := hs ++ [[(leaf, ph.hamiltonian)],
      [(leaf, Nd.smul ((-omega : ℝ) : ℂ) q), (elec, Nd.smul ((2 * (c / omega) : ℝ) : ℂ) projector)],
      [(elec, Nd.smul ((2 * (c / omega) ^ 2 : ℝ) : ℂ) projector)]]
    vibrationLoop elec pre (n + 1) l s hs

/-- `vibration_hamiltonian`, spinboson.py 202-223; `zip` stops at the shortest list. -/
def vibrationHamiltonian (omegaList couplingList : List ℝ) (dimList : List ℕ) (pre : String) (s : State) : Res (State × List (Term ℂ)) := do
  let elec ← getAttr s.elecLeaf
  vibrationLoop elec pre 0 (dimList.zip (omegaList.zip couplingList)) s []

/-- `a * b` of two one-dimensional numpy arrays: one of length 1 is broadcast. -/
def npMul (a b : List ℝ) : Res (List ℝ) :=
  if a.length = b.length then .ok (List.zipWith (· * ·) a b)
  else if a.length = 1 then .ok (b.map (a.getD 0 0 * ·))
  else if b.length = 1 then .ok (a.map (· * b.getD 0 0))
  else .error .valueError

/-- `inner_hamiltonian`, spinboson.py 225-229, with the default prefix -/
def innerHamiltonian (P : Params) (s : State) : Res (State × List (Term ℂ)) := do
  let omegaList ← getAttr P.omegaList
  let lambdaList ← getAttr P.lambdaList
  let dimList ← getAttr P.dimList
  let couplingList ← npMul (lambdaList.map fun x => Real.sqrt (x / 2)) omegaList
  vibrationHamiltonian omegaList couplingList dimList "I" { s with innerPrefix := some "I" }

/-- `outer_hamiltonian`, spinboson.py 231-238. The module `minitn/models/bath.py` has no attribute `bimodal_spectral_density` (it is a method
of a class in `minitn/heom/corr.py`), so line 233 raises `AttributeError`. -/
def outerHamiltonian (P : Params) (_s : State) : Res (State × List (Term ℂ)) := do
  let _ ← P.outer.mapM getAttr
  .error .attributeError

/-- The loop of `relaxation_hamiltonian`, spinboson.py 195-199, from the number `n` on. -/
def relaxationLoop (elec pre : String) : ℕ → List (ℕ × ℝ × ℝ) → List (Term ℂ) → Res (List (Term ℂ))
  | _, [], hs => .ok hs
  | n, (dim, omega, c) :: l, hs => do
    let projector := arr2 0 1 1 0
    let ph : Phonon := ⟨dim, omega, 1, 1⟩
    let leaf := pre ++ toString n
    let q ← ph.coordinate
    relaxationLoop elec pre (n + 1) l (hs ++ [[(leaf, Nd.smul (omega : ℂ) q), (elec, Nd.smul ((c / omega : ℝ) : ℂ) projector)]])

/-- `relaxation_hamiltonian`, spinboson.py 184-200 -/
def relaxationHamiltonian (P : Params) (couplingList : List ℝ) (pre : String) (s : State) : Res (List (Term ℂ)) := do
  let omegaList ← getAttr P.omegaList
  let _ ← getAttr P.lambdaList
  let dimList ← getAttr P.dimList
  let elec ← getAttr s.elecLeaf
  relaxationLoop elec pre 0 (dimList.zip (omegaList.zip couplingList)) []

/-- `field` of `td_electron_hamiltionian`, spinboson.py 158-166, without `ti_array` -/
def field (P : Params) (t : ℝ) : Res (Nd ℂ) := do
  let mu ← getAttr P.mu
  let tau ← getAttr P.tau
  let td ← getAttr P.td
  let omega ← getAttr P.omega
  let h := arr2 0 mu mu 0
  let delta := t - td
  if tau = 0 then .error .zeroDivisionError
  else
    let coeff := Real.exp (-4 * Real.log 2 * (delta / tau) ^ 2) * Real.cos (omega * delta)
    pure (Nd.smul (coeff : ℂ) h)

/-- A model after the constructor. -/
structure Model where
  state : State
  includingBath : Bool
  hList : List (Term ℂ)
  fList : List (List (String × (ℝ → Res (Nd ℂ))))

/-- `SpinBosonModel.__init__`, spinboson.py 39-68 -/
def init (P : Params) (includingBath : Bool) (relaxationList : Option (List ℝ)) : Res Model := do
  let (s, hList) ← electronHamiltonian P {}
  let (s, vib) ← innerHamiltonian P s
  let (s, vib) ← if includingBath then do
      let (s, o) ← outerHamiltonian P s
      pure (s, vib ++ o)
    else pure (s, vib)
  let hList := hList ++ vib
  let hList ← match relaxationList with
    | none => pure hList
    | some cs => do pure (hList ++ (← relaxationHamiltonian P cs "I" s))
  let elec ← getAttr s.elecLeaf
  let (h, f) ← collectElectricTerms elec (field P) hList false
  pure ⟨s, includingBath, h, f⟩

/-- `inner_leaves`, spinboson.py 240-242 -/
def Model.innerLeaves (M : Model) : Res (List String) := do
  match M.state.innerPrefix with
  | none => if M.state.leaves = [] then pure [] else .error .typeError
  | some p => pure (M.state.leaves.filter fun leaf => p.toList.isPrefixOf leaf.toList)

end

end SpinBoson
