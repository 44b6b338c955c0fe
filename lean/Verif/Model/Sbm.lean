import Verif.Model.Phonon

/-!
`minitn/models/sbm.py`: the sums of products of a system coupled to oscillators and to a bath; `h_list` of `minitn/heom/hierachy.py`.

Labels of the indices are of an arbitrary type. The default `bath_corr = []` is false for `generate_BCF`, like `None`; a given correlation
function is an object without `__bool__` or `__len__` and so is true. `basis` is `None` here; see `Model/SbmBasis`. `dense_h` is in `Model/SbmDense`.
-/

open Py

namespace Sbm

noncomputable section

/-- A term of a sum of products, with labels of the user. -/
abbrev LTerm (L : Type) := List (L × Nd ℂ)

/-- `Hierachy.h_list`, hierachy.py 58-64 -/
def hList {L : Type} (H : Heom.Hierachy) (sysI sysJ : L) (phIndices : List L) : Res (List (LTerm L)) := do
  let conv := phIndices ++ [sysI, sysJ]
  let ds ← H.diff
  ds.mapM fun t => t.mapM fun m => do pure (← Heom.item conv m.1, m.2)

/-- `SpinBoson`, sbm.py 32-52 -/
structure SpinBoson where
  h : Nd ℂ
  op : Nd ℂ
  ph : List (ℝ × ℝ)
  phDims : List ℕ
  bathCorr : Option Corr.Correlation
  bathDims : List ℕ

namespace SpinBoson

/-- `SpinBoson.__init__`, sbm.py 32-52 -/
def init (h op : Nd ℂ) (ph : List (ℝ × ℝ)) (phDims : List ℕ) (bathCorr : Option Corr.Correlation) (bathDims : Option (List ℕ)) : SpinBoson :=
  ⟨h, op, ph, phDims, bathCorr, bathDims.getD []⟩

variable {L : Type} (S : SpinBoson)

/-- The body of the loops of `wfn_h_list` (sbm.py 60-65) and of `do_l_list` (79-84 and 88-93), with the factor `c` = `∓1.0j`. -/
def phTerms (c : ℂ) (sysIndex phIndex : L) (omega g : ℝ) (d : ℕ) : Res (List (LTerm L)) := do
  let ph : Phonon := ⟨d, omega, 1, 1⟩
  let op ← ph.annihilation.add ph.creation
  pure [[(phIndex, Nd.smul c ph.hamiltonian)], [(phIndex, Nd.smul g op), (sysIndex, Nd.smul c S.op)]]

/-- The loops: `zip` stops at the shortest of the three lists. -/
def phLoop (c : ℂ) (sysIndex : L) (phIndices : List L) : Res (List (LTerm L)) := do
  let tss ← (phIndices.zip (S.ph.zip S.phDims)).mapM fun x => S.phTerms c sysIndex x.1 x.2.1.1 x.2.1.2 x.2.2
  pure tss.flatten

/-- `wfn_h_list`, sbm.py 54-67 -/
def wfnHList (sysIndex : L) (phIndices : List L) : Res (List (LTerm L)) := do
  pure ([(sysIndex, Nd.smul (-1 * Complex.I) S.h)] :: (← S.phLoop (-1 * Complex.I) sysIndex phIndices))

/-- `do_l_list`, sbm.py 69-95 -/
def doLList (sysI sysJ : L) (phIs phJs : List L) : Res (List (LTerm L)) := do
  let l : List (LTerm L) := [[(sysI, Nd.smul (-1 * Complex.I) S.h)], [(sysJ, Nd.smul (1 * Complex.I) S.h)]]
  let li ← S.phLoop (-1 * Complex.I) sysI phIs
  let lj ← S.phLoop (1 * Complex.I) sysJ phJs
  pure (l ++ li ++ lj)

/-- `list(np.repeat(self.ph_dims, 2)) + self.bath_dims`, sbm.py 109-110 -/
def nTiers : List ℕ := S.phDims.flatMap (List.replicate 2) ++ S.bathDims

/-- `heom_h_list`, sbm.py 97-116, with `basis=None`; `bathIndices` is `[]` for `None` (104-105). -/
def heomHList (sysI sysJ : L) (bathIndices : Option (List L)) (beta : Option ℝ) (scale : ℂ) : Res (List (LTerm L)) := do
  let bathIndices := bathIndices.getD []
  let corr ← Corr.generateBCF S.ph S.bathCorr beta
  let heom ← Heom.Hierachy.init S.nTiers S.h S.op corr
  let heom := { heom with scale := scale }
  hList heom sysI sysJ bathIndices

/-- `heom_h_list2`, sbm.py 118-129. The attribute `diff_type`, set in 127, is not read anywhere. -/
def heomHList2 (sysI sysJ : L) (bathIndices : Option (List L)) (beta : Option ℝ) : Res (List (LTerm L)) := do
  let bathIndices := bathIndices.getD []
  let corr ← Corr.generateBCF S.ph S.bathCorr beta
  let heom ← Heom.Hierachy.init S.nTiers S.h S.op corr
  hList heom sysI sysJ bathIndices

end SpinBoson

end

end Sbm
