import Verif.Model.Sbm
import Verif.Model.HeomDvr

/-!
`heom_h_list` of `minitn/models/sbm.py` with the argument `basis`: DVRs for some of the tiers.
-/

open Py

namespace Sbm

noncomputable section

variable {L : Type}

/-- `Hierachy.h_list`, hierachy.py 58-64, for a hierarchy with bases -/
def hListB (H : Heom.HierachyB) (sysI sysJ : L) (phIndices : List L) : Res (List (LTerm L)) := do
  let conv := phIndices ++ [sysI, sysJ]
  let ds ← H.diff
  ds.mapM fun t => t.mapM fun m => do pure (← Heom.item conv m.1, m.2)

/-- `heom_h_list`, sbm.py 97-116, with `basis`; `None` stands for a list of `None` (hierachy.py 48-49), and the length of a given list is
not checked. -/
def SpinBoson.heomHListB (S : SpinBoson) (sysI sysJ : L) (bathIndices : Option (List L)) (beta : Option ℝ)
    (basis : Option (List (Option Heom.ModeBasis))) (scale : ℂ) : Res (List (LTerm L)) := do
  let bathIndices := bathIndices.getD []
  let corr ← Corr.generateBCF S.ph S.bathCorr beta
  let heom ← Heom.Hierachy.init S.nTiers S.h S.op corr
  let basis := basis.getD (List.replicate S.nTiers.length none)
  hListB ⟨{ heom with scale := scale }, basis⟩ sysI sysJ bathIndices

end

end Sbm
