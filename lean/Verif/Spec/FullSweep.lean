import Verif.Spec.SplitProp

/-! Specification for C133. -/

namespace Sweep

/-- The time over which a sweep propagates. -/
def Cmd.time {K : Type} : Cmd K → K
  | .split tau _ => tau
  | .unite tau => tau
  | .rSplit _ tau => tau

end Sweep
