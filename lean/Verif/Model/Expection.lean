import Verif.Model.MultiLayer
import Mathlib.Data.Complex.Basic

/-!
Model of the last lines of `expection` in `minitn/algorithms/ml.py` 334-344, which return a real number. (`expection` of
`minitn/heom/propagate.py` 341-350 ends before them: it is `ML.expection`.)
-/

open Py

namespace ML

variable {T : Type} [Zero T]

/-- `expection` of a state over ℂ, ml.py 334-344. A division by the squared norm 0 gives `nan`, on which `np.testing.assert_almost_equal` fails; the same
function accepts an imaginary part below `1.5 * 10^-7` in absolute value. -/
noncomputable def expectionReal (fuel : ℕ) (normalized : Bool) (op : Option (List (Term T ℂ))) (s : Obj T ℂ) : Res (Obj T ℂ × ℝ) := do
  let (s, ans) ← termVisitor fuel false op false (fun _ x => do
    let (h, ans) ← Heap.expection fuel x.1.heap x.1.root
    let v ← scalar ans
    pure ({ x.1 with heap := h }, x.2 + v)) s 0
  let (s, ans) ← if normalized then do
      let (h, sq) ← Heap.globalSquare fuel s.heap s.root
      let v ← scalar sq
      if v = 0 then throw .assertionError
      pure (({ s with heap := h } : Obj T ℂ), ans / v)
    else pure (s, ans)
  if 15 / 100000000 ≤ |ans.im| then throw .assertionError
  pure (s, ans.re)

end ML
