import Verif.Model.MultiLayer
import Mathlib.Analysis.SpecialFunctions.Trigonometric.Inverse

/-!
Model of `Tensor.global_norm` and `Tensor.hilbert_angle` in `minitn/tensor.py` 372-373 and 689-696.
-/

open Py

namespace Heap

variable {R : Type} [CommRing R] [StarRing R]

/-- `for n1, n2 in zip(...): n1.aux = np.conj(n2.array)`, tensor.py 693-694. Simplification: `np.conj(None)` raises `TypeError`; here it leaves `None`. -/
def zipAux (h : Heap R) (ts1 ts2 : List ℕ) : Heap R :=
  (ts1.zip ts2).foldl (fun h p => h.setAux p.1 ((h.array p.2).map Nd.conj)) h

/-- tensor.py 693-695: the three contractions in `hilbert_angle`: the inner product and the two squared norms. -/
def overlaps (fuel : ℕ) (h : Heap R) (r1 r2 : ℕ) : Res (Heap R × R × R × R) := do
  let ts1 ← h.visitor fuel r1 (h.node r1).axis false
  let ts2 ← h.visitor fuel r2 (h.node r2).axis false
  let h := h.zipAux ts1 ts2
  let (h, ip) ← globalInnerProduct fuel h r1
  let ip ← ML.scalar ip
  let (h, s1) ← globalSquare fuel h r1
  let s1 ← ML.scalar s1
  let (h, s2) ← globalSquare fuel h r2
  let s2 ← ML.scalar s2
  pure (h, ip, s1, s2)

/-- `global_norm`, tensor.py 372-373, for real arrays. -/
noncomputable def globalNorm (fuel : ℕ) (h : Heap ℝ) (r : ℕ) : Res (Heap ℝ × ℝ) := do
  let (h, sq) ← globalSquare fuel h r
  let v ← ML.scalar sq
  pure (h, Real.sqrt v)

/-- `hilbert_angle`, tensor.py 689-696, for real arrays. `none` is `nan`: division by 0, or `np.arccos` of a number outside of `[-1, 1]`. -/
noncomputable def hilbertAngle (fuel : ℕ) (h : Heap ℝ) (r1 r2 : ℕ) : Res (Heap ℝ × Option ℝ) := do
  let (h, ip, s1, s2) ← overlaps fuel h r1 r2
  let d := Real.sqrt s1 * Real.sqrt s2
  pure (h, if d = 0 then none else if 1 < |ip / d| then none else some (Real.arccos (ip / d) / Real.pi * 180))

end Heap
