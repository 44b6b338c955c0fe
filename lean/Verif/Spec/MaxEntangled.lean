import Verif.Spec.Autocomplete
import Verif.Model.Normalize
import Mathlib.Data.Real.Star
import Mathlib.Analysis.Real.Sqrt

/-!
Notions for C108: a network for finite temperatures, in which every physical leaf hangs with its copy below a tensor of its own, and the
maximally entangled state.
-/

open Py

noncomputable section

namespace Heap

/-- The tensors with no tensor below them. -/
def bottoms {R : Type} (h : Heap R) (r : ℕ) (F : Forest) : List ℕ :=
  (h.tensors r F).filter fun t => (h.bonds r F).all fun e => decide (e.1 ≠ t)

/-- Below each tensor with no tensor below it there are exactly two leaves, `left t` on axis 1 and `right t` on axis 2, of the same dimension; its
axis 0 is the one towards the root. The root is not such a tensor. -/
structure Pairs {R : Type} (h : Heap R) (r : ℕ) (F : Forest) (want : ℕ × ℕ → ℕ) (left right : ℕ → ℕ) : Prop where
  root : r ∉ h.bottoms r F
  order : ∀ t ∈ h.bottoms r F, h.order t = 3
  axis : ∀ t ∈ h.bottoms r F, (h.node t).axis = some 0
  left : ∀ t ∈ h.bottoms r F, ∃ j, h.acc t 1 = some (left t, j)
  right : ∀ t ∈ h.bottoms r F, ∃ j, h.acc t 2 = some (right t, j)
  same : ∀ t ∈ h.bottoms r F, want (t, 1) = want (t, 2)

open Classical in
/-- The maximally entangled state: the two leaves of each pair have the same index, with the amplitude `1/√n` for each of the `n` indices;
the leaves on other tensors have the index 0. -/
def maxEntangled {R : Type} (h : Heap R) (r : ℕ) (F : Forest) (want : ℕ × ℕ → ℕ) (left right : ℕ → ℕ) (x : ℕ → ℕ) : ℝ :=
  ((h.bottoms r F).map fun t => if x (left t) = x (right t) then 1 / Real.sqrt (want (t, 1)) else 0).prod *
    if ∀ e ∈ F.edges r, h.isLeaf e.2.2.1 = true → e.1 ∉ h.bottoms r F → x e.2.2.1 = 0 then 1 else 0

/-- What is assumed of `np.linalg.matrix_rank`: the identity has full rank, and a square matrix of full rank has no zero row. -/
structure RankOk (rank : Nd ℝ → ℕ) : Prop where
  id : ∀ n, rank (identity n) = n
  row : ∀ (N : Nd ℝ) n, N.shape = [n, n] → rank N = n → ∀ i < n, ∃ j < n, N.get [i, j] ≠ 0

end Heap
