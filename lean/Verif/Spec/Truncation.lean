import Verif.Spec.Network
import Verif.Nd.Basic

/-!
Specification: two neighbouring tensors as one matrix, and the weight of a list of singular values.
-/

open scoped BigOperators

namespace Truncation

variable {R : Type} [CommRing R]

/-- `M` is the matrix of the two tensors `A` and `B` multiplied along axis `i` of `A` and axis `j` of `B`: its rows are numbered
by the other indices of `B`, its columns by the other indices of `A`. -/
structure Merged (A B : Nd R) (i j : ℕ) (M : Nd R) : Prop where
  wf : M.Wf
  shape : M.shape = [(B.shape.eraseIdx j).prod, (A.shape.eraseIdx i).prod]
  get : ∀ p q, Valid (B.shape.eraseIdx j) p → Valid (A.shape.eraseIdx i) q →
    M.get [ravel (B.shape.eraseIdx j) p, ravel (A.shape.eraseIdx i) q] =
      ∑ v ∈ Finset.range (A.shape.getD i 1), A.get (q.insertIdx i v) * B.get (p.insertIdx j v)

/-- The sum of the squares. -/
def weight {K : Type} [CommRing K] (l : List K) : K := (l.map (· ^ 2)).sum

/-- The overlap of two states, given by their amplitudes, over all indices of the leaves. -/
def overlap [StarRing R] (L : List (ℕ × ℕ)) (f g : (ℕ → ℕ) → R) : R := Heap.sumLeaves L (fun x => f x * star (g x)) (fun _ => 0)

end Truncation
