import Verif.Lemmas.SplitArrays

/-! Specification for C134. -/

namespace Heap

variable {R : Type} [CommRing R]

/-- The decomposition keeps all singular values, also those that are 0: of an `m x n` matrix there are `min m n`. -/
def SvdFull (csvd : Svd R) : Prop :=
  ∀ (a : Nd R) (m n : ℕ) (u s vh : Nd R), a.Wf → a.shape = [m, n] → csvd a = .ok (u, s, vh) → vh.shape = [min m n, n]

/-- For each link between a tensor `c` and its parent `a`: the link has as many indices as all other links of `c` together, so that `c` spans the whole space
of its branch; and not more than the other links of `a`. -/
def CompleteTree (h : Heap R) (r : ℕ) (F : Forest) : Prop :=
  ∀ e ∈ F.edges r, h.isLeaf e.2.2.1 = false → ∀ A B, h.array e.1 = some A → h.array e.2.2.1 = some B →
    B.shape.getD e.2.2.2 1 = (B.shape.eraseIdx e.2.2.2).prod ∧ A.shape.getD e.2.1 1 ≤ (A.shape.eraseIdx e.2.1).prod

end Heap
