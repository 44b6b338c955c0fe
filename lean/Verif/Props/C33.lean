import Verif.Lemmas.Dmrg

/-!
C33: matrix elements and overlaps of matrix product states are the sums over all configurations of products of matrices.
-/

open Py

namespace Dmrg

variable {R : Type} [CommRing R]

/-- `mat_element(mps1, mpo, mps2)` is the sum over all physical configurations `σ` of `mps1` and `τ` of `mps2` of the product of the
matrices of `mps1` at `σ`, of `mpo` at `σ, τ` and of `mps2` at `τ`. -/
theorem C33_mat_element {ds es : List ℕ} {mps1 mpo mps2 : List (Nd R)} (h1 : IsMps ds 1 1 mps1) (ho : IsMpo ds es 1 1 mpo)
    (h2 : IsMps es 1 1 mps2) :
    matElement mps1 (some mpo) mps2 =
      .ok (sumIdx ds fun σ => sumIdx es fun τ => mpsProd mps1 σ 0 0 * mpoProd mpo σ τ 0 0 * mpsProd mps2 τ 0 0) := by
  obtain ⟨Z, e, w, sh, g⟩ := foldLeft_ok h1 ho h2 (L := one3) (by simp [one3, Nd.Wf]) rfl
  have l1 := h1.length
  have l2 := h2.length
  have lo := ho.length
  unfold matElement
  simp only [loop3_eq (fun L A W B => contractFromLeft L A (some W) B) mps1 mpo mps2 one3 (by omega) (by omega), e, ok_bind]
  have hv : Valid [1, 1, 1] [0, 0, 0] := by decide
  rw [entry, if_pos (sh ▸ hv), g _ hv]
  simp [sumIdx_cons, one3, Nd.get, ravel, chain]

/-- Contracting from the right end with `contract_from_right` gives the same number. -/
theorem C33_from_right {ds es : List ℕ} {mps1 mpo mps2 : List (Nd R)} (h1 : IsMps ds 1 1 mps1) (ho : IsMpo ds es 1 1 mpo)
    (h2 : IsMps es 1 1 mps2) :
    ∃ Z, (mps1.zip (mpo.zip mps2)).reverse.foldlM (fun Rt x => contractFromRight Rt x.1 (some x.2.1) x.2.2) one3 = .ok Z ∧
      matElement mps1 (some mpo) mps2 = entry Z [0, 0, 0] := by
  obtain ⟨Z, e, w, sh, g⟩ := foldRight_ok h1 ho h2 (Rt := one3) (by simp [one3, Nd.Wf]) rfl
  refine ⟨Z, e, ?_⟩
  have hv : Valid [1, 1, 1] [0, 0, 0] := by decide
  rw [C33_mat_element h1 ho h2, entry, if_pos (sh ▸ hv), g _ hv]
  simp [sumIdx_cons, one3, Nd.get, ravel, chain]

/-- Without an operator `mat_element` is the overlap. -/
theorem C33_overlap {ds : List ℕ} {mps1 mps2 : List (Nd R)} (h1 : IsMps ds 1 1 mps1) (h2 : IsMps ds 1 1 mps2) :
    matElement mps1 none mps2 = .ok (sumIdx ds fun σ => mpsProd mps1 σ 0 0 * mpsProd mps2 σ 0 0) := by
  obtain ⟨Z, e, w, sh, g⟩ := foldLeft2_ok h1 h2 (L := one2) (by simp [one2, Nd.Wf]) rfl
  have l1 := h1.length
  have l2 := h2.length
  unfold matElement
  rw [if_neg (by omega)]
  simp only [loop2_eq (fun L A B => contractFromLeft L A none B) mps1 mps2 one2 (by omega), e, ok_bind]
  have hv : Valid [1, 1] [0, 0] := by decide
  rw [entry, if_pos (sh ▸ hv), g _ hv]
  simp [sumIdx_cons, one2, Nd.get, ravel, overlap]

/-- The overlap contracted from the right end. -/
theorem C33_overlap_from_right {ds : List ℕ} {mps1 mps2 : List (Nd R)} (h1 : IsMps ds 1 1 mps1) (h2 : IsMps ds 1 1 mps2) :
    ∃ Z, (mps1.zip mps2).reverse.foldlM (fun Rt x => contractFromRight Rt x.1 none x.2) one2 = .ok Z ∧
      matElement mps1 none mps2 = entry Z [0, 0] := by
  obtain ⟨Z, e, w, sh, g⟩ := foldRight2_ok h1 h2 (Rt := one2) (by simp [one2, Nd.Wf]) rfl
  refine ⟨Z, e, ?_⟩
  have hv : Valid [1, 1] [0, 0] := by decide
  rw [C33_overlap h1 h2, entry, if_pos (sh ▸ hv), g _ hv]
  simp [sumIdx_cons, one2, Nd.get, ravel, overlap]

/-- States of different lengths have no overlap: an `AssertionError`. -/
theorem C33_overlap_lengths (mps1 mps2 : List (Nd R)) (h : mps1.length ≠ mps2.length) :
    matElement mps1 none mps2 = .error .assertionError := by
  unfold matElement
  rw [if_pos h]
  rfl

/-- A state that is shorter than the operator is refused. -/
theorem C33_lengths (mps1 mpo mps2 : List (Nd R)) (h : mps1.length < mpo.length ∨ mps2.length < mpo.length) (x : R) :
    matElement mps1 (some mpo) mps2 ≠ .ok x := by
  intro hx
  unfold matElement at hx
  obtain ⟨L, e, -⟩ := bind_eq_ok.1 hx
  have key := foldlM_ok_mem _ _ _ _ e
  rcases h with h | h
  · obtain ⟨u, v, e⟩ := key mps1.length (by simpa using h)
    obtain ⟨A, e1, -⟩ := bind_eq_ok.1 e
    exact absurd (item_ok e1) (by omega)
  · obtain ⟨u, v, e⟩ := key mps2.length (by simpa using h)
    obtain ⟨A, -, e⟩ := bind_eq_ok.1 e
    obtain ⟨W, -, e⟩ := bind_eq_ok.1 e
    obtain ⟨B, e1, -⟩ := bind_eq_ok.1 e
    exact absurd (item_ok e1) (by omega)

/-! A case: two sites with bond dimension 2 and an operator with bond dimension 2, on a ket with other physical dimensions. -/

def exMps1 : List (Nd ℤ) := [⟨[2, 1, 2], [1, 2, 3, 4]⟩, ⟨[2, 2, 1], [5, 6, 7, 8]⟩]
def exMps2 : List (Nd ℤ) := [⟨[3, 1, 1], [1, 2, 3]⟩, ⟨[2, 1, 1], [5, -1]⟩]
def exMpo : List (Nd ℤ) := [⟨[1, 2, 2, 3], [1, 0, 2, 0, 1, 0, 3, 0, 0, 1, 1, 1]⟩, ⟨[2, 1, 2, 2], [1, 2, 3, 4, 5, 6, 7, 8]⟩]

example : IsMps [2, 2] 1 1 exMps1 := ⟨2, rfl, 1, rfl, rfl⟩
example : IsMps [3, 2] 1 1 exMps2 := ⟨1, rfl, 1, rfl, rfl⟩
example : IsMpo [2, 2] [3, 2] 1 1 exMpo := ⟨2, rfl, 1, rfl, rfl⟩
example : matElement exMps1 (some exMpo) exMps2 = .ok 19392 := by decide +kernel
example : (sumIdx [2, 2] fun σ => sumIdx [3, 2] fun τ =>
    mpsProd exMps1 σ 0 0 * mpoProd exMpo σ τ 0 0 * mpsProd exMps2 τ 0 0) = 19392 := by decide +kernel

end Dmrg
