import Verif.Lemmas.Truncate3
import Verif.Lemmas.Overlap2
import Verif.Lemmas.Eom3
import Verif.Lemmas.Rk4
import Verif.Lemmas.Dirac

/-!
The state after a truncated `unite_split`, as the exactly moved network with the discarded columns of the root set to zero.
-/

open scoped BigOperators

open Py

namespace Heap

variable {R : Type} [CommRing R]

/-- The entry of a tensor of `n + 1` axes when one axis is set to `v`. -/
theorem entry_bond {h : Heap R} {t a n : ℕ} {X : Nd R} (hX : h.array t = some X) (hn : X.ndim = n + 1) (ha : a ≤ n)
    {σ σ' : Assign} {v : ℕ} (h1 : σ' (t, a) = v) (h2 : ∀ k, k ≠ a → σ' (t, k) = σ (t, k)) :
    h.entry σ' t = X.get ((((List.range (n + 1)).map fun k => σ (t, k)).eraseIdx a).insertIdx a v) := by
  unfold entry
  rw [hX]
  simp only
  rw [hn]
  congr 1
  refine List.ext_getElem? fun k => ?_
  rw [List.getElem?_insertIdx]
  have hlen : (((List.range (n + 1)).map fun k => σ (t, k)).eraseIdx a).length = n := by
    rw [List.length_eraseIdx_of_lt (by simp; omega)]; simp
  split
  · rename_i hk
    rw [List.getElem?_eraseIdx_of_lt hk, List.getElem?_map, List.getElem?_map, List.getElem?_range (by omega)]
    simp only [Option.map_some]
    rw [h2 k (by omega)]
  · split
    · rename_i q1 q2
      subst q2
      rw [List.getElem?_map, List.getElem?_range (by omega), if_pos (by rw [hlen]; exact ha)]
      simp only [Option.map_some, h1]
    · rename_i q1 q2
      rw [List.getElem?_eraseIdx_of_ge (by omega), show k - 1 + 1 = k by omega, List.getElem?_map, List.getElem?_map]
      by_cases hk : k < n + 1
      · rw [List.getElem?_range hk]
        simp only [Option.map_some]
        rw [h2 k (by omega)]
      · rw [List.getElem?_eq_none (by simp; omega)]; rfl

/-- The other indices of a tensor on the bond, in range. -/
theorem valid_rest {h : Heap R} {t a r : ℕ} {X : Nd R} (hX : h.array t = some X) {d : List ℕ} (hs : X.shape = d.insertIdx a r)
    (ha : a ≤ d.length) {σ : Assign} (hσ : ∀ k, k ≠ a → k < d.length + 1 → σ (t, k) < h.hdim (t, k)) :
    Valid d (((List.range (d.length + 1)).map fun k => σ (t, k)).eraseIdx a) := by
  have hlen : (((List.range (d.length + 1)).map fun k => σ (t, k)).eraseIdx a).length = d.length := by
    rw [List.length_eraseIdx_of_lt (by simp; omega)]; simp
  have hd : ∀ k, h.hdim (t, k) = (d.insertIdx a r).getD k 1 := by
    intro k; unfold hdim; rw [hX]; simp only; rw [hs]
  refine List.forall₂_iff_get.2 ⟨hlen, fun k h1 h2 => ?_⟩
  simp only [List.get_eq_getElem]
  rw [List.getElem_eraseIdx]
  split
  · rename_i hk
    have := hσ k (by omega) (by omega)
    rw [hd, List.getD_eq_getElem _ _ (by rw [List.length_insertIdx_of_le_length ha]; omega), List.getElem_insertIdx_of_lt hk] at this
    simpa using this
  · rename_i hk
    have := hσ (k + 1) (by omega) (by omega)
    rw [hd, List.getD_eq_getElem _ _ (by rw [List.length_insertIdx_of_le_length ha]; omega),
      List.getElem_insertIdx_of_gt (by omega)] at this
    simpa using this

/-- The product of the two tensors of a bond, written with the factors. -/
theorem Factor.pairSum {h : Heap R} {r i fin j n : ℕ} {ra ca : Nd R} {d1 d2 : List ℕ} {U V : ℕ → ℕ → R}
    (f : Factor ra ca d1 d2 j i n U V) (hne : r ≠ fin) (hra : h.array fin = some ra) (hca : h.array r = some ca)
    (hj : j ≤ d1.length) (hi : i ≤ d2.length) {σ : Assign}
    (v1 : Valid d1 (((List.range (d1.length + 1)).map fun k => σ (fin, k)).eraseIdx j))
    (v2 : Valid d2 (((List.range (d2.length + 1)).map fun k => σ (r, k)).eraseIdx i)) :
    h.pairSum (r, i, fin, j) σ = ∑ z ∈ Finset.range n,
      V z (ravel d2 (((List.range (d2.length + 1)).map fun k => σ (r, k)).eraseIdx i)) *
        U (ravel d1 (((List.range (d1.length + 1)).map fun k => σ (fin, k)).eraseIdx j)) z := by
  have hd : h.hdim (r, i) = n := by
    unfold hdim
    rw [hca]
    simp only
    rw [f.shapeC, List.getD_eq_getElem _ _ (by rw [List.length_insertIdx_of_le_length hi]; omega), List.getElem_insertIdx_self]
  have n1 : ra.ndim = d1.length + 1 := by unfold Nd.ndim; rw [f.shapeR, List.length_insertIdx_of_le_length hj]
  have n2 : ca.ndim = d2.length + 1 := by unfold Nd.ndim; rw [f.shapeC, List.length_insertIdx_of_le_length hi]
  unfold Heap.pairSum
  simp only
  rw [hd]
  refine Finset.sum_congr rfl fun z hz => ?_
  have hz' := Finset.mem_range.1 hz
  have hsb : ∀ p, setBond (r, i, fin, j) z σ p = if p = (fin, j) then z else if p = (r, i) then z else σ p := by
    intro p; unfold setBond Nd.upd; simp only
  rw [entry_bond hca n2 hi (σ := σ) (v := z) (by rw [hsb]; simp [hne])
      (by intro k hk; rw [hsb]; simp [hne, hk]),
    entry_bond hra n1 hj (σ := σ) (v := z) (by rw [hsb]; simp)
      (by intro k hk; rw [hsb]; simp [hne.symm, hk]),
    f.getC _ v2 z hz', f.getR _ v1 z hz']

/-- The root array with the columns from `k` on set to zero. -/
def cutAxis (A : Nd R) (j k : ℕ) : Nd R := Nd.ofFn A.shape fun p => if p.getD j 0 < k then A.get p else 0

theorem cut_factor {ra ca : Nd R} {d1 d2 : List ℕ} {i j n k : ℕ} {U V : ℕ → ℕ → R} (f : Factor ra ca d1 d2 j i n U V)
    (hj : j ≤ d1.length) : Factor (cutAxis ra j k) ca d1 d2 j i n (fun x z => if z < k then U x z else 0) V := by
  refine ⟨Nd.ofFn_wf _ _, f.wfC, f.shapeR, f.shapeC, fun p hp z hz => ?_, f.getC⟩
  unfold cutAxis
  rw [Nd.get_ofFn _ (by rw [f.shapeR]; exact hp.insertIdx j hz)]
  have : (p.insertIdx j z).getD j 0 = z := by
    rw [List.getD_eq_getElem _ _ (by rw [List.length_insertIdx_of_le_length (by rw [hp.length_eq]; exact hj)]; have := hp.length_eq; omega),
      List.getElem_insertIdx_self]
  rw [this, f.getR p hp z hz]

end Heap
