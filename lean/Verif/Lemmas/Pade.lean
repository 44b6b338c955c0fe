import Verif.Model.Corr
import Verif.Py.Lemmas
import Verif.Spec.Pade
import Verif.Lemmas.PadeSeries
import Verif.Lemmas.PadeRoots
import Verif.Lemmas.Autocomplete

/-!
Lemmas for C71: `Drude.pade` as a continued fraction.
-/

open scoped BigOperators Nat
open Polynomial Py

namespace Pade

theorem prod_range_list {M : Type*} [CommMonoid M] (f : ℕ → M) (n : ℕ) : ((List.range n).map f).prod = ∏ i ∈ Finset.range n, f i := by
  induction n with
  | zero => simp
  | succ n ih => rw [List.range_succ, List.map_append, List.prod_append, ih, Finset.prod_range_succ]; simp

/-- The matrices of the code. -/
theorem tri (m : ℕ) (f : ℕ → ℝ) : (PadeSpec.tridiag (List.replicate m 0) ((List.range (m - 1)).map f)).charpoly = jac m f := by
  rw [← charpoly_jacobi, ← Matrix.charpoly_reindex (finCongr (List.length_replicate (n := m) (a := (0 : ℝ))))]
  congr 1
  ext i j
  simp only [Matrix.reindex_apply, Matrix.submatrix_apply, PadeSpec.tridiag, jacobi, List.get_eq_getElem, List.getElem_replicate,
    finCongr_symm, finCongr_apply, Fin.val_cast]
  have hi := i.2
  have hj := j.2
  by_cases h : i = j
  · subst h
    rw [if_pos rfl, if_neg (by omega), if_neg (by omega)]
  · rw [if_neg (by simpa [Fin.ext_iff] using h)]
    by_cases h1 : (i : ℕ) + 1 = j
    · rw [if_pos h1, if_pos h1, List.getD_eq_getElem _ _ (by simp; omega)]; simp
    · rw [if_neg h1, if_neg h1]
      by_cases h2 : (j : ℕ) + 1 = i
      · rw [if_pos h2, if_pos h2, List.getD_eq_getElem _ _ (by simp; omega)]; simp
      · rw [if_neg h2, if_neg h2]

theorem item_range (f : ℕ → ℝ) {n i : ℕ} (h : i < n) : Corr.item ((List.range n).map f) i = .ok (f i) := by
  unfold Corr.item
  rw [List.getElem?_map, List.getElem?_range h]
  rfl

theorem foldlM_prod (g : ℕ → Res ℝ) (f : ℕ → ℝ) (i : ℕ) : ∀ (l : List ℕ), (∀ j ∈ l, j ≠ i → g j = .ok (f j)) → ∀ r : ℝ,
    l.foldlM (fun r j => if j ≠ i then (do let f ← g j; pure (r * f)) else pure r) r = (.ok (r * (l.map fun j => if j ≠ i then f j else 1).prod) : Res ℝ)
  | [], _, r => by rw [List.map_nil, List.prod_nil, mul_one]; rfl
  | j :: l, h, r => by
    rw [List.foldlM_cons]
    by_cases hj : j ≠ i
    · rw [if_pos hj, h j (by simp) hj]
      change l.foldlM _ (r * f j) = _
      rw [foldlM_prod g f i l fun k hk => h k (by simp [hk])]
      simp only [List.map_cons, List.prod_cons, if_pos hj]
      rw [mul_assoc]
    · rw [if_neg hj]
      change l.foldlM _ r = _
      rw [foldlM_prod g f i l fun k hk => h k (by simp [hk])]
      simp only [List.map_cons, List.prod_cons, if_neg hj, one_mul]

/-- The residues of the code. -/
theorem residue_ok {N : ℕ} {P : ℕ → ℝ} (Q : ℕ → ℝ) (hP : ∀ i < N + 1, ∀ j < N + 1, P i = P j → i = j) {i : ℕ} (hi : i < N + 1) :
    Corr.padeResidue (N + 1) ((List.range N).map Q) ((List.range (N + 1)).map P) i =
      .ok (0.5 * ((N + 1 : ℕ) : ℝ) * (2 * ((N + 1 : ℕ) : ℝ) + 3) *
        ((∏ k ∈ Finset.range N, (Q k - P i)) / ∏ l ∈ (Finset.range (N + 1)).erase i, (P l - P i))) := by
  have hf : ∀ j < N, ∀ k < N + 1, k ≠ i → Corr.padeFactor ((List.range N).map Q) ((List.range (N + 1)).map P) i j k =
      .ok ((Q j - P i) / (P k - P i)) := by
    intro j hj k hk hki
    unfold Corr.padeFactor
    rw [item_range Q hj, item_range P hi, item_range P hk]
    change Corr.rdiv _ _ = _
    unfold Corr.rdiv
    rw [if_neg (sub_ne_zero.2 fun h => hki (hP k hk i hi h))]
  unfold Corr.padeResidue
  simp only [Nat.add_sub_cancel]
  have hfold := fun r => foldlM_prod (fun j => Corr.padeFactor ((List.range N).map Q) ((List.range (N + 1)).map P) i j j)
    (fun j => (Q j - P i) / (P j - P i)) i (List.range N) (fun j hj hji => hf j (List.mem_range.1 hj) j (by have := List.mem_range.1 hj; omega) hji) r
  have e1 : ∏ l ∈ (Finset.range (N + 1)).erase i, (P l - P i) = (∏ l ∈ Finset.range N, if l ≠ i then P l - P i else 1) *
      if N ≠ i then P N - P i else 1 := by
    rw [← Finset.prod_range_succ (fun l => if l ≠ i then P l - P i else 1) N, ← Finset.mul_prod_erase _ _ (Finset.mem_range.2 hi), if_neg (by simp), one_mul]
    refine Finset.prod_congr rfl fun l hl => ?_
    rw [if_pos (Finset.ne_of_mem_erase hl)]
  have e2 : ∏ j ∈ Finset.range N, (if j ≠ i then (Q j - P i) / (P j - P i) else 1) =
      (∏ j ∈ Finset.range N, if j ≠ i then Q j - P i else 1) / ∏ l ∈ Finset.range N, if l ≠ i then P l - P i else 1 := by
    rw [← Finset.prod_div_distrib]
    refine Finset.prod_congr rfl fun l hl => ?_
    split_ifs <;> simp
  by_cases h : i < N
  · rw [if_pos h, hf i h N (by omega) (by omega)]
    change List.foldlM _ (_ * ((Q i - P i) / (P N - P i))) (List.range N) = _
    rw [hfold, prod_range_list, e2, e1, if_pos (by omega), ← Finset.mul_prod_erase _ (fun k => Q k - P i) (Finset.mem_range.2 h)]
    have e3 : ∏ j ∈ Finset.range N, (if j ≠ i then Q j - P i else 1) = ∏ k ∈ (Finset.range N).erase i, (Q k - P i) := by
      rw [← Finset.mul_prod_erase _ _ (Finset.mem_range.2 h), if_neg (by simp), one_mul]
      refine Finset.prod_congr rfl fun l hl => ?_
      rw [if_pos (Finset.ne_of_mem_erase hl)]
    rw [e3]
    congr 1
    rw [mul_assoc, div_mul_div_comm, mul_comm (P N - P i)]
  · have hN : i = N := by omega
    rw [if_neg h]
    change List.foldlM _ _ (List.range N) = _
    rw [hfold, prod_range_list, e2, e1, if_neg (by omega), mul_one]
    have e3 : ∏ j ∈ Finset.range N, (if j ≠ i then Q j - P i else 1) = ∏ k ∈ Finset.range N, (Q k - P i) := ?_
    · rw [e3]
    refine Finset.prod_congr rfl fun l hl => ?_
    have := Finset.mem_range.1 hl
    rw [if_pos (by omega)]

/-- The Bose function by the series. -/
theorem bose_eq {x : ℂ} (hx : x ≠ 0) (h0 : gs 0 (x ^ 2 / 4) ≠ 0) :
    PadeSpec.bose x = 1 / x + 1 / 2 + x / 4 * (gs 1 (x ^ 2 / 4) / gs 0 (x ^ 2 / 4)) := by
  have hw : x ^ 2 / 4 = (x / 2) ^ 2 := by ring
  rw [hw] at h0 ⊢
  have hs := gs_sinh (x / 2)
  have hc := gs_cosh (x / 2)
  have he : Complex.exp (x / 2) = Complex.cosh (x / 2) + Complex.sinh (x / 2) := (Complex.cosh_add_sinh _).symm
  have hem : Complex.exp (-(x / 2)) = Complex.cosh (x / 2) - Complex.sinh (x / 2) := (Complex.cosh_sub_sinh _).symm
  have e : Complex.exp (-x) = Complex.exp (-(x / 2)) / Complex.exp (x / 2) := by
    rw [← Complex.exp_sub]; congr 1; ring
  have hne := Complex.exp_ne_zero (x / 2)
  have hne2 : Complex.sinh (x / 2) ≠ 0 := by rw [← hs]; exact mul_ne_zero (by simpa using hx) h0
  unfold PadeSpec.bose
  rw [e, hem]
  rw [he] at hne ⊢
  rw [← hs] at hne hne2 ⊢
  rw [← hc] at hne ⊢
  generalize gs 0 ((x / 2) ^ 2) = g0 at *
  generalize gs 1 ((x / 2) ^ 2) = g1 at *
  have d : 1 - (g0 + (x / 2) ^ 2 * g1 - x / 2 * g0) / (g0 + (x / 2) ^ 2 * g1 + x / 2 * g0) = x * g0 / (g0 + (x / 2) ^ 2 * g1 + x / 2 * g0) := by
    rw [eq_div_iff hne, sub_mul, div_mul_cancel₀ _ hne]
    ring
  rw [d, one_div_div]
  field_simp
  ring

end Pade
