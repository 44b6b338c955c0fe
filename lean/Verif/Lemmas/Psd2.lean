import Verif.Lemmas.Psd

/-!
Lemmas for C75: `PSD` with `pade` 1 and 2.
-/

open scoped BigOperators Nat
open Polynomial Py

namespace Pade

/-- `temp` -/
noncomputable def tk (bf : ℕ) : ℝ := if bf = 1 then 3 else 1

/-- The partial denominators. -/
noncomputable def bk (bf i : ℕ) : ℝ := tk bf + 2 * i

theorem tk_pos (bf : ℕ) : 0 < tk bf := by unfold tk; split_ifs <;> norm_num

theorem bk_pos (bf i : ℕ) : 0 < bk bf i := by
  unfold bk
  have := tk_pos bf
  positivity

/-- The solutions of the recurrence. -/
noncomputable def hk (bf j : ℕ) (w : ℂ) : ℂ := if bf = 1 then gs j w else match j with
  | 0 => gs 0 w + w * gs 1 w
  | j + 1 => gs j w

theorem hk_rec (bf : ℕ) (w : ℂ) (j : ℕ) : hk bf j w = ((bk bf j : ℝ) : ℂ) * hk bf (j + 1) w + w * hk bf (j + 2) w := by
  unfold hk bk tk
  by_cases h : bf = 1
  · simp only [if_pos h]
    rw [gs_rec]
    push_cast
    ring
  · simp only [if_neg h]
    cases j with
    | zero => simp
    | succ j =>
      dsimp only
      rw [gs_rec w j]
      push_cast
      ring

/-- The functions by the series. -/
theorem target_eq {bf : ℕ} {x : ℂ} (hx : x ≠ 0) (h0 : hk bf 0 (x ^ 2 / 4) ≠ 0) :
    BoseFermiSpec.target bf x = (if bf = 1 then 1 / x else 0) + 1 / 2 + x / 4 * (hk bf 1 (x ^ 2 / 4) / hk bf 0 (x ^ 2 / 4)) := by
  unfold hk at h0 ⊢
  unfold BoseFermiSpec.target
  by_cases h : bf = 1
  · simp only [if_pos h] at h0 ⊢
    exact bose_eq hx h0
  · simp only [if_neg h] at h0 ⊢
    have hw : x ^ 2 / 4 = (x / 2) ^ 2 := by ring
    have hs := gs_sinh (x / 2)
    have hc := gs_cosh (x / 2)
    rw [hw] at h0 ⊢
    rw [hc] at h0 ⊢
    have he : Complex.exp (x / 2) = Complex.cosh (x / 2) + Complex.sinh (x / 2) := (Complex.cosh_add_sinh _).symm
    have hem : Complex.exp (-(x / 2)) = Complex.cosh (x / 2) - Complex.sinh (x / 2) := (Complex.cosh_sub_sinh _).symm
    have e : Complex.exp (-x) = Complex.exp (-(x / 2)) / Complex.exp (x / 2) := by
      rw [← Complex.exp_sub]; congr 1; ring
    have hne := Complex.exp_ne_zero (x / 2)
    have hg : x / 4 * (gs 0 ((x / 2) ^ 2) / Complex.cosh (x / 2)) = Complex.sinh (x / 2) / (2 * Complex.cosh (x / 2)) := by
      rw [← hs]
      field_simp
      ring
    rw [hg, e, hem]
    rw [he] at hne ⊢
    generalize Complex.cosh (x / 2) = c at *
    generalize Complex.sinh (x / 2) = s at *
    have d : 1 + (c - s) / (c + s) = 2 * c / (c + s) := by
      rw [eq_div_iff hne, add_mul, div_mul_cancel₀ _ hne]
      ring
    rw [d, one_div_div]
    field_simp
    ring

/-- The error of a convergent, of any order. -/
theorem convergent_error (bf : ℕ) (w : ℂ) (m : ℕ) : cont w (m + 1) (fun i => (bk bf i : ℂ)) * hk bf 1 w - cont w m (fun i => (bk bf (i + 1) : ℂ)) * hk bf 0 w =
    (-w) ^ (m + 1) * hk bf (m + 2) w := by
  cases m with
  | zero =>
    have := hk_rec bf w 0
    simp only [cont, zero_add] at this ⊢
    linear_combination -this
  | succ m =>
    have := cont_error w (hk_rec bf w) m
    simp only [Nat.add_assoc, Nat.reduceAdd] at this ⊢
    rw [this, pow_succ _ (m + 1)]
    ring

theorem foldlM_factor (g : ℕ → Res ℝ) (f : ℕ → ℝ) : ∀ (l : List ℕ), (∀ k ∈ l, g k = .ok (f k)) → ∀ r : ℝ,
    l.foldlM (fun r k => do let f ← g k; pure (r * f)) r = (.ok (r * (l.map f).prod) : Res ℝ)
  | [], _, r => by simp
  | k :: l, h, r => by
    rw [List.foldlM_cons, h k (by simp)]
    change l.foldlM _ (r * f k) = _
    rw [foldlM_factor g f l fun k hk => h k (by simp [hk])]
    simp only [List.map_cons, List.prod_cons]
    rw [mul_assoc]

theorem factor_ok {n N : ℕ} {P : ℕ → ℝ} (Q : ℕ → ℝ) (hP : ∀ i < n, ∀ j < n, P i = P j → i = j) (hN : N ≤ n) {j k : ℕ} (hj : j < n) (hk : k < N) :
    BoseFermi.factor ((List.range N).map Q) ((List.range n).map P) j k = .ok (if k ≠ j then (Q k - P j) / (P k - P j) else 1) := by
  unfold BoseFermi.factor
  by_cases h : k ≠ j
  · rw [if_pos h, if_pos h, item_range Q hk, item_range P hj, item_range P (hk.trans_le hN)]
    change Corr.rdiv _ _ = _
    unfold Corr.rdiv
    rw [if_neg (sub_ne_zero.2 fun e => h (hP k (hk.trans_le hN) j hj e))]
  · rw [if_neg h, if_neg h]
    rfl

theorem prod_if {n j : ℕ} (hj : j < n) (A : ℕ → ℝ) : ∏ k ∈ Finset.range n, (if k ≠ j then A k else 1) = ∏ k ∈ (Finset.range n).erase j, A k := by
  rw [← Finset.mul_prod_erase _ _ (Finset.mem_range.2 hj), if_neg (by simp), one_mul]
  exact Finset.prod_congr rfl fun k hk => if_pos (Finset.ne_of_mem_erase hk)

/-- `pade=2`. -/
theorem residue_two {n : ℕ} {P : ℕ → ℝ} (Q : ℕ → ℝ) (hP : ∀ i < n, ∀ j < n, P i = P j → i = j) (s : ℝ) {j : ℕ} (hj : j < n) :
    BoseFermi.residue n n 2 s ((List.range n).map Q) ((List.range n).map P) j =
      .ok (0.5 * s * ((∏ k ∈ Finset.range n, (Q k - P j)) / ∏ l ∈ (Finset.range n).erase j, (P l - P j))) := by
  unfold BoseFermi.residue BoseFermi.start
  rw [if_pos rfl, item_range Q hj, item_range P hj]
  change List.foldlM _ (0.5 * s * (Q j - P j)) (List.range n) = _
  rw [foldlM_factor _ _ (List.range n) (fun k hk => factor_ok Q hP le_rfl hj (List.mem_range.1 hk)), prod_range_list, prod_if hj,
    ← Finset.mul_prod_erase _ (fun k => Q k - P j) (Finset.mem_range.2 hj), Finset.prod_div_distrib]
  congr 1
  ring

/-- `pade=1`. -/
theorem residue_one {N : ℕ} {P : ℕ → ℝ} (Q : ℕ → ℝ) (hP : ∀ i < N + 1, ∀ j < N + 1, P i = P j → i = j) (s : ℝ) {j : ℕ} (hj : j < N + 1) :
    BoseFermi.residue (N + 1) N 1 s ((List.range N).map Q) ((List.range (N + 1)).map P) j =
      .ok (0.5 * s * ((∏ k ∈ Finset.range N, (Q k - P j)) / ∏ l ∈ (Finset.range (N + 1)).erase j, (P l - P j))) := by
  have hfold := fun r => foldlM_factor _ _ (List.range N) (fun k hk => factor_ok Q hP (Nat.le_succ N) hj (List.mem_range.1 hk)) r
  unfold BoseFermi.residue BoseFermi.start
  rw [if_neg (by norm_num)]
  simp only [Nat.add_sub_cancel]
  by_cases h : j = N
  · subst h
    rw [if_pos rfl]
    change List.foldlM _ _ (List.range j) = _
    rw [hfold, prod_range_list, Finset.range_add_one, Finset.erase_insert Finset.notMem_range_self, ← Finset.prod_div_distrib]
    congr 2
    refine Finset.prod_congr rfl fun k hk => ?_
    rw [if_pos (Finset.mem_range.1 hk).ne]
  · have hj' : j < N := by omega
    rw [if_neg h, item_range Q hj', item_range P hj, item_range P (Nat.lt_succ_self N)]
    have hd : P N - P j ≠ 0 := sub_ne_zero.2 fun e => h (hP N (Nat.lt_succ_self N) j hj e).symm
    have hr : Corr.rdiv (0.5 * s * (Q j - P j)) (P N - P j) = .ok (0.5 * s * (Q j - P j) / (P N - P j)) := by unfold Corr.rdiv; rw [if_neg hd]
    change (do
      let temp ← Corr.rdiv (0.5 * s * (Q j - P j)) (P N - P j)
      List.foldlM _ temp (List.range N)) = _
    rw [hr, ok_bind, hfold, prod_range_list, prod_if hj', ← Finset.mul_prod_erase _ (fun k => Q k - P j) (Finset.mem_range.2 hj'), Finset.prod_div_distrib,
      Finset.range_add_one, Finset.erase_insert_of_ne (Ne.symm h), Finset.prod_insert (by simp)]
    congr 1
    rw [mul_div_mul_comm]
    ring

/-- The sum over the pairs of poles. -/
theorem pair_sum {n : ℕ} {x s c R : ℂ} {p : ℕ → ℝ} {T : ℕ → ℝ} (hne : ∀ i < n, x ^ 2 + (p i : ℂ) ^ 2 ≠ 0)
    (hpf : R = c + ∑ i ∈ Finset.range n, (T i : ℂ) / (x ^ 2 + (p i : ℂ) ^ 2)) {r : ℕ → ℝ} (hr : ∀ i, (r i : ℂ) = 0.5 * s * T i) :
    ((((List.range n).map p).zip ((List.range n).map r)).map fun a : ℝ × ℝ => (a.2 : ℂ) / (x - Complex.I * a.1) + a.2 / (x + Complex.I * a.1)).sum =
      x * s * (R - c) := by
  rw [hpf, add_sub_cancel_left, List.zip_map', List.map_map, sum_range_list, Finset.mul_sum]
  refine Finset.sum_congr rfl fun i hi => ?_
  simp only [Function.comp_apply]
  rw [pair_poles _ (hne i (Finset.mem_range.1 hi)), hr]
  norm_num
  ring

theorem scale_prod (x : ℂ) (p : ℕ → ℝ) (n : ℕ) : ∏ i ∈ Finset.range n, (x ^ 2 + (p i : ℂ) ^ 2) = 4 ^ n * ∏ i ∈ Finset.range n, (x ^ 2 / 4 + (p i : ℂ) ^ 2 / 4) := by
  rw [← Finset.card_range n, ← Finset.prod_const, Finset.card_range, ← Finset.prod_mul_distrib]
  exact Finset.prod_congr rfl fun i _ => by ring

end Pade
