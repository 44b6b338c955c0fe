import Verif.Lemmas.PsdThird2

/-!
Lemmas for C75: the result of `PSD` with `pade=3` as a convergent of a continued fraction.
-/

open scoped BigOperators Nat Topology
open Polynomial Py Filter

namespace Pade

theorem doff3_eq (bf N : ℕ) : BoseFermi.doff3 (BoseFermi.coefs (tk bf) N) N = (List.range (2 * N)).map (sub (bt bf)) := by
  unfold BoseFermi.doff3
  refine List.map_congr_left fun i hi => ?_
  have hi := List.mem_range.1 hi
  unfold sub
  rw [coefs_eq bf N (by omega), coefs_eq bf N (i := i + 1) (by omega), neg_mul_neg]

/-- The constant of the partial fractions. -/
theorem sum_weights {N : ℕ} {b p q T : ℕ → ℝ} (hb : ∀ i, 0 < b i) {R : ℝ} (hR : R = ∑ k ∈ Finset.range (N + 1), b (2 * k))
    (hpf : ∀ w : ℝ, 0 < w → fr b N w = w / R * (1 + ∑ i ∈ Finset.range N, T i / (4 * w + p i ^ 2))) :
    ∑ i ∈ Finset.range N, T i = 4 * (∑ i ∈ Finset.range N, b (2 * i + 1) * (R - ∑ k ∈ Finset.range (i + 1), b (2 * k)) ^ 2) / R := by
  have hRpos : 0 < R := by rw [hR]; exact Finset.sum_pos (fun k _ => hb _) ⟨0, by simp⟩
  have h1 := fr_limit N hb
  rw [← hR] at h1
  have h2 : Tendsto (fun w => fr b N w - w / R) atTop (𝓝 (∑ i ∈ Finset.range N, T i / (4 * R))) := by
    have h3 : Tendsto (fun w : ℝ => ∑ i ∈ Finset.range N, T i / R / (4 + p i ^ 2 * w⁻¹)) atTop (𝓝 (∑ i ∈ Finset.range N, T i / R / (4 + p i ^ 2 * 0))) :=
      tendsto_finsetSum _ fun i _ => tendsto_const_nhds.div ((tendsto_inv_atTop_zero.const_mul _).const_add _) (by norm_num)
    have e : ∑ i ∈ Finset.range N, T i / R / (4 + p i ^ 2 * 0) = ∑ i ∈ Finset.range N, T i / (4 * R) := Finset.sum_congr rfl fun i _ => by
      rw [mul_zero, add_zero, div_div, mul_comm R]
    rw [e] at h3
    refine h3.congr' ?_
    filter_upwards [eventually_gt_atTop 0] with w hw
    rw [hpf w hw, mul_add, mul_one, add_sub_cancel_left, Finset.mul_sum]
    refine Finset.sum_congr rfl fun i _ => ?_
    have : 0 < 4 * w + p i ^ 2 := by positivity
    have e1 : 4 + p i ^ 2 * w⁻¹ = (4 * w + p i ^ 2) / w := by field_simp
    rw [e1]
    field_simp
  have h3 := tendsto_nhds_unique h2 h1
  rw [← Finset.sum_div] at h3
  field_simp at h3 ⊢
  linarith

/-- What is shown about the result with `pade=3`. -/
def Convergent3 (bf n : ℕ) (rn tn : ℝ) (poles residues : List ℝ) : Prop :=
  poles.length = n ∧ residues.length = n ∧ (∀ p ∈ poles, 0 < p) ∧ poles.Pairwise (· < ·) ∧ (∀ r ∈ residues, 0 < r) ∧
    ∀ x : ℂ, cont (x ^ 2 / 4) (2 * n + 1) (fun i => (bt bf i : ℂ)) ≠ 0 →
      ((poles.zip residues).map fun a : ℝ × ℝ => (a.2 : ℂ) / (x - Complex.I * a.1) + a.2 / (x + Complex.I * a.1)).sum + rn * x + tn * x ^ 3 =
        x * (1 / (4 * tk bf) - x ^ 2 / 4 * (cont (x ^ 2 / 4) (2 * n) (fun i => (bt bf (i + 1) : ℂ)) / cont (x ^ 2 / 4) (2 * n + 1) (fun i => (bt bf i : ℂ))))

theorem third_ok {eigvals : List ℝ → List ℝ → List ℝ} (hS : PadeSpec.Solver eigvals) (bf N : ℕ) :
    ∃ poles residues rn tn, BoseFermi.third eigvals N bf = .ok (poles, residues, rn, tn) ∧ Convergent3 bf N rn tn poles residues := by
  have hb := bt_pos bf
  have hb' : ∀ i, 0 < bt bf (i + 1) := fun i => hb _
  have hd : ∀ i, i < 2 * N + 1 → BoseFermi.coefs (tk bf) N (i + 1) = -bt bf i := fun i hi => coefs_eq bf N hi
  set d := BoseFermi.coefs (tk bf) N with hdd
  set L := eigvals (List.replicate (2 * N + 1) 0) (BoseFermi.doff3 d N) with hLdef
  set L' := eigvals (List.replicate (2 * N) 0) ((List.range (2 * N - 1)).map (sub fun i => bt bf (i + 1))) with hMdef
  have hLs : L.Pairwise (· ≥ ·) := hS.sorted _ _
  have hMs : L'.Pairwise (· ≥ ·) := hS.sorted _ _
  have hL : fromRoots L = jac (2 * N + 1) (sub (bt bf)) := by rw [fromRoots, ← hS.all, doff3_eq]; exact tri (2 * N + 1) _
  have hM : fromRoots L' = jac (2 * N) (sub fun i => bt bf (i + 1)) := by rw [fromRoots, ← hS.all, tri]
  obtain ⟨p, hp, hpm, hpt⟩ := half (n := N) (sub_ne hb) hL hLs (by omega)
  obtain ⟨q, hq, hqm, hqt⟩ := half (n := N) (sub_ne hb') hM hMs (by omega)
  have hinj := sq_inj hp hpm
  obtain ⟨R, hR⟩ : ∃ R : ℝ, R = ∑ k ∈ Finset.range (N + 1), bt bf (2 * k) := ⟨_, rfl⟩
  have hRpos : 0 < R := hR ▸ Finset.sum_pos (fun k _ => hb _) ⟨0, by simp⟩
  set T : ℕ → ℝ := fun i => (∏ k ∈ Finset.range N, (q k ^ 2 - p i ^ 2)) / ∏ l ∈ (Finset.range N).erase i, (p l ^ 2 - p i ^ 2) with hT
  have hTpos : ∀ i < N, 0 < T i := fun i hi => by
    refine weight_pos (f := jac (2 * N + 1) (sub (bt bf))) (g := jac (2 * N) (sub fun i => bt bf (i + 1))) (e := 1) (e' := 0) hp hq ?_ ?_
      (fun x => jac_wronskian (2 * N) (sub_ne hb) x) hi
    · intro x
      have := eval_odd hL hLs x
      simp only [coe_aeval_eq_eval, Algebra.algebraMap_self, RingHom.id_apply] at this
      rw [this, hpt, List.map_map, prod_range_list, pow_one]
      rfl
    · intro x
      have := eval_even hM hMs x
      simp only [coe_aeval_eq_eval, Algebra.algebraMap_self, RingHom.id_apply] at this
      rw [this, hqt, List.map_map, prod_range_list, pow_zero, one_mul]
      rfl
  have hpfC : ∀ y : ℂ, (∀ i < N, y + (p i : ℂ) ^ 2 ≠ 0) → (∏ k ∈ Finset.range N, (y + (q k : ℂ) ^ 2)) / ∏ i ∈ Finset.range N, (y + (p i : ℂ) ^ 2) =
      1 + ∑ i ∈ Finset.range N, (T i : ℂ) / (y + (p i : ℂ) ^ 2) := fun y hy => by
    have h := partial_fractions' (n := N) (P := fun i => (p i : ℂ) ^ 2) (fun k => (q k : ℂ) ^ 2) (y := y) (fun i hi j hj h =>
      hinj i (Finset.mem_range.1 (Finset.mem_coe.1 hi)) j (Finset.mem_range.1 (Finset.mem_coe.1 hj)) (by
        have h : (p i : ℂ) ^ 2 = (p j : ℂ) ^ 2 := h
        exact_mod_cast h)) hy
    have e1 : ∏ k ∈ Finset.range N, (y + (q k : ℂ) ^ 2) = ∏ k ∈ Finset.range N, ((q k : ℂ) ^ 2 + y) := Finset.prod_congr rfl fun _ _ => add_comm _ _
    rw [e1, h]
    congr 1
    refine Finset.sum_congr rfl fun i _ => ?_
    rw [hT]
    push_cast
    rfl
  have eD := fun w : ℂ => factor_odd hb hL hLs hp hpt w
  have eC := fun w : ℂ => factor_even hb' hM hMs hq hqt w
  rw [← hR] at eD
  have eDr : ∀ w : ℝ, cont w (2 * N + 1) (bt bf) = R * ∏ i ∈ Finset.range N, (w + p i ^ 2 / 4) := fun w => by
    have := eD w
    rw [← cont_cast] at this
    exact_mod_cast this
  have eCr : ∀ w : ℝ, cont w (2 * N) (fun i => bt bf (i + 1)) = ∏ i ∈ Finset.range N, (w + q i ^ 2 / 4) := fun w => by
    have := eC w
    rw [← cont_cast w (2 * N) fun i => bt bf (i + 1)] at this
    exact_mod_cast this
  have sc : ∀ (y : ℝ) (p : ℕ → ℝ), ∏ i ∈ Finset.range N, (y / 4 + p i ^ 2 / 4) = (∏ i ∈ Finset.range N, (y + p i ^ 2)) / 4 ^ N := fun y p => by
    rw [← Finset.card_range N, ← Finset.prod_const, Finset.card_range, ← Finset.prod_div_distrib]
    exact Finset.prod_congr rfl fun i _ => by ring
  have hTsum := sum_weights (b := bt bf) (p := p) (q := q) (T := T) hb hR fun w hw => by
    have h := hpfC ((4 * w : ℝ) : ℂ) fun i hi => by
      have : (4 * w + p i ^ 2 : ℝ) ≠ 0 := by positivity
      exact_mod_cast this
    have h : (∏ k ∈ Finset.range N, (4 * w + q k ^ 2)) / ∏ i ∈ Finset.range N, (4 * w + p i ^ 2) = 1 + ∑ i ∈ Finset.range N, T i / (4 * w + p i ^ 2) := by
      exact_mod_cast h
    rw [← h]
    unfold fr
    have a1 := sc (4 * w) p
    have a2 := sc (4 * w) q
    rw [mul_div_cancel_left₀ w (by norm_num : (4 : ℝ) ≠ 0)] at a1 a2
    have h4 : (4 : ℝ) ^ N ≠ 0 := by positivity
    have h5 : ∏ i ∈ Finset.range N, (4 * w + p i ^ 2) ≠ 0 := (Finset.prod_pos fun i _ => by positivity).ne'
    rw [eDr, eCr, a1, a2]
    field_simp
  have hSN : BoseFermi.sumd2 d N = -R := by rw [hR]; exact sumd2_eq hd N le_rfl
  set r : ℕ → ℝ := fun i => p i ^ 2 * T i / (8 * R) with hr
  refine ⟨(List.range N).map p, (List.range N).map r, 1 / (4 * tk bf) - (∑ i ∈ Finset.range N, T i) / (4 * R), -1 / (4 * R), ?_, ?_⟩
  · unfold BoseFermi.third
    rw [show (if bf = 1 then (3 : ℝ) else 1) = tk bf from rfl, ← hdd]
    have e1 : Corr.rdiv 0.25 (BoseFermi.sumd2 d N) = .ok (-1 / (4 * R)) := by
      unfold Corr.rdiv
      rw [hSN, if_neg (neg_ne_zero.2 hRpos.ne')]
      congr 1
      field_simp
      norm_num
    dsimp only
    rw [e1, ok_bind, ← hLdef, hpt, mapM_two hp, ok_bind]
    have m3 := Heap.mapM_ok (f := BoseFermi.residue3 d N ((List.range N).map p)) (l := List.range N) (g := r) fun j hj => by
      have hj := List.mem_range.1 hj
      have w1 : -(p j * p j) / 4 = -(p j ^ 2) / 4 := by ring
      have hne : ∀ i < N, i ≠ j → p i * p i - p j * p j ≠ 0 := fun i hi hij h => hij (hinj i hi j hj (by rw [sq, sq]; linarith))
      rw [residue3_ok hd hb hne hj (by
        rw [w1, eDr, sc]
        rw [Finset.prod_eq_zero (Finset.mem_range.2 hj) (by ring)]
        ring), w1, eCr, sc, ← hR]
      congr 1
      rw [hr, hT]
      have e2 : ∏ i ∈ Finset.range N, (-p j ^ 2 + q i ^ 2) = ∏ k ∈ Finset.range N, (q k ^ 2 - p j ^ 2) := Finset.prod_congr rfl fun _ _ => by ring
      have e3 : ∏ l ∈ (Finset.range N).erase j, (p l * p l - p j * p j) = ∏ l ∈ (Finset.range N).erase j, (p l ^ 2 - p j ^ 2) := Finset.prod_congr rfl fun _ _ => by ring
      rw [e2, e3]
      have h4 : (4 : ℝ) ^ N ≠ 0 := by positivity
      have h5 : ∏ l ∈ (Finset.range N).erase j, (p l ^ 2 - p j ^ 2) ≠ 0 := by
        rw [← e3]
        exact Finset.prod_ne_zero_iff.2 fun l hl => hne l (Finset.mem_range.1 (Finset.mem_of_mem_erase hl)) (Finset.ne_of_mem_erase hl)
      field_simp
    rw [m3, ok_bind]
    change Except.ok (_, _, _, _) = Except.ok (_, _, _, _)
    congr 4
    rw [sum_range_list, Finset.sum_range_succ']
    have e4 : BoseFermi.rnTerm d N (-1 / (4 * R)) 0 = 1 / (4 * tk bf) := by
      unfold BoseFermi.rnTerm
      rw [if_neg (by omega), mul_zero, hdd, coefs_zero]
      have := tk_pos bf
      field_simp
      norm_num
    rw [e4, hTsum, add_comm, sub_eq_add_neg]
    congr 1
    rw [mul_div_assoc, Finset.sum_div, Finset.mul_sum, Finset.sum_div, ← Finset.sum_neg_distrib]
    refine Finset.sum_congr rfl fun i hi => ?_
    have hi := Finset.mem_range.1 hi
    unfold BoseFermi.rnTerm
    rw [if_pos (by omega), hSN, Nat.add_sub_cancel, sumd2_eq hd i (by omega), show 2 * (i + 1) = 2 * i + 1 + 1 by ring, hd (2 * i + 1) (by omega)]
    generalize ∑ k ∈ Finset.range (i + 1), bt bf (2 * k) = S
    field_simp
    ring
  · obtain ⟨h1, h2, h3, h4, h5⟩ := lists (r := r) hp hpm fun i hi => by
      have := hTpos i hi
      have := hp i hi
      simp only [hr]
      positivity
    refine ⟨h1, h2, h3, h4, h5, fun x hD => ?_⟩
    rw [eD] at hD ⊢
    rw [eC]
    have hD' := right_ne_zero_of_mul hD
    have hne : ∀ i < N, x ^ 2 + (p i : ℂ) ^ 2 ≠ 0 := fun i hi h => by
      rw [Finset.prod_ne_zero_iff] at hD'
      exact hD' i (Finset.mem_range.2 hi) (by linear_combination h / 4)
    have hRc : (R : ℂ) ≠ 0 := Complex.ofReal_ne_zero.2 hRpos.ne'
    have hpf := hpfC (x ^ 2) hne
    rw [pair_sum (R := ∑ i ∈ Finset.range N, ((p i ^ 2 * T i / (4 * R) : ℝ) : ℂ) / (x ^ 2 + (p i : ℂ) ^ 2)) (c := 0) (s := 1) (T := fun i => p i ^ 2 * T i / (4 * R)) hne (by rw [zero_add])
      (fun i => by simp only [hr]; push_cast; ring)]
    have e5 : ∑ i ∈ Finset.range N, ((p i ^ 2 * T i / (4 * R) : ℝ) : ℂ) / (x ^ 2 + (p i : ℂ) ^ 2) =
        (∑ i ∈ Finset.range N, (T i : ℂ)) / (4 * R) - x ^ 2 / (4 * R) * ∑ i ∈ Finset.range N, (T i : ℂ) / (x ^ 2 + (p i : ℂ) ^ 2) := by
      rw [Finset.sum_div, Finset.mul_sum, ← Finset.sum_sub_distrib]
      refine Finset.sum_congr rfl fun i hi => ?_
      have := hne i (Finset.mem_range.1 hi)
      push_cast
      field_simp
      ring
    rw [e5, ← sub_eq_of_eq_add' hpf, scale_prod, scale_prod]
    have h4 : (4 : ℂ) ^ N ≠ 0 := pow_ne_zero N (by norm_num)
    have ht : ((tk bf : ℝ) : ℂ) ≠ 0 := Complex.ofReal_ne_zero.2 (tk_pos bf).ne'
    generalize (∏ i ∈ Finset.range N, (x ^ 2 / 4 + (p i : ℂ) ^ 2 / 4)) = D at *
    generalize (∏ i ∈ Finset.range N, (x ^ 2 / 4 + (q i : ℂ) ^ 2 / 4)) = Q at *
    push_cast
    field_simp
    ring

end Pade
