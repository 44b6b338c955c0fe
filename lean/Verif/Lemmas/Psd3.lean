import Verif.Lemmas.Psd2

/-!
Lemmas for C75: the result of `PSD` as a convergent of the continued fraction.
-/

open scoped BigOperators Nat
open Polynomial Py

namespace Pade

theorem doff_eq (bf M : ℕ) : BoseFermi.doff (if bf = 1 then 3 else 1) M = (List.range (M - 1)).map (sub (bk bf)) := by
  unfold BoseFermi.doff
  refine List.map_congr_left fun i _ => ?_
  unfold sub bk tk
  push_cast
  rfl

theorem doff_eq' (bf M : ℕ) : BoseFermi.doff (if bf = 1 then 5 else 3) M = (List.range (M - 1)).map (sub fun i => bk bf (i + 1)) := by
  unfold BoseFermi.doff
  refine List.map_congr_left fun i _ => ?_
  unfold sub bk tk
  push_cast
  split_ifs <;> ring_nf

theorem mapM_two {n : ℕ} {p : ℕ → ℝ} (hp : ∀ i < n, 0 < p i) : ((List.range n).map fun i => 2 / p i).mapM (Corr.rdiv 2) = .ok ((List.range n).map p) := by
  rw [Heap.mapM_ok (g := fun x => 2 / x)]
  · rw [List.map_map]
    congr 1
    refine List.map_congr_left fun i hi => ?_
    simp [div_div_cancel₀]
  · intro x hx
    obtain ⟨i, hi, rfl⟩ := List.mem_map.1 hx
    unfold Corr.rdiv
    rw [if_neg (div_pos two_pos (hp i (List.mem_range.1 hi))).ne']

theorem sq_inj {n : ℕ} {p : ℕ → ℝ} (hp : ∀ i < n, 0 < p i) (hm : ∀ i j, i < j → j < n → p i < p j) : ∀ i < n, ∀ j < n, p i ^ 2 = p j ^ 2 → i = j := by
  intro i hi j hj h
  have := (sq_eq_sq₀ (hp i hi).le (hp j hj).le).1 h
  rcases lt_trichotomy i j with h1 | h1 | h1
  · exact absurd this (hm i j h1 hj).ne
  · exact h1
  · exact absurd this (hm j i h1 hi).ne'

/-- What is shown about the poles and residues, for the convergent of order `M`. -/
def Convergent (bf n M : ℕ) (rn : ℝ) (poles residues : List ℝ) : Prop :=
  poles.length = n ∧ residues.length = n ∧ (∀ p ∈ poles, 0 < p) ∧ poles.Pairwise (· < ·) ∧ (∀ r ∈ residues, 0 < r) ∧
    ∀ x : ℂ, cont (x ^ 2 / 4) (M + 1) (fun i => (bk bf i : ℂ)) ≠ 0 →
      ((poles.zip residues).map fun a : ℝ × ℝ => (a.2 : ℂ) / (x - Complex.I * a.1) + a.2 / (x + Complex.I * a.1)).sum + rn * x =
        x / 4 * (cont (x ^ 2 / 4) M (fun i => (bk bf (i + 1) : ℂ)) / cont (x ^ 2 / 4) (M + 1) (fun i => (bk bf i : ℂ)))

/-- The lists. -/
theorem lists {n : ℕ} {p r : ℕ → ℝ} (hp : ∀ i < n, 0 < p i) (hm : ∀ i j, i < j → j < n → p i < p j) (hr : ∀ i < n, 0 < r i) :
    ((List.range n).map p).length = n ∧ ((List.range n).map r).length = n ∧ (∀ x ∈ (List.range n).map p, 0 < x) ∧
      ((List.range n).map p).Pairwise (· < ·) ∧ ∀ x ∈ (List.range n).map r, 0 < x := by
  refine ⟨by simp, by simp, fun y hy => ?_, ?_, fun y hy => ?_⟩
  · obtain ⟨i, hi, rfl⟩ := List.mem_map.1 hy
    exact hp i (List.mem_range.1 hi)
  · rw [List.pairwise_map]
    exact List.pairwise_lt_range.imp_of_mem fun hi hj hij => hm _ _ hij (List.mem_range.1 hj)
  · obtain ⟨i, hi, rfl⟩ := List.mem_map.1 hy
    exact hr i (List.mem_range.1 hi)

theorem sum_even (bf n : ℕ) : ∑ i ∈ Finset.range (n + 1), bk bf (2 * i) = (n + 1) * (2 * n + tk bf) := by
  induction n with
  | zero => simp [bk]
  | succ n ih =>
    rw [Finset.sum_range_succ, ih]
    unfold bk
    push_cast
    ring

theorem sum_odd (bf n : ℕ) : ∑ i ∈ Finset.range (n + 1), bk bf (2 * i + 1) = ((n + 1 : ℕ) : ℝ) * (2 * ((n + 1 : ℕ) : ℝ) + tk bf) := by
  induction n with
  | zero => simp [bk]; ring
  | succ n ih =>
    rw [Finset.sum_range_succ, ih]
    unfold bk
    push_cast
    ring

theorem scaling_one {bf : ℕ} (hbf : bf = 1 ∨ bf = 2) (n : ℕ) : BoseFermi.scaling n bf 1 = n * (2 * n + tk bf) := by
  unfold BoseFermi.scaling tk
  rcases hbf with rfl | rfl <;> simp

theorem scaling_two {bf : ℕ} (hbf : bf = 1 ∨ bf = 2) (n : ℕ) : BoseFermi.scaling n bf 2 = 1 / (4 * ((n + 1) * (2 * n + tk bf))) := by
  unfold BoseFermi.scaling tk
  rcases hbf with rfl | rfl <;> simp <;> ring

/-- `pade=1`. -/
theorem poles_one {eigvals : List ℝ → List ℝ → List ℝ} (hS : PadeSpec.Solver eigvals) {bf : ℕ} (hbf : bf = 1 ∨ bf = 2) (N : ℕ) :
    ∃ poles residues, BoseFermi.poles eigvals (N + 1) bf 1 = .ok (poles, residues) ∧ Convergent bf (N + 1) (2 * N + 1) 0 poles residues := by
  have hb := bk_pos bf
  have hb' : ∀ i, 0 < bk bf (i + 1) := fun i => hb _
  set L := eigvals (List.replicate (2 * (N + 1)) 0) (BoseFermi.doff (if bf = 1 then 3 else 1) (2 * (N + 1))) with hLdef
  set L' := eigvals (List.replicate (2 * N + 1) 0) (BoseFermi.doff (if bf = 1 then 5 else 3) (2 * N + 1)) with hMdef
  have hLs : L.Pairwise (· ≥ ·) := hS.sorted _ _
  have hMs : L'.Pairwise (· ≥ ·) := hS.sorted _ _
  have hL : fromRoots L = jac (2 * (N + 1)) (sub (bk bf)) := by rw [fromRoots, ← hS.all, doff_eq, tri]
  have hM : fromRoots L' = jac (2 * N + 1) (sub fun i => bk bf (i + 1)) := by rw [fromRoots, ← hS.all, doff_eq', tri]
  obtain ⟨p, hp, hpm, hpt⟩ := half (n := N + 1) (sub_ne hb) hL hLs (by omega)
  obtain ⟨q, hq, hqm, hqt⟩ := half (n := N) (sub_ne hb') hM hMs (by omega)
  have hinj := sq_inj hp hpm
  set s : ℝ := BoseFermi.scaling (N + 1) bf 1 with hs
  have hs' : s = ((N + 1 : ℕ) : ℝ) * (2 * ((N + 1 : ℕ) : ℝ) + tk bf) := scaling_one hbf (N + 1)
  have hspos : 0 < s := by rw [hs']; have := tk_pos bf; positivity
  set T : ℕ → ℝ := fun i => (∏ k ∈ Finset.range N, (q k ^ 2 - p i ^ 2)) / ∏ l ∈ (Finset.range (N + 1)).erase i, (p l ^ 2 - p i ^ 2) with hT
  have hTpos : ∀ i < N + 1, 0 < T i := fun i hi => by
    refine weight_pos (f := jac (2 * (N + 1)) (sub (bk bf))) (g := jac (2 * N + 1) (sub fun i => bk bf (i + 1))) (e := 0) (e' := 1) hp hq ?_ ?_
      (fun x => jac_wronskian (2 * N + 1) (sub_ne hb) x) hi
    · intro x
      have := eval_even hL hLs x
      simp only [coe_aeval_eq_eval, Algebra.algebraMap_self, RingHom.id_apply] at this
      rw [this, hpt, List.map_map, prod_range_list, pow_zero, one_mul]
      rfl
    · intro x
      have := eval_odd hM hMs x
      simp only [coe_aeval_eq_eval, Algebra.algebraMap_self, RingHom.id_apply] at this
      rw [this, hqt, List.map_map, prod_range_list, pow_one]
      rfl
  refine ⟨(List.range (N + 1)).map p, (List.range (N + 1)).map fun i => 0.5 * s * T i, ?_, ?_⟩
  · unfold BoseFermi.poles
    rw [if_neg (by omega)]
    simp only [show 2 * (N + 1) + 1 / 2 = 2 * (N + 1) by omega, show 2 * (N + 1) - 1 = 2 * N + 1 by omega, ← hLdef, ← hMdef,
      show (2 * N + 1) / 2 = N by omega, ← hs]
    rw [hpt, hqt, mapM_two hp, ok_bind, mapM_two hq, ok_bind, List.map_map, List.map_map]
    have m3 := Heap.mapM_ok (f := BoseFermi.residue (N + 1) N 1 s ((List.range N).map ((· ^ 2) ∘ q)) ((List.range (N + 1)).map ((fun x => x * x) ∘ p)))
      (l := List.range (N + 1)) (g := fun i => 0.5 * s * T i) fun i hi => by
        have := residue_one (P := (fun x => x * x) ∘ p) ((· ^ 2) ∘ q) (fun i hi j hj h => hinj i hi j hj (by simpa [sq] using h)) s (List.mem_range.1 hi)
        rw [this]
        simp only [Function.comp_apply, hT, ← sq]
    rw [m3]
    rfl
  · obtain ⟨h1, h2, h3, h4, h5⟩ := lists (r := fun i => 0.5 * s * T i) hp hpm fun i hi => by have := hTpos i hi; positivity
    refine ⟨h1, h2, h3, h4, h5, fun x hD => ?_⟩
    have eD : cont (x ^ 2 / 4) (2 * N + 1 + 1) (fun i => (bk bf i : ℂ)) = ∏ i ∈ Finset.range (N + 1), (x ^ 2 / 4 + (p i : ℂ) ^ 2 / 4) :=
      factor_even (n := N + 1) hb hL hLs hp hpt _
    have eC := factor_odd hb' hM hMs hq hqt (x ^ 2 / 4)
    rw [sum_odd, ← hs'] at eC
    rw [eD] at hD ⊢
    rw [eC]
    have hne : ∀ i < N + 1, x ^ 2 + (p i : ℂ) ^ 2 ≠ 0 := fun i hi h => by
      rw [Finset.prod_ne_zero_iff] at hD
      exact hD i (Finset.mem_range.2 hi) (by linear_combination h / 4)
    have hpf := partial_fractions (n := N) (P := fun i => (p i : ℂ) ^ 2) (fun k => (q k : ℂ) ^ 2) (y := x ^ 2) (fun i hi j hj h =>
      hinj i (Finset.mem_range.1 (Finset.mem_coe.1 hi)) j (Finset.mem_range.1 (Finset.mem_coe.1 hj)) (by
        have h : (p i : ℂ) ^ 2 = (p j : ℂ) ^ 2 := h
        exact_mod_cast h)) hne
    have e1 : ∏ k ∈ Finset.range N, ((q k : ℂ) ^ 2 + x ^ 2) = ∏ k ∈ Finset.range N, (x ^ 2 + (q k : ℂ) ^ 2) := Finset.prod_congr rfl fun _ _ => add_comm _ _
    rw [pair_sum (R := (∏ k ∈ Finset.range N, ((q k : ℂ) ^ 2 + x ^ 2)) / ∏ i ∈ Finset.range (N + 1), (x ^ 2 + (p i : ℂ) ^ 2)) (c := 0) (s := (s : ℂ)) (T := T) hne (by rw [zero_add, hpf]; refine Finset.sum_congr rfl fun i _ => ?_; rw [hT]; push_cast; rfl)
      (fun i => by push_cast; norm_num), e1, scale_prod, scale_prod]
    have h4 : (4 : ℂ) ^ N ≠ 0 := pow_ne_zero N (by norm_num)
    generalize (∏ i ∈ Finset.range (N + 1), (x ^ 2 / 4 + (p i : ℂ) ^ 2 / 4)) = D at *
    rw [pow_succ]
    push_cast
    field_simp
    ring

/-- `pade=2`. -/
theorem poles_two {eigvals : List ℝ → List ℝ → List ℝ} (hS : PadeSpec.Solver eigvals) {bf : ℕ} (hbf : bf = 1 ∨ bf = 2) (N : ℕ) :
    ∃ poles residues, BoseFermi.poles eigvals N bf 2 = .ok (poles, residues) ∧
      Convergent bf N (2 * N) (1 / (4 * ((N + 1) * (2 * N + tk bf)))) poles residues := by
  have hb := bk_pos bf
  have hb' : ∀ i, 0 < bk bf (i + 1) := fun i => hb _
  set L := eigvals (List.replicate (2 * N + 1) 0) (BoseFermi.doff (if bf = 1 then 3 else 1) (2 * N + 1)) with hLdef
  set L' := eigvals (List.replicate (2 * N) 0) (BoseFermi.doff (if bf = 1 then 5 else 3) (2 * N)) with hMdef
  have hLs : L.Pairwise (· ≥ ·) := hS.sorted _ _
  have hMs : L'.Pairwise (· ≥ ·) := hS.sorted _ _
  have hL : fromRoots L = jac (2 * N + 1) (sub (bk bf)) := by rw [fromRoots, ← hS.all, doff_eq, tri]
  have hM : fromRoots L' = jac (2 * N) (sub fun i => bk bf (i + 1)) := by rw [fromRoots, ← hS.all, doff_eq', tri]
  obtain ⟨p, hp, hpm, hpt⟩ := half (n := N) (sub_ne hb) hL hLs (by omega)
  obtain ⟨q, hq, hqm, hqt⟩ := half (n := N) (sub_ne hb') hM hMs (by omega)
  have hinj := sq_inj hp hpm
  set s : ℝ := BoseFermi.scaling N bf 2 with hs
  have hs' : s = 1 / (4 * (((N : ℕ) + 1) * (2 * (N : ℝ) + tk bf))) := scaling_two hbf N
  have htk := tk_pos bf
  have hspos : 0 < s := by rw [hs']; positivity
  set T : ℕ → ℝ := fun i => (∏ k ∈ Finset.range N, (q k ^ 2 - p i ^ 2)) / ∏ l ∈ (Finset.range N).erase i, (p l ^ 2 - p i ^ 2) with hT
  have hTpos : ∀ i < N, 0 < T i := fun i hi => by
    refine weight_pos (f := jac (2 * N + 1) (sub (bk bf))) (g := jac (2 * N) (sub fun i => bk bf (i + 1))) (e := 1) (e' := 0) hp hq ?_ ?_
      (fun x => jac_wronskian (2 * N) (sub_ne hb) x) hi
    · intro x
      have := eval_odd hL hLs x
      simp only [coe_aeval_eq_eval, Algebra.algebraMap_self, RingHom.id_apply] at this
      rw [this, hpt, List.map_map, prod_range_list, pow_one]
      rfl
    · intro x
      have := eval_even hM hMs x
      simp only [coe_aeval_eq_eval, Algebra.algebraMap_self, RingHom.id_apply] at this
      rw [this, hqt, List.map_map, prod_range_list, pow_zero, one_mul]
      rfl
  refine ⟨(List.range N).map p, (List.range N).map fun i => 0.5 * s * T i, ?_, ?_⟩
  · unfold BoseFermi.poles
    rcases Nat.eq_zero_or_pos N with h0 | h0
    · subst h0; simp
    rw [if_neg (by omega)]
    simp only [show 2 * N + 2 / 2 = 2 * N + 1 by omega, show 2 * N + 1 - 1 = 2 * N by omega, ← hLdef, ← hMdef,
      show (2 * N) / 2 = N by omega, ← hs]
    rw [hpt, hqt, mapM_two hp, ok_bind, mapM_two hq, ok_bind, List.map_map, List.map_map]
    have m3 := Heap.mapM_ok (f := BoseFermi.residue N N 2 s ((List.range N).map ((· ^ 2) ∘ q)) ((List.range N).map ((fun x => x * x) ∘ p)))
      (l := List.range N) (g := fun i => 0.5 * s * T i) fun i hi => by
        have := residue_two (P := (fun x => x * x) ∘ p) ((· ^ 2) ∘ q) (fun i hi j hj h => hinj i hi j hj (by simpa [sq] using h)) s (List.mem_range.1 hi)
        rw [this]
        simp only [Function.comp_apply, hT, ← sq]
    rw [m3]
    rfl
  · obtain ⟨h1, h2, h3, h4, h5⟩ := lists (r := fun i => 0.5 * s * T i) hp hpm fun i hi => by have := hTpos i hi; positivity
    refine ⟨h1, h2, h3, h4, h5, fun x hD => ?_⟩
    have eD := factor_odd hb hL hLs hp hpt (x ^ 2 / 4)
    have eC := factor_even hb' hM hMs hq hqt (x ^ 2 / 4)
    rw [sum_even] at eD
    rw [eD] at hD ⊢
    rw [eC]
    have hD' := right_ne_zero_of_mul hD
    have hS' := left_ne_zero_of_mul hD
    have hne : ∀ i < N, x ^ 2 + (p i : ℂ) ^ 2 ≠ 0 := fun i hi h => by
      rw [Finset.prod_ne_zero_iff] at hD'
      exact hD' i (Finset.mem_range.2 hi) (by linear_combination h / 4)
    have hpf := partial_fractions' (n := N) (P := fun i => (p i : ℂ) ^ 2) (fun k => (q k : ℂ) ^ 2) (y := x ^ 2) (fun i hi j hj h =>
      hinj i (Finset.mem_range.1 (Finset.mem_coe.1 hi)) j (Finset.mem_range.1 (Finset.mem_coe.1 hj)) (by
        have h : (p i : ℂ) ^ 2 = (p j : ℂ) ^ 2 := h
        exact_mod_cast h)) hne
    have e1 : ∏ k ∈ Finset.range N, ((q k : ℂ) ^ 2 + x ^ 2) = ∏ k ∈ Finset.range N, (x ^ 2 + (q k : ℂ) ^ 2) := Finset.prod_congr rfl fun _ _ => add_comm _ _
    rw [pair_sum (R := (∏ k ∈ Finset.range N, ((q k : ℂ) ^ 2 + x ^ 2)) / ∏ i ∈ Finset.range (N), (x ^ 2 + (p i : ℂ) ^ 2)) (c := 1) (s := (s : ℂ)) (T := T) hne (by rw [hpf]; congr 1; refine Finset.sum_congr rfl fun i _ => ?_; rw [hT]; push_cast; rfl)
      (fun i => by push_cast; norm_num), e1, scale_prod, scale_prod, hs', Complex.ofReal_div, Complex.ofReal_mul, Complex.ofReal_one]
    have h4 : (4 : ℂ) ^ N ≠ 0 := pow_ne_zero N (by norm_num)
    generalize (∏ i ∈ Finset.range N, (x ^ 2 / 4 + (p i : ℂ) ^ 2 / 4)) = D at *
    generalize ((((N : ℝ) + 1) * (2 * (N : ℝ) + tk bf) : ℝ) : ℂ) = S at *
    push_cast
    field_simp
    ring

end Pade
