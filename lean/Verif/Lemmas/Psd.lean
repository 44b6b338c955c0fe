import Verif.Model.BoseFermi
import Verif.Spec.BoseFermi
import Verif.Lemmas.Pade3

/-!
Lemmas for C71 and C75: factors of continuants, positive residues, partial fractions of equal degrees.
-/

open scoped BigOperators Nat
open Polynomial Py

namespace Pade

theorem take_factor {n : ℕ} {L : List ℝ} {p : ℕ → ℝ} (hp : ∀ i < n, 0 < p i) (hpt : L.take n = (List.range n).map fun i => 2 / p i) (w : ℂ) :
    ((L.take n).map fun a : ℝ => 1 + w * (a : ℂ) ^ 2).prod =
      (∏ i ∈ Finset.range n, (w + (p i : ℂ) ^ 2 / 4)) * ((((L.take n).map fun a => a ^ 2).prod : ℝ) : ℂ) := by
  rw [hpt, List.map_map, List.map_map, prod_range_list, prod_range_list, Complex.ofReal_prod, ← Finset.prod_mul_distrib]
  refine Finset.prod_congr rfl fun i hi => ?_
  have : (p i : ℂ) ≠ 0 := by exact_mod_cast (hp i (Finset.mem_range.1 hi)).ne'
  simp only [Function.comp_apply]
  push_cast
  field_simp
  ring

/-- The continuant of even order. -/
theorem factor_even {n : ℕ} {b : ℕ → ℝ} (hb : ∀ i, 0 < b i) {L : List ℝ} (hL : fromRoots L = jac (2 * n) (sub b)) (hs : L.Pairwise (· ≥ ·))
    {p : ℕ → ℝ} (hp : ∀ i < n, 0 < p i) (hpt : L.take n = (List.range n).map fun i => 2 / p i) (w : ℂ) :
    cont w (2 * n) (fun i => (b i : ℂ)) = ∏ i ∈ Finset.range n, (w + (p i : ℂ) ^ 2 / 4) := by
  have hr := congrArg (fun x : ℝ => (x : ℂ)) (roots_even hb hL hs)
  simp only [Complex.ofReal_mul, Complex.ofReal_prod, Complex.ofReal_one] at hr
  rw [cont_even hb hL hs w, take_factor hp hpt]
  linear_combination (∏ i ∈ Finset.range n, (w + (p i : ℂ) ^ 2 / 4)) * hr

/-- The continuant of odd order. -/
theorem factor_odd {n : ℕ} {b : ℕ → ℝ} (hb : ∀ i, 0 < b i) {L : List ℝ} (hL : fromRoots L = jac (2 * n + 1) (sub b)) (hs : L.Pairwise (· ≥ ·))
    {p : ℕ → ℝ} (hp : ∀ i < n, 0 < p i) (hpt : L.take n = (List.range n).map fun i => 2 / p i) (w : ℂ) :
    cont w (2 * n + 1) (fun i => (b i : ℂ)) = ((∑ i ∈ Finset.range (n + 1), b (2 * i) : ℝ) : ℂ) * ∏ i ∈ Finset.range n, (w + (p i : ℂ) ^ 2 / 4) := by
  have hr := congrArg (fun x : ℝ => (x : ℂ)) (roots_odd hb hL hs)
  simp only [Complex.ofReal_mul, Complex.ofReal_prod] at hr
  rw [cont_odd hb hL hs w, take_factor hp hpt, ← hr]
  ring

/-- Partial fractions for equal degrees. -/
theorem partial_fractions' {n : ℕ} {P : ℕ → ℂ} (Q : ℕ → ℂ) (hP : Set.InjOn P (Finset.range n)) {y : ℂ} (hy : ∀ i < n, y + P i ≠ 0) :
    (∏ k ∈ Finset.range n, (Q k + y)) / ∏ i ∈ Finset.range n, (y + P i) =
      1 + ∑ i ∈ Finset.range n, (∏ k ∈ Finset.range n, (Q k - P i)) / (∏ l ∈ (Finset.range n).erase i, (P l - P i)) / (y + P i) := by
  have hq : (∏ k ∈ Finset.range n, (X + C (Q k))).Monic := monic_prod_of_monic _ _ fun i _ => monic_X_add_C _
  have hp : (∏ k ∈ Finset.range n, (X + C (P k))).Monic := monic_prod_of_monic _ _ fun i _ => monic_X_add_C _
  have dq : (∏ k ∈ Finset.range n, (X + C (Q k))).degree = (n : WithBot ℕ) := by
    rw [degree_prod]; simp
  have dp : (∏ k ∈ Finset.range n, (X + C (P k))).degree = (n : WithBot ℕ) := by
    rw [degree_prod]; simp
  have hf : (∏ k ∈ Finset.range n, (X + C (Q k)) - ∏ k ∈ Finset.range n, (X + C (P k))).degree < ((Finset.range n).card : WithBot ℕ) := by
    rw [Finset.card_range, ← dq]
    exact degree_sub_lt (by rw [dq, dp]) hq.ne_zero (by rw [hq.leadingCoeff, hp.leadingCoeff])
  have h := Lagrange.eq_interpolate (v := fun i => -P i) (s := Finset.range n) (fun i hi j hj hij => hP hi hj (neg_injective hij)) hf
  have h2 := congrArg (eval y) h
  rw [Lagrange.eval_interpolate_not_at_node _ (fun i hi he => hy i (Finset.mem_range.1 hi) (by rw [he]; ring)), Lagrange.eval_nodal] at h2
  simp only [eval_sub, eval_prod, eval_add, eval_X, eval_C, sub_neg_eq_add, Lagrange.nodalWeight] at h2
  have hne : ∏ i ∈ Finset.range n, (y + P i) ≠ 0 := Finset.prod_ne_zero_iff.2 fun i hi => hy i (Finset.mem_range.1 hi)
  have h3 : ∏ k ∈ Finset.range n, (Q k + y) = ∏ k ∈ Finset.range n, (y + Q k) := Finset.prod_congr rfl fun _ _ => add_comm _ _
  rw [sub_eq_iff_eq_add] at h2
  rw [h3, h2, add_div, div_self hne, mul_div_cancel_left₀ _ hne, add_comm]
  congr 1
  refine Finset.sum_congr rfl fun i hi => ?_
  rw [Finset.prod_inv_distrib]
  have e1 : ∏ l ∈ (Finset.range n).erase i, (-P i + P l) = ∏ l ∈ (Finset.range n).erase i, (P l - P i) :=
    Finset.prod_congr rfl fun _ _ => by ring
  have e2 : ∏ k ∈ Finset.range n, (-P i + Q k) = ∏ k ∈ Finset.range n, (Q k - P i) := Finset.prod_congr rfl fun _ _ => by ring
  have e3 : ∏ k ∈ Finset.range n, (-P i + P k) = 0 := Finset.prod_eq_zero hi (by ring)
  rw [e1, e2, e3]
  ring

end Pade
