import Mathlib.Topology.Algebra.Order.Field
import Verif.Lemmas.PsdThird

/-!
Lemmas for C75: the behaviour of a continued fraction at infinity, and the continued fraction of `pade=3`.
-/

open scoped BigOperators Nat Topology
open Polynomial Py Filter

namespace Pade

/-- The tail of a continued fraction of odd order. -/
noncomputable def fr (b : ℕ → ℝ) (n : ℕ) (w : ℝ) : ℝ := w * cont w (2 * n) (fun i => b (i + 1)) / cont w (2 * n + 1) b

theorem cont_pos {w : ℝ} (hw : 0 ≤ w) (m : ℕ) {b : ℕ → ℝ} (hb : ∀ i, 0 < b i) : 0 < cont w m b :=
  (Finset.prod_pos fun i _ => hb i).trans_le (cont_ge hw m hb)

theorem fr_succ {b : ℕ → ℝ} (hb : ∀ i, 0 < b i) (n : ℕ) {w : ℝ} (hw : 0 ≤ w) :
    fr b (n + 1) w = w * (b 1 + fr (fun i => b (i + 2)) n w) / (b 0 * (b 1 + fr (fun i => b (i + 2)) n w) + w) := by
  unfold fr
  have e1 : cont w (2 * (n + 1)) (fun i => b (i + 1)) = b 1 * cont w (2 * n + 1) (fun i => b (i + 2)) + w * cont w (2 * n) (fun i => b (i + 3)) := rfl
  have e2 : cont w (2 * (n + 1) + 1) b = b 0 * cont w (2 * (n + 1)) (fun i => b (i + 1)) + w * cont w (2 * n + 1) (fun i => b (i + 2)) := rfl
  have p1 := cont_pos hw (2 * n + 1) (b := fun i => b (i + 2)) fun i => hb _
  have p2 := cont_pos hw (2 * (n + 1) + 1) hb
  rw [e2, e1] at p2
  rw [e2, e1]
  generalize cont w (2 * n + 1) (fun i => b (i + 2)) = D at *
  change w * (b 1 * D + w * cont w (2 * n) (fun i => b (i + 3))) / (b 0 * (b 1 * D + w * cont w (2 * n) (fun i => b (i + 3))) + w * D) =
    w * (b 1 + w * cont w (2 * n) (fun i => b (i + 3)) / D) / (b 0 * (b 1 + w * cont w (2 * n) (fun i => b (i + 3)) / D) + w)
  generalize cont w (2 * n) (fun i => b (i + 3)) = Cc at *
  have e3 : b 0 * (b 1 + w * Cc / D) + w = (b 0 * (b 1 * D + w * Cc) + w * D) / D := by field_simp
  have e4 : w * (b 1 + w * Cc / D) = w * (b 1 * D + w * Cc) / D := by field_simp
  rw [e3, e4, div_div_div_cancel_right₀ p1.ne']

/-- The behaviour at infinity. -/
theorem fr_limit : ∀ (n : ℕ) {b : ℕ → ℝ} (_ : ∀ i, 0 < b i),
    Tendsto (fun w => fr b n w - w / ∑ k ∈ Finset.range (n + 1), b (2 * k)) atTop
      (𝓝 ((∑ i ∈ Finset.range n, b (2 * i + 1) * (∑ k ∈ Finset.range (n + 1), b (2 * k) - ∑ k ∈ Finset.range (i + 1), b (2 * k)) ^ 2) /
        (∑ k ∈ Finset.range (n + 1), b (2 * k)) ^ 2))
  | 0, b, hb => by
    simp only [Finset.range_zero, Finset.sum_empty, zero_div]
    refine tendsto_const_nhds.congr fun w => ?_
    simp [fr, cont]
  | n + 1, b, hb => by
    have ih := fr_limit n (b := fun i => b (i + 2)) fun i => hb _
    have hR' : 0 < ∑ k ∈ Finset.range (n + 1), b (2 * k + 2) := Finset.sum_pos (fun k _ => hb _) ⟨0, by simp⟩
    have hR : ∀ m, ∑ k ∈ Finset.range (m + 1), b (2 * k) = ∑ k ∈ Finset.range m, b (2 * k + 2) + b 0 := fun m => by
      rw [Finset.sum_range_succ']
      rfl
    have hsum : ∑ i ∈ Finset.range (n + 1), b (2 * i + 1) * (∑ k ∈ Finset.range (n + 1 + 1), b (2 * k) - ∑ k ∈ Finset.range (i + 1), b (2 * k)) ^ 2 =
        ∑ i ∈ Finset.range n, b (2 * i + 1 + 2) * (∑ k ∈ Finset.range (n + 1), b (2 * k + 2) - ∑ k ∈ Finset.range (i + 1), b (2 * k + 2)) ^ 2 +
          b 1 * (∑ k ∈ Finset.range (n + 1), b (2 * k + 2)) ^ 2 := by
      rw [Finset.sum_range_succ']
      congr 1
      · refine Finset.sum_congr rfl fun i _ => ?_
        rw [hR, hR (i + 1)]
        ring_nf
      · rw [hR]
        simp
    rw [hsum]
    simp only [hR (n + 1)]
    generalize ∑ i ∈ Finset.range n, b (2 * i + 1 + 2) * (∑ k ∈ Finset.range (n + 1), b (2 * k + 2) - ∑ k ∈ Finset.range (i + 1), b (2 * k + 2)) ^ 2 = G at *
    generalize ∑ k ∈ Finset.range (n + 1), b (2 * k + 2) = R at *
    have h0 := hb 0
    have hinv : Tendsto (fun w : ℝ => w⁻¹) atTop (𝓝 0) := tendsto_inv_atTop_zero
    have hv : Tendsto (fun w => b 0 * (b 1 * w⁻¹ + (fr (fun i => b (i + 2)) n w - w / R) * w⁻¹ + 1 / R) + 1) atTop (𝓝 (b 0 * (b 1 * 0 + G / R ^ 2 * 0 + 1 / R) + 1)) :=
      ((((hinv.const_mul (b 1)).add (ih.mul hinv)).add_const _).const_mul _).add_const _
    have hu : Tendsto (fun w => R * (b 1 + (fr (fun i => b (i + 2)) n w - w / R))) atTop (𝓝 (R * (b 1 + G / R ^ 2))) := (ih.const_add _).const_mul _
    have hlim := hu.div (hv.mul_const (R + b 0)) (by
      have : 0 < b 0 * (1 / R) + 1 := by positivity
      have := hR'
      have : 0 < R + b 0 := by positivity
      simp only [mul_zero, zero_add]
      positivity)
    have e : R * (b 1 + G / R ^ 2) / ((b 0 * (b 1 * 0 + G / R ^ 2 * 0 + 1 / R) + 1) * (R + b 0)) = (G + b 1 * R ^ 2) / (R + b 0) ^ 2 := by
      have : 0 < R + b 0 := by positivity
      have e1 : b 0 * (b 1 * 0 + G / R ^ 2 * 0 + 1 / R) + 1 = (R + b 0) / R := by field_simp; ring
      rw [e1]
      field_simp
      ring
    rw [e] at hlim
    refine hlim.congr' ?_
    filter_upwards [eventually_gt_atTop 0] with w hw
    rw [Pi.div_apply, fr_succ hb n hw.le]
    have hf : 0 ≤ fr (fun i => b (i + 2)) n w := by
      unfold fr
      have p1 := cont_pos hw.le (2 * n + 1) (b := fun i => b (i + 2)) fun i => hb _
      have p2 := cont_pos hw.le (2 * n) (b := fun i => b (i + 1 + 2)) fun i => hb _
      positivity
    have h1 := hb 1
    generalize fr (fun i => b (i + 2)) n w = f at *
    have hd : 0 < b 0 * (b 1 + f) + w := by positivity
    have hs : 0 < R + b 0 := by positivity
    have e1 : b 0 * (b 1 * w⁻¹ + (f - w / R) * w⁻¹ + 1 / R) + 1 = (b 0 * (b 1 + f) + w) / w := by field_simp; ring
    rw [e1]
    field_simp
    ring

/-- The product of the partial denominators, of even order. -/
theorem bt_prod_even (bf n : ℕ) : ∏ i ∈ Finset.range (2 * n), bt bf i = (∏ i ∈ Finset.range (2 * n + 1), bk bf i) / ((n + 1) * (tk bf + 2 * n)) := by
  have ht := tk_pos bf
  induction n with
  | zero => simp [bk, ht.ne']
  | succ n ih =>
    rw [show 2 * (n + 1) = 2 * n + 1 + 1 by ring, Finset.prod_range_succ, Finset.prod_range_succ, ih, bt_even, bt_odd, Finset.prod_range_succ _ (2 * n + 1 + 1),
      Finset.prod_range_succ _ (2 * n + 1)]
    generalize ∏ i ∈ Finset.range (2 * n + 1), bk bf i = E
    unfold bk
    have h1 : (n : ℝ) + 1 ≠ 0 := by positivity
    have h2 : (n : ℝ) + 2 ≠ 0 := by positivity
    have h3 : tk bf + 2 * (n : ℝ) ≠ 0 := by positivity
    have h4 : tk bf + 2 * (n : ℝ) + 2 ≠ 0 := by positivity
    push_cast
    rw [show (n : ℝ) + 1 + 1 = n + 2 by ring, show tk bf + 2 * ((n : ℝ) + 1) = tk bf + 2 * n + 2 by ring]
    field_simp
    ring

/-- The product of the partial denominators, of odd order. -/
theorem bt_prod_odd (bf n : ℕ) : ∏ i ∈ Finset.range (2 * n + 1), bt bf i = 4 * (n + 1) * (tk bf + 2 * n) * ∏ i ∈ Finset.range (2 * n + 2), bk bf i := by
  have ht := tk_pos bf
  rw [Finset.prod_range_succ, bt_prod_even, bt_even, Finset.prod_range_succ _ (2 * n + 1)]
  generalize ∏ i ∈ Finset.range (2 * n + 1), bk bf i = E
  unfold bk
  have h1 : (n : ℝ) + 1 ≠ 0 := by positivity
  have h3 : tk bf + 2 * (n : ℝ) ≠ 0 := by positivity
  push_cast
  field_simp
  ring

/-- The solutions of the recurrence. -/
noncomputable def ht (bf j : ℕ) (w : ℂ) : ℂ :=
  if j % 2 = 0 then hk bf j w + (j / 2 : ℕ) * (tk bf + 2 * (j / 2 : ℕ) - 2) * hk bf (j + 1) w
  else hk bf (j + 1) w / (4 * ((j / 2 : ℕ) + 1) * (tk bf + 2 * (j / 2 : ℕ)))

theorem ht_even (bf k : ℕ) (w : ℂ) : ht bf (2 * k) w = hk bf (2 * k) w + k * (tk bf + 2 * k - 2) * hk bf (2 * k + 1) w := by
  unfold ht
  rw [if_pos (by omega), show 2 * k / 2 = k by omega]

theorem ht_odd (bf k : ℕ) (w : ℂ) : ht bf (2 * k + 1) w = hk bf (2 * k + 2) w / (4 * (k + 1) * (tk bf + 2 * k)) := by
  unfold ht
  rw [if_neg (by omega), show (2 * k + 1) / 2 = k by omega]

theorem tk_ne (bf k : ℕ) : ((tk bf : ℝ) : ℂ) + 2 * k ≠ 0 := by
  have := tk_pos bf
  have h : (tk bf + 2 * k : ℝ) ≠ 0 := by positivity
  exact_mod_cast h

theorem ht_rec (bf : ℕ) (w : ℂ) (j : ℕ) : ht bf j w = ((bt bf j : ℝ) : ℂ) * ht bf (j + 1) w + w * ht bf (j + 2) w := by
  obtain ⟨k, hk'⟩ := Nat.even_or_odd' j
  have h1 : (k : ℂ) + 1 ≠ 0 := by exact_mod_cast Nat.succ_ne_zero k
  have h2 : (k : ℂ) + 2 ≠ 0 := by exact_mod_cast Nat.succ_ne_zero (k + 1)
  have h3 := tk_ne bf k
  have h4 : ((tk bf : ℝ) : ℂ) + 2 * k + 2 ≠ 0 := by
    have := tk_ne bf (k + 1)
    push_cast at this
    convert this using 1
    ring
  rcases hk' with rfl | rfl
  · have r0 := hk_rec bf w (2 * k)
    have r1 := hk_rec bf w (2 * k + 1)
    rw [ht_even, ht_odd, show 2 * k + 2 = 2 * (k + 1) by ring, ht_even, bt_even]
    simp only [show 2 * (k + 1) = 2 * k + 2 by ring, Nat.add_assoc, Nat.reduceAdd] at r0 r1 ⊢
    rw [r0, r1]
    unfold bk
    push_cast
    field_simp
    ring
  · have r0 := hk_rec bf w (2 * k + 2)
    rw [ht_odd, show 2 * k + 1 + 1 = 2 * (k + 1) by ring, ht_even, show 2 * k + 1 + 2 = 2 * (k + 1) + 1 by ring, ht_odd, bt_odd]
    simp only [show 2 * (k + 1) = 2 * k + 2 by ring, Nat.add_assoc, Nat.reduceAdd] at r0 ⊢
    rw [r0]
    unfold bk
    push_cast
    rw [show (k : ℂ) + 1 + 1 = k + 2 by ring, show (tk bf : ℂ) + 2 * ((k : ℂ) + 1) = tk bf + 2 * k + 2 by ring]
    field_simp
    ring

end Pade
