import Verif.Model.DvrFunc
import Verif.Lemmas.Sine
import Mathlib.Analysis.SpecialFunctions.Integrals.Basic
import Mathlib.Analysis.Calculus.Deriv.Shift

/-! Integrals of trigonometric functions over a box, and the functions of a sine DVR. -/

open scoped BigOperators
open MeasureTheory

namespace Box

theorem hasDerivAt_phase (c a L x : ℝ) : HasDerivAt (fun x : ℝ => c * Real.pi * (x - a) / L) (c * Real.pi / L) x := by
  have h := (((hasDerivAt_id x).sub_const a).const_mul (c * Real.pi)).div_const L
  simpa using h

theorem hasDerivAt_sin (c a L x : ℝ) :
    HasDerivAt (fun x : ℝ => Real.sin (c * Real.pi * (x - a) / L)) (c * Real.pi / L * Real.cos (c * Real.pi * (x - a) / L)) x := by
  have h := (hasDerivAt_phase c a L x).sin
  convert h using 1
  ring

theorem hasDerivAt_cos (c a L x : ℝ) :
    HasDerivAt (fun x : ℝ => Real.cos (c * Real.pi * (x - a) / L)) (-(c * Real.pi / L * Real.sin (c * Real.pi * (x - a) / L))) x := by
  have h := (hasDerivAt_phase c a L x).cos
  convert h using 1
  ring

theorem continuous_sin (c a L : ℝ) : Continuous fun x : ℝ => Real.sin (c * Real.pi * (x - a) / L) := by fun_prop
theorem continuous_cos (c a L : ℝ) : Continuous fun x : ℝ => Real.cos (c * Real.pi * (x - a) / L) := by fun_prop

/-- The integral of a cosine over the box. -/
theorem integral_cos {L : ℝ} (hL : 0 < L) (a : ℝ) (m : ℤ) :
    (∫ x in a..(a + L), Real.cos (m * Real.pi * (x - a) / L)) = if m = 0 then L else 0 := by
  by_cases h : m = 0
  · subst h
    simp
  · rw [if_neg h]
    have hm : (m : ℝ) ≠ 0 := by exact_mod_cast h
    have hp := Real.pi_pos.ne'
    have hd : ∀ x ∈ Set.uIcc a (a + L), HasDerivAt (fun x : ℝ => L / (m * Real.pi) * Real.sin (m * Real.pi * (x - a) / L))
        (Real.cos (m * Real.pi * (x - a) / L)) x := by
      intro x _
      refine ((hasDerivAt_sin m a L x).const_mul (L / (m * Real.pi))).congr_deriv ?_
      generalize Real.cos (m * Real.pi * (x - a) / L) = c
      have := hL.ne'
      field_simp
    rw [intervalIntegral.integral_eq_sub_of_hasDerivAt hd ((continuous_cos m a L).intervalIntegrable _ _)]
    have e1 : (m : ℝ) * Real.pi * (a + L - a) / L = m * Real.pi := by field_simp; ring
    have e2 : (m : ℝ) * Real.pi * (a - a) / L = 0 := by simp
    rw [e1, e2, Real.sin_int_mul_pi]
    simp

/-- The integral of a sine over the box. -/
theorem integral_sin {L : ℝ} (hL : 0 < L) (a : ℝ) (m : ℤ) (hm : m ≠ 0) :
    (∫ x in a..(a + L), Real.sin (m * Real.pi * (x - a) / L)) = L / (m * Real.pi) * (1 - Real.cos (m * Real.pi)) := by
  have hm : (m : ℝ) ≠ 0 := by exact_mod_cast hm
  have hp := Real.pi_pos.ne'
  have hd : ∀ x ∈ Set.uIcc a (a + L), HasDerivAt (fun x : ℝ => -(L / (m * Real.pi)) * Real.cos (m * Real.pi * (x - a) / L))
      (Real.sin (m * Real.pi * (x - a) / L)) x := by
    intro x _
    refine ((hasDerivAt_cos m a L x).const_mul (-(L / (m * Real.pi)))).congr_deriv ?_
    generalize Real.sin (m * Real.pi * (x - a) / L) = c
    have := hL.ne'
    field_simp
  rw [intervalIntegral.integral_eq_sub_of_hasDerivAt hd ((continuous_sin m a L).intervalIntegrable _ _)]
  have e1 : (m : ℝ) * Real.pi * (a + L - a) / L = m * Real.pi := by field_simp; ring
  have e2 : (m : ℝ) * Real.pi * (a - a) / L = 0 := by simp
  rw [e1, e2, Real.cos_zero]
  ring

theorem cos_int_pi (m : ℤ) : 1 - Real.cos (m * Real.pi) = 2 * ((m % 2 : ℤ) : ℝ) := by
  have h : Real.cos (m * Real.pi) = (-1) ^ m := Real.cos_int_mul_pi m
  rcases Int.emod_two_eq_zero_or_one m with h0 | h0
  · rw [h0, h, (Int.even_iff.2 h0).neg_one_zpow]
    norm_num
  · rw [h0, h, (Int.odd_iff.2 h0).neg_one_zpow]
    norm_num

/-- The sine functions are orthonormal on the box. -/
theorem integral_sin_sin {L : ℝ} (hL : 0 < L) (a : ℝ) (j k : ℕ) :
    (∫ x in a..(a + L), (Real.sqrt (2 / L) * Real.sin (((j : ℝ) + 1) * Real.pi * (x - a) / L)) *
      (Real.sqrt (2 / L) * Real.sin (((k : ℝ) + 1) * Real.pi * (x - a) / L))) = if j = k then 1 else 0 := by
  have h2 : Real.sqrt (2 / L) * Real.sqrt (2 / L) = 2 / L := Real.mul_self_sqrt (by positivity)
  have e : ∀ x : ℝ, (Real.sqrt (2 / L) * Real.sin (((j : ℝ) + 1) * Real.pi * (x - a) / L)) *
      (Real.sqrt (2 / L) * Real.sin (((k : ℝ) + 1) * Real.pi * (x - a) / L)) =
      1 / L * (Real.cos ((((j : ℤ) - k : ℤ) : ℝ) * Real.pi * (x - a) / L) - Real.cos ((((j : ℤ) + k + 2 : ℤ) : ℝ) * Real.pi * (x - a) / L)) := by
    intro x
    have e1 : (((j : ℤ) - k : ℤ) : ℝ) * Real.pi * (x - a) / L = ((j : ℝ) + 1) * Real.pi * (x - a) / L - ((k : ℝ) + 1) * Real.pi * (x - a) / L := by
      push_cast; ring
    have e2 : (((j : ℤ) + k + 2 : ℤ) : ℝ) * Real.pi * (x - a) / L = ((j : ℝ) + 1) * Real.pi * (x - a) / L + ((k : ℝ) + 1) * Real.pi * (x - a) / L := by
      push_cast; ring
    rw [e1, e2, Real.cos_sub, Real.cos_add, mul_mul_mul_comm, h2]
    ring
  simp only [e]
  rw [intervalIntegral.integral_const_mul,
    intervalIntegral.integral_sub ((continuous_cos _ a L).intervalIntegrable _ _) ((continuous_cos _ a L).intervalIntegrable _ _),
    integral_cos hL, integral_cos hL, if_neg (by omega : ¬((j : ℤ) + k + 2 = 0))]
  by_cases h : j = k
  · rw [if_pos (by omega), if_pos h]
    field_simp
    simp
  · rw [if_neg (by omega), if_neg h]
    simp

/-- The matrix elements of the derivative between the sine functions. -/
theorem integral_sin_cos {L : ℝ} (hL : 0 < L) (a : ℝ) (j k : ℕ) :
    (∫ x in a..(a + L), (Real.sqrt (2 / L) * Real.sin (((j : ℝ) + 1) * Real.pi * (x - a) / L)) *
      (Real.sqrt (2 / L) * (((k : ℝ) + 1) * Real.pi / L * Real.cos (((k : ℝ) + 1) * Real.pi * (x - a) / L)))) =
      if j = k then 0 else (((j : ℤ) - k) % 2 : ℤ) * 4 * ((j : ℝ) + 1) * ((k : ℝ) + 1) / (((j : ℝ) + 1) ^ 2 - ((k : ℝ) + 1) ^ 2) / L := by
  have h2 : Real.sqrt (2 / L) * Real.sqrt (2 / L) = 2 / L := Real.mul_self_sqrt (by positivity)
  have hp := Real.pi_pos.ne'
  have e : ∀ x : ℝ, (Real.sqrt (2 / L) * Real.sin (((j : ℝ) + 1) * Real.pi * (x - a) / L)) *
      (Real.sqrt (2 / L) * (((k : ℝ) + 1) * Real.pi / L * Real.cos (((k : ℝ) + 1) * Real.pi * (x - a) / L))) =
      (((k : ℝ) + 1) * Real.pi / L ^ 2) *
        (Real.sin ((((j : ℤ) - k : ℤ) : ℝ) * Real.pi * (x - a) / L) + Real.sin ((((j : ℤ) + k + 2 : ℤ) : ℝ) * Real.pi * (x - a) / L)) := by
    intro x
    have e1 : (((j : ℤ) - k : ℤ) : ℝ) * Real.pi * (x - a) / L = ((j : ℝ) + 1) * Real.pi * (x - a) / L - ((k : ℝ) + 1) * Real.pi * (x - a) / L := by
      push_cast; ring
    have e2 : (((j : ℤ) + k + 2 : ℤ) : ℝ) * Real.pi * (x - a) / L = ((j : ℝ) + 1) * Real.pi * (x - a) / L + ((k : ℝ) + 1) * Real.pi * (x - a) / L := by
      push_cast; ring
    rw [e1, e2, Real.sin_sub, Real.sin_add, mul_mul_mul_comm, h2]
    generalize Real.sin (((j : ℝ) + 1) * Real.pi * (x - a) / L) = s
    generalize Real.cos (((k : ℝ) + 1) * Real.pi * (x - a) / L) = c
    field_simp
    ring
  simp only [e]
  rw [intervalIntegral.integral_const_mul,
    intervalIntegral.integral_add ((continuous_sin _ a L).intervalIntegrable _ _) ((continuous_sin _ a L).intervalIntegrable _ _),
    integral_sin hL a ((j : ℤ) + k + 2) (by omega), cos_int_pi]
  by_cases h : j = k
  · subst h
    have h3 : ((j : ℤ) + j + 2) % 2 = 0 := by omega
    rw [if_pos rfl, h3]
    simp
  · have hjk : ((j : ℤ) - k) ≠ 0 := by omega
    have h3 : ((j : ℤ) + k + 2) % 2 = ((j : ℤ) - k) % 2 := by omega
    rw [if_neg h, integral_sin hL a ((j : ℤ) - k) hjk, cos_int_pi, h3]
    have n1 : ((j : ℝ) - k) ≠ 0 := by exact_mod_cast hjk
    have n2 : ((j : ℝ) + k + 2) ≠ 0 := by positivity
    have n3 : ((j : ℝ) + 1) ^ 2 - ((k : ℝ) + 1) ^ 2 ≠ 0 := by
      rw [show ((j : ℝ) + 1) ^ 2 - ((k : ℝ) + 1) ^ 2 = ((j : ℝ) - k) * ((j : ℝ) + k + 2) by ring]
      exact mul_ne_zero n1 n2
    push_cast
    generalize ((((j : ℤ) - k) % 2 : ℤ) : ℝ) = q
    field_simp
    ring

/-- A function that vanishes outside the box and agrees with another one inside has its integral over the box. -/
theorem integral_box {L : ℝ} (hL : 0 < L) (a : ℝ) {f g : ℝ → ℂ} (h1 : ∀ x, a < x → x < a + L → f x = g x)
    (h0 : ∀ x, ¬(a < x ∧ x < a + L) → f x = 0) : (∫ x, f x) = ∫ x in a..(a + L), g x := by
  have e : f = (Set.Ioo a (a + L)).indicator g := by
    funext x
    by_cases hx : x ∈ Set.Ioo a (a + L)
    · rw [Set.indicator_of_mem hx, h1 x hx.1 hx.2]
    · rw [Set.indicator_of_notMem hx, h0 x hx]
  rw [e, integral_indicator measurableSet_Ioo, intervalIntegral.integral_of_le (by linarith), integral_Ioc_eq_integral_Ioo]

end Box
