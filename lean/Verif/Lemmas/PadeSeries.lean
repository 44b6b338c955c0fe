import Mathlib.Analysis.SpecialFunctions.Trigonometric.Series
import Mathlib.Analysis.SpecialFunctions.Exponential
import Mathlib.Data.Nat.Factorial.DoubleFactorial
import Mathlib.Tactic.FieldSimp
import Mathlib.Tactic.LinearCombination
import Mathlib.Tactic.Positivity

/-!
The power series of the modified spherical Bessel functions, whose continued fraction gives the Padé approximants of the Bose function.
-/

open scoped BigOperators Nat

namespace Pade

/-- The coefficients. -/
noncomputable def gc (k m : ℕ) : ℝ := 1 / (2 ^ m * m ! * (2 * k + 2 * m + 1)‼)

theorem gc_pos (k m : ℕ) : 0 < gc k m := by
  unfold gc
  have := Nat.doubleFactorial_pos (2 * k + 2 * m + 1)
  have := Nat.factorial_pos m
  positivity

theorem gc_rec (k m : ℕ) : gc k (m + 1) = (2 * k + 3) * gc (k + 1) (m + 1) + gc (k + 2) m := by
  unfold gc
  have e1 : 2 * (k + 1) + 2 * (m + 1) + 1 = (2 * k + 2 * m + 3) + 2 := by ring
  have e2 : 2 * (k + 2) + 2 * m + 1 = (2 * k + 2 * m + 3) + 2 := by ring
  have e3 : 2 * k + 2 * (m + 1) + 1 = 2 * k + 2 * m + 3 := by ring
  rw [e1, e2, e3, Nat.doubleFactorial_add_two (2 * k + 2 * m + 3), Nat.factorial_succ]
  have h1 := (Nat.cast_pos (α := ℝ)).2 (Nat.doubleFactorial_pos (2 * k + 2 * m + 3))
  have h2 := (Nat.cast_pos (α := ℝ)).2 (Nat.factorial_pos m)
  push_cast
  generalize ((2 * k + 2 * m + 3)‼ : ℝ) = u at h1 ⊢
  field_simp
  ring

theorem gc_rec_zero (k : ℕ) : gc k 0 = (2 * k + 3) * gc (k + 1) 0 := by
  unfold gc
  rw [show 2 * (k + 1) + 2 * 0 + 1 = (2 * k + 1) + 2 by ring, Nat.doubleFactorial_add_two]
  have h1 := (Nat.cast_pos (α := ℝ)).2 (Nat.doubleFactorial_pos (2 * k + 1))
  simp only [mul_zero, add_zero, Nat.factorial_zero, pow_zero]
  push_cast
  field_simp
  ring

theorem gc_zero (m : ℕ) : gc 0 m = 1 / (2 * m + 1)! := by
  unfold gc
  rw [Nat.factorial_eq_mul_doubleFactorial, Nat.doubleFactorial_two_mul]
  push_cast
  rw [zero_add, mul_comm]

/-- The quotients of the coefficients. -/
theorem gc_le (k m : ℕ) : gc k m * (2 * k + 1)‼ ≤ gc 0 m := by
  induction k with
  | zero => simp [Nat.doubleFactorial]
  | succ k ih =>
    refine le_trans ?_ ih
    have h := gc_pos (k + 1) m
    have e : gc k m = (2 * k + 2 * m + 3) * gc (k + 1) m := by
      unfold gc
      rw [show 2 * (k + 1) + 2 * m + 1 = (2 * k + 2 * m + 1) + 2 by ring, Nat.doubleFactorial_add_two]
      have h1 := (Nat.cast_pos (α := ℝ)).2 (Nat.doubleFactorial_pos (2 * k + 2 * m + 1))
      have h2 := (Nat.cast_pos (α := ℝ)).2 (Nat.factorial_pos m)
      push_cast
      field_simp
      ring
    rw [e, show 2 * (k + 1) + 1 = (2 * k + 1) + 2 by ring, Nat.doubleFactorial_add_two]
    push_cast
    have h1 := (Nat.cast_pos (α := ℝ)).2 (Nat.doubleFactorial_pos (2 * k + 1))
    have : (0 : ℝ) ≤ 2 * m * gc (k + 1) m * (2 * k + 1)‼ := by positivity
    nlinarith [this]

theorem gc_le_factorial (k m : ℕ) : gc k m ≤ 1 / m ! := by
  unfold gc
  have h2 := (Nat.cast_pos (α := ℝ)).2 (Nat.factorial_pos m)
  apply one_div_le_one_div_of_le h2
  have h1 : (1 : ℝ) ≤ (2 * k + 2 * m + 1)‼ := by exact_mod_cast Nat.doubleFactorial_pos (2 * k + 2 * m + 1)
  have h3 : (1 : ℝ) ≤ 2 ^ m := one_le_pow₀ (by norm_num)
  calc (m ! : ℝ) = 1 * m ! * 1 := by ring
    _ ≤ 2 ^ m * m ! * (2 * k + 2 * m + 1)‼ := by gcongr

/-- The functions. -/
noncomputable def gs (k : ℕ) (w : ℂ) : ℂ := ∑' m, (gc k m : ℂ) * w ^ m

theorem gs_norm (k : ℕ) (w : ℂ) (m : ℕ) : ‖(gc k m : ℂ) * w ^ m‖ ≤ ‖w‖ ^ m / m ! := by
  rw [norm_mul, norm_pow, Complex.norm_real, Real.norm_eq_abs, abs_of_pos (gc_pos k m)]
  have := gc_le_factorial k m
  calc gc k m * ‖w‖ ^ m ≤ 1 / m ! * ‖w‖ ^ m := by gcongr
    _ = _ := by ring

theorem gs_summable (k : ℕ) (w : ℂ) : Summable fun m => (gc k m : ℂ) * w ^ m :=
  Summable.of_norm_bounded (Real.summable_pow_div_factorial ‖w‖) (gs_norm k w)

theorem gs_bound (k : ℕ) (w : ℂ) : ‖gs k w‖ ≤ Real.exp ‖w‖ := by
  have h : HasSum (fun m => ‖w‖ ^ m / m !) (Real.exp ‖w‖) := by
    have := NormedSpace.expSeries_div_hasSum_exp (‖w‖)
    rwa [← Real.exp_eq_exp_ℝ] at this
  exact tsum_of_norm_bounded h (gs_norm k w)

/-- The three term recurrence. -/
theorem gs_rec (w : ℂ) (k : ℕ) : gs k w = (2 * k + 3) * gs (k + 1) w + w * gs (k + 2) w := by
  unfold gs
  rw [(gs_summable k w).tsum_eq_zero_add, (gs_summable (k + 1) w).tsum_eq_zero_add, mul_add, ← tsum_mul_left, ← tsum_mul_left, add_assoc,
    ← Summable.tsum_add]
  · congr 1
    · rw [gc_rec_zero]; push_cast; ring
    · congr 1
      funext m
      rw [gc_rec]
      push_cast
      ring
  · exact (((summable_nat_add_iff 1).2 (gs_summable (k + 1) w))).mul_left _
  · exact (gs_summable (k + 2) w).mul_left _

theorem gs_sinh (z : ℂ) : z * gs 0 (z ^ 2) = Complex.sinh z := by
  rw [Complex.sinh_eq_tsum, gs, ← tsum_mul_left]
  congr 1
  funext m
  rw [gc_zero]
  push_cast
  rw [← pow_mul, pow_succ z]
  ring

theorem gs_cosh (z : ℂ) : gs 0 (z ^ 2) + z ^ 2 * gs 1 (z ^ 2) = Complex.cosh z := by
  have h := Complex.hasSum_cosh z
  rw [← h.tsum_eq, h.summable.tsum_eq_zero_add, gs, gs, (gs_summable 0 _).tsum_eq_zero_add, ← tsum_mul_left, add_assoc, ← Summable.tsum_add]
  · congr 1
    · simp [gc]
    · congr 1
      funext m
      have e : gc 0 (m + 1) + gc 1 m = 1 / (2 * (m + 1))! := by
        rw [gc_zero]
        unfold gc
        rw [show 2 * 1 + 2 * m + 1 = (2 * m + 1) + 2 by ring, Nat.doubleFactorial_add_two, Nat.factorial_succ (2 * (m + 1)),
          show 2 * (m + 1) = (2 * m + 1) + 1 by ring, Nat.factorial_eq_mul_doubleFactorial (2 * m + 1), show 2 * m + 1 + 1 = 2 * (m + 1) by ring,
          Nat.doubleFactorial_two_mul, Nat.factorial_succ]
        have h1 := (Nat.cast_pos (α := ℝ)).2 (Nat.doubleFactorial_pos (2 * m + 1))
        have h2 := (Nat.cast_pos (α := ℝ)).2 (Nat.factorial_pos m)
        push_cast
        field_simp
        ring
      have e' : (gc 0 (m + 1) : ℂ) + gc 1 m = 1 / (2 * (m + 1))! := by
        rw [← Complex.ofReal_add, e]; push_cast; rfl
      rw [pow_mul z 2 (m + 1)]
      linear_combination (z ^ 2) ^ (m + 1) * e'
  · exact ((summable_nat_add_iff 1).2 (gs_summable 0 _))
  · exact (gs_summable 1 _).mul_left _

/-- The functions at non-negative real arguments. -/
noncomputable def gr (k : ℕ) (r : ℝ) : ℝ := ∑' m, gc k m * r ^ m

theorem gr_eq (k : ℕ) (r : ℝ) : gs k (r : ℂ) = (gr k r : ℂ) := by
  unfold gs gr
  rw [Complex.ofReal_tsum]
  congr 1
  funext m
  push_cast
  rfl

theorem gr_summable (k : ℕ) (r : ℝ) : Summable fun m => gc k m * r ^ m := by
  have := gs_summable k (r : ℂ)
  exact_mod_cast this

theorem gr_pos (k : ℕ) {r : ℝ} (hr : 0 ≤ r) : 0 < gr k r :=
  (gr_summable k r).tsum_pos (fun m => mul_nonneg (gc_pos k m).le (pow_nonneg hr m)) 0 (by simpa using gc_pos k 0)

theorem gr_le (k : ℕ) {r : ℝ} (hr : 0 ≤ r) : gr k r * (2 * k + 1)‼ ≤ gr 0 r := by
  unfold gr
  rw [← tsum_mul_right]
  refine Summable.tsum_le_tsum (fun m => ?_) ((gr_summable k r).mul_right _) (gr_summable 0 r)
  have := mul_le_mul_of_nonneg_right (gc_le k m) (pow_nonneg hr m)
  linarith

end Pade
