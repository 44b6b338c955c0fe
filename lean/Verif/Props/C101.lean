import Verif.Props.C100
import Mathlib.Analysis.Calculus.Deriv.MeanValue

/-!
C101: the window functions.
C102: the model potentials.
-/

namespace Numerical

/-! ### Specification -/

/-- A window for a signal on the times from `-T` to `T`: it is 1 at time 0 and vanishes at both ends, it is even, and it does not increase
with the distance from time 0. -/
structure Window (T : ℝ) (g : ℝ → ℝ) : Prop where
  top : g 0 = 1
  ends : g T = 0 ∧ g (-T) = 0
  even : ∀ t, g (-t) = g t
  decreasing : ∀ s t, |s| ≤ |t| → |t| ≤ T → g t ≤ g s

/-- The values of a window lie between 0 and 1. -/
theorem Window.range {T : ℝ} {g : ℝ → ℝ} (h : Window T g) {t : ℝ} (ht : |t| ≤ T) : 0 ≤ g t ∧ g t ≤ 1 := by
  have hT : 0 ≤ T := (abs_nonneg t).trans ht
  constructor
  · rw [← h.ends.1]
    exact h.decreasing t T (by rw [abs_of_nonneg hT]; exact ht) (by rw [abs_of_nonneg hT])
  · rw [← h.top]
    exact h.decreasing 0 t (by simp) ht

/-! ### C101 -/

/-- `g0prime(T)` is a window. -/
theorem C101_g0prime {T : ℝ} (hT : 0 < T) : Window T (g0prime T) where
  top := by simp [g0prime]
  ends := by simp [g0prime, abs_of_pos hT, hT.ne']
  even t := by simp [g0prime]
  decreasing s t h _ := by
    unfold g0prime
    have : |s| / T ≤ |t| / T := div_le_div_of_nonneg_right h hT.le
    linarith

theorem g1_even (T t : ℝ) : g1prime T (-t) = g1prime T t := by
  unfold g1prime
  dsimp only
  rw [abs_neg, show Real.pi * -t / T = -(Real.pi * t / T) by ring, Real.cos_neg]

theorem g1_abs (T t : ℝ) : g1prime T t = g1prime T |t| := by
  rcases abs_choice t with h | h
  · rw [h]
  · rw [h, g1_even]

theorem g1_antitone {T : ℝ} (hT : 0 < T) : AntitoneOn (fun t : ℝ => (1 - t / T) * Real.cos (Real.pi * t / T) + Real.sin (Real.pi * t / T) / Real.pi)
    (Set.Icc 0 T) := by
  have hp := Real.pi_pos
  have d : ∀ t, HasDerivAt (fun t : ℝ => (1 - t / T) * Real.cos (Real.pi * t / T) + Real.sin (Real.pi * t / T) / Real.pi)
      (-(Real.pi / T) * (1 - t / T) * Real.sin (Real.pi * t / T)) t := by
    intro t
    have h0 : HasDerivAt (fun t : ℝ => Real.pi * t / T) (Real.pi / T) t := by
      simpa using ((hasDerivAt_id t).const_mul Real.pi).div_const T
    have h1 : HasDerivAt (fun t : ℝ => 1 - t / T) (-(1 / T)) t := by
      simpa using ((hasDerivAt_id t).div_const T).const_sub 1
    refine ((h1.mul h0.cos).add (h0.sin.div_const Real.pi)).congr_deriv ?_
    generalize Real.sin (Real.pi * t / T) = s
    generalize Real.cos (Real.pi * t / T) = c
    field_simp
    ring
  refine antitoneOn_of_deriv_nonpos (convex_Icc 0 T) (fun t _ => (d t).continuousAt.continuousWithinAt)
    (fun t _ => (d t).differentiableAt.differentiableWithinAt) fun t ht => ?_
  rw [interior_Icc] at ht
  rw [(d t).deriv]
  have h1 : 0 ≤ 1 - t / T := by
    have : t / T ≤ 1 := (div_le_one hT).2 ht.2.le
    linarith
  have h2 : 0 ≤ Real.sin (Real.pi * t / T) := by
    apply Real.sin_nonneg_of_nonneg_of_le_pi
    · have := ht.1
      positivity
    · rw [div_le_iff₀ hT]
      exact mul_le_mul_of_nonneg_left ht.2.le hp.le
  have h3 : 0 ≤ Real.pi / T := by positivity
  have := mul_nonneg (mul_nonneg h3 h1) h2
  linarith

/-- `g1prime(T)` is a window. -/
theorem C101_g1prime {T : ℝ} (hT : 0 < T) : Window T (g1prime T) where
  top := by simp [g1prime]
  ends := by
    have h : g1prime T T = 0 := by
      unfold g1prime
      dsimp only
      rw [abs_of_pos hT, div_self hT.ne', mul_div_assoc, div_self hT.ne', mul_one, Real.sin_pi]
      simp
    exact ⟨h, by rw [g1_even, h]⟩
  even := g1_even T
  decreasing s t h ht := by
    have key := g1_antitone hT ⟨abs_nonneg s, h.trans ht⟩ ⟨abs_nonneg t, ht⟩ h
    rw [g1_abs T s, g1_abs T t]
    unfold g1prime
    dsimp only at key ⊢
    rw [abs_abs, abs_abs]
    exact key

/-- A window of length 10, at time 5. -/
example : Window 10 (g0prime 10) ∧ g0prime 10 5 = 1 / 2 ∧ Window 10 (g1prime 10) ∧ g1prime 10 5 = 1 / Real.pi := by
  refine ⟨C101_g0prime (by norm_num), by norm_num [g0prime], C101_g1prime (by norm_num), ?_⟩
  unfold g1prime
  dsimp only
  have : Real.pi * 5 / 10 = Real.pi / 2 := by ring
  rw [abs_of_pos (by norm_num : (0 : ℝ) < 5), this, Real.cos_pi_div_two, Real.sin_pi_div_two]
  simp

/-! ### C102 -/

/-- `w_well(d0, a)` is the documented double well: its minima are 0, at `-a` and `a` and nowhere else, between them there is a barrier of
height `d0` at 0, and outside the wells it increases. -/
theorem C102_w_well {d0 a : ℝ} (hd : 0 < d0) (ha : 0 < a) :
    (∀ x, 0 ≤ wWell d0 a x) ∧ (∀ x, wWell d0 a x = 0 ↔ x = a ∨ x = -a) ∧ wWell d0 a 0 = d0 ∧ (∀ x, |x| ≤ a → wWell d0 a x ≤ d0) ∧
    ∀ x y, a ≤ |x| → |x| ≤ |y| → wWell d0 a x ≤ wWell d0 a y := by
  have hk : 0 < d0 / a ^ 4 := by positivity
  refine ⟨fun x => by unfold wWell; positivity, fun x => ?_, ?_, fun x hx => ?_, fun x y hx hxy => ?_⟩
  · unfold wWell
    rw [mul_eq_zero, or_iff_right hk.ne', pow_eq_zero_iff two_ne_zero, sub_eq_zero, sq_eq_sq_iff_eq_or_eq_neg]
  · unfold wWell
    field_simp
    ring
  · have h0 : x ^ 2 ≤ a ^ 2 := by rw [← sq_abs x]; exact pow_le_pow_left₀ (abs_nonneg x) hx 2
    have h1 : (x ^ 2 - a ^ 2) ^ 2 ≤ a ^ 4 := by nlinarith [sq_nonneg x]
    unfold wWell
    calc d0 / a ^ 4 * (x ^ 2 - a ^ 2) ^ 2 ≤ d0 / a ^ 4 * a ^ 4 := mul_le_mul_of_nonneg_left h1 hk.le
      _ = d0 := by field_simp
  · have h0 : a ^ 2 ≤ x ^ 2 := by rw [← sq_abs x]; exact pow_le_pow_left₀ ha.le hx 2
    have h1 : x ^ 2 ≤ y ^ 2 := by rw [← sq_abs x, ← sq_abs y]; exact pow_le_pow_left₀ (abs_nonneg x) hxy 2
    unfold wWell
    exact mul_le_mul_of_nonneg_left (pow_le_pow_left₀ (by linarith) (by linarith) 2) hk.le

/-- `linear_corr(c)` couples the first two coordinates and does not depend on the others; with fewer than two coordinates it raises
IndexError. -/
theorem C102_linear_corr (c a b : ℝ) (xs ys : List ℝ) :
    linearCorr c (a :: b :: xs) = .ok (c * a * b) ∧ linearCorr c (a :: b :: xs) = linearCorr c (b :: a :: ys) ∧
      linearCorr c [a] = .error .indexError ∧ linearCorr c [] = .error .indexError :=
  ⟨rfl, congrArg Except.ok (by ring), rfl, rfl⟩

/-- Two oscillators `sho(k)` coupled by `linear_corr(c)` have a potential that is bounded below exactly if `|c| ≤ k ^ 2`; then its minimum
is 0. -/
theorem C102_coupled (k c : ℝ) :
    ((∃ m : ℝ, ∀ a b w, linearCorr c [a, b] = .ok w → m ≤ sho k 0 a + sho k 0 b + w) ↔ |c| ≤ k ^ 2) ∧
      (|c| ≤ k ^ 2 → ∀ a b w, linearCorr c [a, b] = .ok w → 0 ≤ sho k 0 a + sho k 0 b + w) := by
  have hw : ∀ a b w, linearCorr c [a, b] = .ok w → w = c * a * b := fun a b w h => (Except.ok.inj h).symm
  have hpos : |c| ≤ k ^ 2 → ∀ a b w, linearCorr c [a, b] = .ok w → 0 ≤ sho k 0 a + sho k 0 b + w := by
    intro h a b w e
    rw [hw a b w e]
    obtain ⟨h1, h2⟩ := abs_le.1 h
    unfold sho
    nlinarith [mul_nonneg (sub_nonneg.2 h2) (sq_nonneg (a - b)), mul_nonneg (neg_le_iff_add_nonneg.1 h1) (sq_nonneg (a + b))]
  refine ⟨⟨?_, fun h => ⟨0, hpos h⟩⟩, hpos⟩
  rintro ⟨m, hm⟩
  by_contra hc
  have hc := not_le.1 hc
  have hd : 0 < |c| - k ^ 2 := by linarith
  set t : ℝ := (|m| + 1) / (|c| - k ^ 2) with ht
  have htd : t * (|c| - k ^ 2) = |m| + 1 := div_mul_cancel₀ _ hd.ne'
  have ht0 : 0 ≤ t := by positivity
  have hs : Real.sqrt t ^ 2 = t := Real.sq_sqrt ht0
  have hmm : -|m| ≤ m := neg_abs_le m
  rcases le_total 0 c with h0 | h0
  · have := hm (Real.sqrt t) (-Real.sqrt t) _ rfl
    rw [abs_of_nonneg h0] at htd
    unfold sho at this
    nlinarith
  · have := hm (Real.sqrt t) (Real.sqrt t) _ rfl
    rw [abs_of_nonpos h0] at htd
    unfold sho at this
    nlinarith

example : ∀ a b w, linearCorr (1 / 2) [a, b] = .ok w → 0 ≤ sho 1 0 a + sho 1 0 b + w :=
  (C102_coupled 1 (1 / 2)).2 (by rw [abs_of_pos] <;> norm_num)

/-- `square_well(depth, width, x0, v0)` has the value `v0` in the interval from `x0` to `x0 + width` and `v0 + depth` outside and at the walls. -/
theorem C102_square_well (depth width x0 v0 x : ℝ) :
    (x0 < x → x < x0 + width → squareWell depth width x0 v0 x = v0) ∧
    (x ≤ x0 → squareWell depth width x0 v0 x = v0 + depth) ∧ (x0 + width ≤ x → squareWell depth width x0 v0 x = v0 + depth) :=
  ⟨fun h1 h2 => if_pos ⟨h1, h2⟩, fun h => if_neg fun h' => absurd h'.1 (not_lt.2 h), fun h => if_neg fun h' => absurd h'.2 (not_lt.2 h)⟩

/-- `sho(k, x0)` is the potential whose eigenfunctions, for a particle of mass 1, are the functions `harmonic_oscillator(n, k, 1, ħ)` around
`x0`, as far as those are right (C100). -/
theorem C102_sho_partial {k hbar : ℝ} (h : k / hbar = 1) (x0 : ℝ) (n : ℕ) :
    Symbolic.Eigenfunction hbar 1 (sho k x0) (fun x => Symbolic.harmonicOscillator n k 1 hbar (x - x0)) (hbar * k * (n + 1 / 2)) := by
  obtain ⟨h1, h2, h3⟩ := Symbolic.C100_eigenfunction_partial (k := k) (m := 1) (hbar := hbar) one_ne_zero (by rw [one_mul]; exact h) n
  have hd : deriv (fun x => Symbolic.harmonicOscillator n k 1 hbar (x - x0)) =
      fun x => deriv (Symbolic.harmonicOscillator n k 1 hbar) (x - x0) := by
    funext x
    rw [deriv_comp_sub_const]
  refine ⟨h1.comp (differentiable_id.sub_const x0), ?_, fun x => ?_⟩
  · rw [hd]
    exact h2.comp (differentiable_id.sub_const x0)
  · rw [hd, deriv_comp_sub_const, ← h3 (x - x0)]
    unfold sho
    ring

/-- With another mass, the two do not agree: already the ground function for mass 4 and `k = ħ = 1` is not an eigenfunction in `sho(k)`. -/
theorem C102_sho_violated : ¬∃ E, Symbolic.Eigenfunction 1 4 (sho 1 0) (Symbolic.harmonicOscillator 0 1 4 1) E := by
  rintro ⟨E, -, -, hE⟩
  obtain ⟨h0, -, -, hG⟩ := Symbolic.C100_ground (k := 1) (m := 4) (hbar := 1) one_pos (by norm_num) one_pos
  have key : ∀ x, (sho 1 0 x - E - (1 / 2 * 4 * 1 ^ 2 * x ^ 2 - 1 * 1 * (1 / 2))) * Symbolic.harmonicOscillator 0 1 4 1 x = 0 := by
    intro x
    have h1 := hE x
    have h2 := hG x
    linear_combination h1 - h2
  have hne : ∀ x, Symbolic.harmonicOscillator 0 1 4 1 x ≠ 0 := by
    intro x
    unfold Symbolic.harmonicOscillator
    dsimp only
    rw [Symbolic.hermite_eq]
    simp only [Symbolic.herm, Polynomial.eval_one, pow_zero, Nat.factorial_zero, Nat.cast_one, mul_one, Real.sqrt_one, div_one]
    have : (0 : ℝ) < Real.pi ^ (1 / 4 : ℝ) := Real.rpow_pos_of_pos Real.pi_pos _
    positivity
  have h0 := (mul_eq_zero.1 (key 0)).resolve_right (hne 0)
  have h1 := (mul_eq_zero.1 (key 1)).resolve_right (hne 1)
  unfold sho at h0 h1
  norm_num at h0 h1
  linarith

example : Symbolic.Eigenfunction 1 1 (sho 1 2) (fun x => Symbolic.harmonicOscillator 3 1 1 1 (x - 2)) (1 * 1 * ((3 : ℕ) + 1 / 2)) :=
  C102_sho_partial (by norm_num) 2 3
example : wWell 5 1 1 = 0 ∧ wWell 5 1 0 = 5 := ⟨((C102_w_well (by norm_num) one_pos).2.1 1).2 (Or.inl rfl), (C102_w_well (by norm_num) one_pos).2.2.1⟩
example : squareWell 1 2 0 0 1 = 0 := (C102_square_well 1 2 0 0 1).1 (by norm_num) (by norm_num)

end Numerical
