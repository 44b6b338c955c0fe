import Verif.Model.BasisFunc
import Mathlib.Analysis.SpecialFunctions.Gaussian.GaussianIntegral
import Mathlib.MeasureTheory.Integral.IntegralEqImproper
import Mathlib.Analysis.Calculus.Deriv.Polynomial

/-! Hermite polynomials: derivatives of the Gaussian function and their integrals. -/

open MeasureTheory Polynomial

namespace Symbolic

/-- The polynomial `P n` with `dⁿ/dxⁿ exp (-x²) = P n · exp (-x²)`. -/
noncomputable def herm : ℕ → ℝ[X]
  | 0 => 1
  | n + 1 => derivative (herm n) - 2 * X * herm n

theorem herm_derivative (n : ℕ) : derivative (herm (n + 1)) = -(2 * ((n : ℝ[X]) + 1)) * herm n := by
  induction n with
  | zero => simp [herm]
  | succ n ih =>
    have h : herm (n + 1 + 1) = derivative (herm (n + 1)) - 2 * X * herm (n + 1) := rfl
    have h2 : herm (n + 1) = derivative (herm n) - 2 * X * herm n := rfl
    have hd : derivative (2 : ℝ[X]) = 0 := by rw [← C_ofNat]; exact derivative_C
    rw [h, derivative_sub, ih, derivative_mul, derivative_mul, derivative_mul, derivative_neg, derivative_mul, ih, derivative_X, hd]
    have hn : derivative ((n : ℝ[X]) + 1) = 0 := by simp
    rw [hn]
    conv_lhs => rw [show derivative (herm n) = herm (n + 1) + 2 * X * herm n by rw [h2]; ring]
    push_cast
    ring

/-- Hermite's equation. -/
theorem herm_ode (n : ℕ) : derivative (derivative (herm n)) - 2 * X * derivative (herm n) = -(2 * (n : ℝ[X])) * herm n := by
  cases n with
  | zero => simp [herm]
  | succ n =>
    have h2 : herm (n + 1) = derivative (herm n) - 2 * X * herm n := rfl
    have hd : derivative (2 : ℝ[X]) = 0 := by rw [← C_ofNat]; exact derivative_C
    rw [herm_derivative, derivative_mul, derivative_neg, derivative_mul, hd]
    have hn : derivative ((n : ℝ[X]) + 1) = 0 := by simp
    rw [hn, h2]
    push_cast
    ring

theorem gauss_deriv (x : ℝ) : HasDerivAt (fun x : ℝ => Real.exp (-x ^ 2)) (-2 * x * Real.exp (-x ^ 2)) x := by
  have h := (((hasDerivAt_id x).pow 2).neg).exp
  refine h.congr_deriv ?_
  simp
  ring

theorem herm_mul_deriv (n : ℕ) (x : ℝ) :
    HasDerivAt (fun x : ℝ => (herm n).eval x * Real.exp (-x ^ 2)) ((herm (n + 1)).eval x * Real.exp (-x ^ 2)) x := by
  refine (((herm n).hasDerivAt x).mul (gauss_deriv x)).congr_deriv ?_
  have h2 : herm (n + 1) = derivative (herm n) - 2 * X * herm n := rfl
  rw [h2]
  simp only [eval_sub, eval_mul, eval_X, eval_ofNat]
  ring

theorem iteratedDeriv_gauss (n : ℕ) : iteratedDeriv n (fun x : ℝ => Real.exp (-x ^ 2)) = fun x => (herm n).eval x * Real.exp (-x ^ 2) := by
  induction n with
  | zero => funext x; simp [herm]
  | succ n ih =>
    rw [iteratedDeriv_succ, ih]
    funext x
    exact (herm_mul_deriv n x).deriv

theorem hermite_eq (n : ℕ) (y : ℝ) : hermite n y = (-1) ^ n * (herm n).eval y := by
  unfold hermite
  rw [iteratedDeriv_gauss, mul_assoc]
  congr 1
  have : Real.exp (y ^ 2) * Real.exp (-y ^ 2) = 1 := by rw [← Real.exp_add]; simp
  calc Real.exp (y ^ 2) * ((herm n).eval y * Real.exp (-y ^ 2)) = (herm n).eval y * (Real.exp (y ^ 2) * Real.exp (-y ^ 2)) := by ring
    _ = _ := by rw [this, mul_one]

/-- A polynomial times a Gaussian function is integrable. -/
theorem integrable_poly (p : ℝ[X]) {b : ℝ} (hb : 0 < b) : Integrable fun x : ℝ => p.eval x * Real.exp (-b * x ^ 2) := by
  induction p using Polynomial.induction_on' with
  | add p q hp hq =>
    refine (hp.add hq).congr (Filter.Eventually.of_forall fun x => ?_)
    simp only [Pi.add_apply, eval_add]
    ring
  | monomial k c =>
    have h := (integrable_rpow_mul_exp_neg_mul_sq hb (s := k) (by have : (0 : ℝ) ≤ k := by positivity
                                                                  linarith)).const_mul c
    refine h.congr (Filter.Eventually.of_forall fun x => ?_)
    simp only [Real.rpow_natCast, eval_monomial]
    ring

theorem integrable_poly1 (p : ℝ[X]) : Integrable fun x : ℝ => p.eval x * Real.exp (-x ^ 2) := by
  simpa using integrable_poly p one_pos

theorem gauss_integral : (∫ x : ℝ, Real.exp (-x ^ 2)) = Real.sqrt Real.pi := by
  simpa using integral_gaussian 1

/-- Integration by parts. -/
theorem parts (p : ℝ[X]) (n : ℕ) : (∫ x : ℝ, p.eval x * ((herm (n + 1)).eval x * Real.exp (-x ^ 2))) =
    -∫ x : ℝ, (derivative p).eval x * ((herm n).eval x * Real.exp (-x ^ 2)) := by
  have i : ∀ q r : ℝ[X], Integrable fun x : ℝ => q.eval x * (r.eval x * Real.exp (-x ^ 2)) := fun q r =>
    (integrable_poly1 (q * r)).congr (Filter.Eventually.of_forall fun x => by simp only [eval_mul]; ring)
  exact integral_mul_deriv_eq_deriv_mul_of_integrable (fun x _ => p.hasDerivAt x) (fun x _ => herm_mul_deriv n x) (i _ _) (i _ _) (i _ _)

/-- The Hermite polynomials are orthogonal. -/
theorem herm_orthogonal (m n : ℕ) : (∫ x : ℝ, (herm m).eval x * ((herm n).eval x * Real.exp (-x ^ 2))) =
    if m = n then 2 ^ n * (n.factorial : ℝ) * Real.sqrt Real.pi else 0 := by
  induction n generalizing m with
  | zero =>
    cases m with
    | zero => simp [herm, gauss_integral]
    | succ m =>
      rw [if_neg (by omega)]
      have h := parts 1 m
      simp only [derivative_one, eval_zero, zero_mul, integral_zero, neg_zero, eval_one, one_mul] at h
      simpa [herm] using h
  | succ n ih =>
    rw [parts]
    cases m with
    | zero => simp [herm]
    | succ m =>
      rw [herm_derivative]
      have e : ∀ x : ℝ, (-(2 * ((m : ℝ[X]) + 1)) * herm m).eval x * ((herm n).eval x * Real.exp (-x ^ 2)) =
          -(2 * ((m : ℝ) + 1)) * ((herm m).eval x * ((herm n).eval x * Real.exp (-x ^ 2))) := by
        intro x
        simp only [eval_mul, eval_neg, eval_add, eval_natCast, eval_one, eval_ofNat]
        ring
      simp only [e]
      rw [integral_const_mul, ih]
      by_cases h : m = n
      · subst h
        rw [if_pos rfl, if_pos rfl, Nat.factorial_succ]
        push_cast
        ring
      · rw [if_neg h, if_neg (by omega)]
        simp

end Symbolic
