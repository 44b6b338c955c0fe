import Verif.Model.GridProp
import Mathlib.Probability.Distributions.Gaussian.Real

/-! C117: `gaussian_wfn` is the normalized wave packet with mean position `x0` and mean momentum `p0`, of least uncertainty. -/

open MeasureTheory ProbabilityTheory

namespace Grids

/-- The momentum operator `-iħ d/dx`. -/
noncomputable def momentumOp (hbar : ℝ) (f : ℝ → ℂ) (x : ℝ) : ℂ := -Complex.I * hbar * deriv f x

private noncomputable def var (alpha : ℝ) : NNReal := Real.toNNReal (1 / (2 * alpha))

private theorem var_coe {alpha : ℝ} (ha : 0 < alpha) : ((var alpha : NNReal) : ℝ) = 1 / (2 * alpha) := Real.coe_toNNReal _ (by positivity)

private theorem var_ne {alpha : ℝ} (ha : 0 < alpha) : var alpha ≠ 0 := by
  intro h
  have := var_coe ha
  rw [h] at this
  have h2 : 0 < 1 / (2 * alpha) := by positivity
  rw [← this] at h2
  simp at h2

private theorem density {x0 p0 alpha hbar : ℝ} (ha : 0 < alpha) (x : ℝ) : ‖gaussianWfn x0 p0 alpha hbar x‖ ^ 2 = gaussianPDFReal x0 (var alpha) x := by
  have hp : 0 ≤ alpha / Real.pi := div_nonneg ha.le Real.pi_pos.le
  have e1 : (-alpha * (x - x0) ^ 2 / 2 : ℂ) = ((-alpha * (x - x0) ^ 2 / 2 : ℝ) : ℂ) := by push_cast; ring
  have e2 : (1 * Complex.I * p0 * (x - x0) / hbar : ℂ) = ((p0 * (x - x0) / hbar : ℝ) : ℂ) * Complex.I := by push_cast; ring
  unfold gaussianWfn gaussianPDFReal
  rw [norm_mul, norm_mul, e1, e2, Complex.norm_exp_ofReal_mul_I, mul_one, Complex.norm_exp, Complex.ofReal_re, Complex.norm_real, Real.norm_eq_abs,
    abs_of_nonneg (Real.rpow_nonneg hp _), mul_pow, ← Real.rpow_natCast, ← Real.rpow_mul hp, ← Real.exp_nat_mul, var_coe ha]
  congr 1
  · rw [show (1 / 4 : ℝ) * ((2 : ℕ) : ℝ) = 1 / 2 by norm_num, ← Real.sqrt_eq_rpow, ← Real.sqrt_inv]
    congr 1
    field_simp
  · congr 1
    field_simp
    push_cast
    ring

private theorem expect {x0 p0 alpha hbar : ℝ} (ha : 0 < alpha) (f : ℝ → ℝ) :
    ∫ x, f x * ‖gaussianWfn x0 p0 alpha hbar x‖ ^ 2 = ∫ x, f x ∂gaussianReal x0 (var alpha) := by
  rw [integral_gaussianReal_eq_integral_smul (var_ne ha)]
  refine integral_congr_ae (Filter.Eventually.of_forall fun x => ?_)
  dsimp only
  rw [density ha, smul_eq_mul, mul_comm]

private theorem var_integral (x0 : ℝ) (v : NNReal) : ∫ x, (x - x0) ^ 2 ∂gaussianReal x0 v = v := by
  have h := variance_fun_id_gaussianReal (μ := x0) (v := v)
  rw [variance_eq_integral measurable_id'.aemeasurable] at h
  simpa only [integral_id_gaussianReal] using h

private theorem momentum_gaussian {x0 p0 alpha hbar : ℝ} (hh : hbar ≠ 0) (x : ℝ) : momentumOp hbar (gaussianWfn x0 p0 alpha hbar) x =
    (p0 + Complex.I * hbar * alpha * (x - x0)) * gaussianWfn x0 p0 alpha hbar x := by
  have hc : (hbar : ℂ) ≠ 0 := by exact_mod_cast hh
  have hx : HasDerivAt (fun y : ℝ => ((y : ℂ) - x0)) 1 x := (Complex.ofRealCLM.hasDerivAt (x := x)).sub_const _
  have h1 : HasDerivAt (fun y : ℝ => Complex.exp (-alpha * ((y : ℂ) - x0) ^ 2 / 2)) (Complex.exp (-alpha * ((x : ℂ) - x0) ^ 2 / 2) * (-alpha * (x - x0))) x := by
    refine HasDerivAt.cexp ?_
    refine (((hx.pow 2).const_mul (-alpha : ℂ)).div_const 2).congr_deriv ?_
    simp
    ring
  have h2 : HasDerivAt (fun y : ℝ => Complex.exp (1 * Complex.I * p0 * ((y : ℂ) - x0) / hbar))
      (Complex.exp (1 * Complex.I * p0 * ((x : ℂ) - x0) / hbar) * (Complex.I * p0 / hbar)) x := by
    refine HasDerivAt.cexp ?_
    refine ((hx.const_mul (1 * Complex.I * p0 : ℂ)).div_const (hbar : ℂ)).congr_deriv ?_
    ring
  have h3 : HasDerivAt (gaussianWfn x0 p0 alpha hbar) ((-alpha * (x - x0) + Complex.I * p0 / hbar) * gaussianWfn x0 p0 alpha hbar x) x := by
    refine ((h1.const_mul _).mul h2).congr_deriv ?_
    unfold gaussianWfn
    ring
  unfold momentumOp
  rw [h3.deriv]
  have hI := Complex.I_mul_I
  field_simp
  linear_combination (-(p0 : ℂ) * gaussianWfn x0 p0 alpha hbar x) * hI

/-- For `α > 0`, all `x0`, `p0` and `ħ ≠ 0`: the integral of `|ψ|²` is 1, the mean of the position `x0`, its variance `1 / (2α)`, the mean of the
momentum `p0`, its variance `ħ² α / 2`. -/
theorem C117_moments {x0 p0 alpha hbar : ℝ} (ha : 0 < alpha) (hh : hbar ≠ 0) :
    (∫ x, ‖gaussianWfn x0 p0 alpha hbar x‖ ^ 2) = 1 ∧
    (∫ x, x * ‖gaussianWfn x0 p0 alpha hbar x‖ ^ 2) = x0 ∧
    (∫ x, (x - x0) ^ 2 * ‖gaussianWfn x0 p0 alpha hbar x‖ ^ 2) = 1 / (2 * alpha) ∧
    (∫ x, (starRingEnd ℂ) (gaussianWfn x0 p0 alpha hbar x) * momentumOp hbar (gaussianWfn x0 p0 alpha hbar) x) = p0 ∧
    (∫ x, ‖momentumOp hbar (gaussianWfn x0 p0 alpha hbar) x - p0 * gaussianWfn x0 p0 alpha hbar x‖ ^ 2) = hbar ^ 2 * alpha / 2 := by
  refine ⟨?_, ?_, ?_, ?_, ?_⟩
  · have := expect (x0 := x0) (p0 := p0) (hbar := hbar) ha fun _ => 1
    simpa using this
  · exact (expect ha fun x => x).trans integral_id_gaussianReal
  · exact (expect ha fun x => (x - x0) ^ 2).trans ((var_integral _ _).trans (var_coe ha))
  · have h : ∀ x, (starRingEnd ℂ) (gaussianWfn x0 p0 alpha hbar x) * momentumOp hbar (gaussianWfn x0 p0 alpha hbar) x =
        gaussianPDFReal x0 (var alpha) x • ((p0 : ℂ) + Complex.I * hbar * alpha * (((x - x0 : ℝ)) : ℂ)) := by
      intro x
      rw [momentum_gaussian hh, ← density (p0 := p0) (hbar := hbar) ha, Complex.real_smul, ← Complex.normSq_eq_norm_sq,
        Complex.normSq_eq_conj_mul_self]
      push_cast
      ring
    simp only [h]
    rw [← integral_gaussianReal_eq_integral_smul (var_ne ha)]
    have i0 : Integrable (fun x : ℝ => x) (gaussianReal x0 (var alpha)) := (memLp_id_gaussianReal 1).integrable le_rfl
    have i1 : Integrable (fun x : ℝ => x - x0) (gaussianReal x0 (var alpha)) := i0.sub (integrable_const _)
    have i2 : Integrable (fun x : ℝ => Complex.I * hbar * alpha * ((x - x0 : ℝ) : ℂ)) (gaussianReal x0 (var alpha)) := i1.ofReal.const_mul _
    rw [integral_add (integrable_const _) i2, integral_const_mul, integral_complex_ofReal (f := fun x : ℝ => x - x0), integral_sub i0 (integrable_const _),
      integral_id_gaussianReal]
    simp
  · have h : ∀ x, ‖momentumOp hbar (gaussianWfn x0 p0 alpha hbar) x - p0 * gaussianWfn x0 p0 alpha hbar x‖ ^ 2 =
        (hbar * alpha) ^ 2 * ((x - x0) ^ 2 * ‖gaussianWfn x0 p0 alpha hbar x‖ ^ 2) := by
      intro x
      rw [momentum_gaussian hh, ← sub_mul, add_sub_cancel_left, norm_mul, mul_pow]
      have : Complex.I * hbar * alpha * (x - x0) = ((hbar * alpha * (x - x0) : ℝ) : ℂ) * Complex.I := by push_cast; ring
      rw [this, norm_mul, Complex.norm_I, mul_one, Complex.norm_real, Real.norm_eq_abs, sq_abs]
      ring
    simp only [h]
    rw [integral_const_mul, (expect ha fun x => (x - x0) ^ 2).trans ((var_integral _ _).trans (var_coe ha))]
    field_simp

/-- The product of the variances is the least that is possible, `(ħ/2)²`. -/
theorem C117_uncertainty {x0 p0 alpha hbar : ℝ} (ha : 0 < alpha) (hh : hbar ≠ 0) :
    (∫ x, (x - x0) ^ 2 * ‖gaussianWfn x0 p0 alpha hbar x‖ ^ 2) *
      (∫ x, ‖momentumOp hbar (gaussianWfn x0 p0 alpha hbar) x - p0 * gaussianWfn x0 p0 alpha hbar x‖ ^ 2) = (hbar / 2) ^ 2 := by
  obtain ⟨-, -, h3, -, h5⟩ := C117_moments (x0 := x0) (p0 := p0) ha hh
  rw [h3, h5]
  field_simp

example : (∫ x, x * ‖gaussianWfn (-3) 2 (1 / 2) 1 x‖ ^ 2) = -3 := (C117_moments (by norm_num) one_ne_zero).2.1

end Grids
