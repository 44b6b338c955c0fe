import Verif.Props.C72
import Verif.Props.C46

/-!
C73: the terms of the Brownian oscillator are the contributions of the poles (violated for the Matsubara terms). C74: the imaginary part of the
correlation function does not depend on the temperature.
-/

open Py Filter Topology

namespace Corr

/-- The contribution of a pole of the spectral density of the oscillator. -/
private theorem brownian_pole {lam omega gamma beta : ℝ} {a b : ℂ} (hg : gamma ≠ 0) (hs : a + b = -2 * Complex.I * gamma)
    (hp : a * b = -(omega : ℂ) ^ 2) (hab : a ≠ b) (ha : a ≠ 0) (hne : 1 - Complex.exp (-(beta * a)) ≠ 0) :
    BathSpec.HasResidue (fun w => BathSpec.brownian lam omega gamma w * PadeSpec.bose (beta * w)) a
      (1 / Real.pi * (lam * omega ^ 2 * Complex.I / (a - b)) * PadeSpec.bose (beta * a)) := by
  have hg' : (gamma : ℂ) ≠ 0 := Complex.ofReal_ne_zero.2 hg
  have hpi : (Real.pi : ℂ) ≠ 0 := Complex.ofReal_ne_zero.2 Real.pi_ne_zero
  have hI := Complex.I_ne_zero
  have hval : (a - b) * (a ^ 2 - 2 * Complex.I * gamma * a - omega ^ 2) = (a - b) * (-4 * Complex.I * gamma * a) := by
    congr 1
    linear_combination a * hs - hp
  have hden : (a - b) * (a ^ 2 - 2 * Complex.I * gamma * a - omega ^ 2) ≠ 0 := by
    rw [hval]
    exact mul_ne_zero (sub_ne_zero.2 hab) (mul_ne_zero (mul_ne_zero (mul_ne_zero (by norm_num) hI) hg') ha)
  have c1 : ContinuousAt (fun w : ℂ => 1 / Real.pi * (4 * lam * omega ^ 2 * gamma * w / ((w - b) * (w ^ 2 - 2 * Complex.I * gamma * w - omega ^ 2)))) a :=
    continuousAt_const.mul (ContinuousAt.div (by fun_prop) (by fun_prop) hden)
  have c2 : ContinuousAt (fun w : ℂ => PadeSpec.bose (beta * w)) a := by
    unfold PadeSpec.bose
    exact ContinuousAt.div (by fun_prop) (by fun_prop) hne
  have ht := (c1.mul c2).tendsto
  have hv : 1 / Real.pi * (4 * lam * omega ^ 2 * gamma * a / ((a - b) * (a ^ 2 - 2 * Complex.I * gamma * a - omega ^ 2))) =
      1 / Real.pi * (lam * omega ^ 2 * Complex.I / (a - b)) := by
    rw [hval]
    have hab' : a - b ≠ 0 := sub_ne_zero.2 hab
    field_simp
    linear_combination (-(lam * omega ^ 2) : ℂ) * Complex.I_sq
  simp only [Pi.mul_apply] at ht
  rw [hv] at ht
  refine (ht.mono_left nhdsWithin_le_nhds).congr' ?_
  filter_upwards [self_mem_nhdsWithin] with w hw
  have hw' : w - a ≠ 0 := sub_ne_zero.2 hw
  have e : (w ^ 2 - (omega : ℂ) ^ 2) ^ 2 + (2 * gamma * w) ^ 2 = (w - a) * ((w - b) * (w ^ 2 - 2 * Complex.I * gamma * w - omega ^ 2)) := by
    have e1 : (w - a) * (w - b) = w ^ 2 + 2 * Complex.I * gamma * w - omega ^ 2 := by linear_combination (-w) * hs + hp
    rw [← mul_assoc, e1]
    linear_combination (4 * gamma ^ 2 * w ^ 2 : ℂ) * Complex.I_sq
  unfold BathSpec.brownian
  rw [e, ← mul_assoc, mul_left_comm, ← mul_div_assoc, mul_div_mul_left _ _ hw']
  rfl

/-- The Bose function by the hyperbolic cotangent. -/
private theorem bose_coth {x : ℂ} (h : Complex.tanh (x / 2) ≠ 0) : 1 - Complex.exp (-x) ≠ 0 ∧ PadeSpec.bose x = (1 / Complex.tanh (x / 2) + 1) / 2 := by
  have hs : Complex.sinh (x / 2) ≠ 0 := fun h0 => h (by rw [Complex.tanh_eq_sinh_div_cosh, h0, zero_div])
  have hc : Complex.cosh (x / 2) ≠ 0 := fun h0 => h (by rw [Complex.tanh_eq_sinh_div_cosh, h0, div_zero])
  have he := Complex.cosh_add_sinh (x / 2)
  have hem := Complex.cosh_sub_sinh (x / 2)
  have hne := Complex.exp_ne_zero (x / 2)
  have e : Complex.exp (-x) = Complex.exp (-(x / 2)) / Complex.exp (x / 2) := by
    rw [← Complex.exp_sub]; congr 1; ring
  have d : 1 - Complex.exp (-x) = 2 * Complex.sinh (x / 2) / Complex.exp (x / 2) := by
    rw [e, eq_div_iff hne, sub_mul, div_mul_cancel₀ _ hne, ← he, ← hem]
    ring
  refine ⟨by rw [d]; exact div_ne_zero (mul_ne_zero two_ne_zero hs) hne, ?_⟩
  rw [PadeSpec.bose, d, one_div_div, ← he, Complex.tanh_eq_sinh_div_cosh, one_div_div]
  field_simp

private theorem sqrt_sq {omega gamma : ℝ} (hg : 0 < gamma) (ho : gamma < omega) :
    0 < Real.sqrt (omega ^ 2 - gamma ^ 2) ∧ ((Real.sqrt (omega ^ 2 - gamma ^ 2) : ℝ) : ℂ) ^ 2 = omega ^ 2 - gamma ^ 2 := by
  have h : 0 < omega ^ 2 - gamma ^ 2 := by nlinarith
  refine ⟨Real.sqrt_pos.2 h, ?_⟩
  rw [← Complex.ofReal_pow, Real.sq_sqrt h.le]
  push_cast
  rfl

private theorem coth_tendsto {z : ℂ} (hz : 0 < z.re) : Tendsto (fun b : ℝ => 1 / Complex.tanh ((b : ℂ) * z / 2)) atTop (𝓝 1) := by
  have h0 : Tendsto (fun b : ℝ => Complex.exp (-((b : ℂ) * z))) atTop (𝓝 0) := by
    rw [tendsto_zero_iff_norm_tendsto_zero]
    have : (fun b : ℝ => ‖Complex.exp (-((b : ℂ) * z))‖) = fun b : ℝ => Real.exp (-(b * z.re)) := by
      funext b
      rw [Complex.norm_exp]
      simp
    rw [this]
    exact Real.tendsto_exp_neg_atTop_nhds_zero.comp (tendsto_id.atTop_mul_const hz)
  have h1 : Tendsto (fun b : ℝ => 2 / (1 - Complex.exp (-((b : ℂ) * z))) - 1) atTop (𝓝 (2 / (1 - 0) - 1)) :=
    (tendsto_const_nhds.div (tendsto_const_nhds.sub h0) (by norm_num)).sub tendsto_const_nhds
  rw [show (2 / (1 - 0) - 1 : ℂ) = 1 by norm_num] at h1
  refine h1.congr' ?_
  filter_upwards [eventually_gt_atTop 0] with b hb
  have ht : Complex.tanh ((b : ℂ) * z / 2) ≠ 0 := by
    intro h
    rw [Complex.tanh_eq_sinh_div_cosh, div_eq_zero_iff] at h
    have key : Complex.exp (-((b : ℂ) * z)) ≠ 1 ∧ Complex.exp (-((b : ℂ) * z)) ≠ -1 := by
      have : ‖Complex.exp (-((b : ℂ) * z))‖ < 1 := by
        rw [Complex.norm_exp]
        have := mul_pos hb hz
        exact Real.exp_lt_one_iff.2 (by simpa using this)
      refine ⟨fun h => ?_, fun h => ?_⟩ <;> rw [h] at this <;> simp at this
    have e : Complex.exp (-((b : ℂ) * z)) = Complex.exp (-((b : ℂ) * z / 2)) / Complex.exp ((b : ℂ) * z / 2) := by
      rw [← Complex.exp_sub]; congr 1; ring
    have hne := Complex.exp_ne_zero ((b : ℂ) * z / 2)
    have he := Complex.cosh_add_sinh ((b : ℂ) * z / 2)
    have hem := Complex.cosh_sub_sinh ((b : ℂ) * z / 2)
    rw [e, Ne, div_eq_iff hne, Ne, div_eq_iff hne, ← he, ← hem] at key
    rcases h with h | h
    · exact key.1 (by rw [h]; ring)
    · exact key.2 (by rw [h]; ring)
  have := (bose_coth ht).2
  rw [PadeSpec.bose] at this
  generalize Complex.exp (-((b : ℂ) * z)) = x at this
  have h2 : (2 / (1 - x) : ℂ) = 2 * (1 / (1 - x)) := by ring
  rw [h2, this]
  ring

/-- At zero temperature the two terms are the limits of those at low temperature (and there are no other terms). -/
theorem C73_cold {lam omega gamma : ℝ} (hg : 0 < gamma) (ho : gamma < omega) {kMax : ℕ} {c : Correlation}
    (h : brownian lam omega gamma kMax none = .ok c) (cb : ℝ → Correlation) (hb : ∀ b, 0 < b → brownian lam omega gamma kMax (some b) = .ok (cb b)) :
    ∃ c₁ c₂ g₁ g₂, c.coeff = [c₁, c₂] ∧ c.derivative = [g₁, g₂] ∧
      Tendsto (fun b => (cb b).coeff.getD 0 0) atTop (𝓝 c₁) ∧ Tendsto (fun b => (cb b).coeff.getD 1 0) atTop (𝓝 c₂) ∧
      ∀ b, 0 < b → (cb b).derivative.getD 0 0 = g₁ ∧ (cb b).derivative.getD 1 0 = g₂ := by
  obtain ⟨hw, -⟩ := sqrt_sq hg ho
  unfold brownian at h
  simp only [coths, brownianTerms, bind_eq_ok] at h
  obtain ⟨⟨u, v⟩, h3, f, hf, ks, hk, h⟩ := h
  cases h3
  cases hk
  cases h
  obtain ⟨-, rfl⟩ := div_eq hf
  have hc : ∀ b, 0 < b → ∃ cs cs' gs, cb b = ⟨kMax + 2, some b,
      lam * omega ^ 2 / (2 * Real.sqrt (omega ^ 2 - gamma ^ 2)) * (1 / Complex.tanh (b * (Real.sqrt (omega ^ 2 - gamma ^ 2) - Complex.I * gamma) / 2) + 1) ::
      lam * omega ^ 2 / (2 * Real.sqrt (omega ^ 2 - gamma ^ 2)) * (1 / Complex.tanh (b * (Real.sqrt (omega ^ 2 - gamma ^ 2) + Complex.I * gamma) / 2) - 1) :: cs,
      cs', (-gamma - Complex.I * Real.sqrt (omega ^ 2 - gamma ^ 2)) :: (-gamma + Complex.I * Real.sqrt (omega ^ 2 - gamma ^ 2)) :: gs⟩ := by
    intro b hb0
    have h := hb b hb0
    unfold brownian at h
    simp only [coths, bind_eq_ok] at h
    obtain ⟨⟨u, v⟩, ⟨c1, h1, c2, h2, h3⟩, f, hf, ks, -, h⟩ := h
    cases h3
    obtain ⟨-, rfl⟩ := div_eq h1
    obtain ⟨-, rfl⟩ := div_eq h2
    obtain ⟨-, rfl⟩ := div_eq hf
    injection h with h
    exact ⟨_, _, _, h.symm⟩
  refine ⟨_, _, _, _, rfl, rfl, ?_, ?_, ?_⟩
  · refine Tendsto.congr' ?_ (tendsto_const_nhds.mul ((coth_tendsto (z := (Real.sqrt (omega ^ 2 - gamma ^ 2) : ℂ) - Complex.I * gamma) ?_).add tendsto_const_nhds))
    · filter_upwards [eventually_gt_atTop 0] with b hb0
      obtain ⟨cs, cs', gs, e⟩ := hc b hb0
      rw [e]
      rfl
    · simpa using hw
  · refine Tendsto.congr' ?_ (tendsto_const_nhds.mul ((coth_tendsto (z := (Real.sqrt (omega ^ 2 - gamma ^ 2) : ℂ) + Complex.I * gamma) ?_).sub tendsto_const_nhds))
    · filter_upwards [eventually_gt_atTop 0] with b hb0
      obtain ⟨cs, cs', gs, e⟩ := hc b hb0
      rw [e]
      rfl
    · simpa using hw
  · intro b hb0
    obtain ⟨cs, cs', gs, e⟩ := hc b hb0
    rw [e]
    exact ⟨rfl, rfl⟩

/-- The two terms of an underdamped oscillator at finite temperature are the contributions of the two poles of its spectral density. -/
theorem C73_brownian_partial {lam omega gamma beta : ℝ} (hg : 0 < gamma) (ho : gamma < omega) (_hb : 0 < beta) {kMax : ℕ} {c : Correlation}
    (h : brownian lam omega gamma kMax (some beta) = .ok c) :
    ∃ c₁ c₂ cs g₁ g₂ gs, c.coeff = c₁ :: c₂ :: cs ∧ c.derivative = g₁ :: g₂ :: gs ∧
      BathSpec.Contribution (fun w => BathSpec.brownian lam omega gamma w * PadeSpec.bose (beta * w))
        (Real.sqrt (omega ^ 2 - gamma ^ 2) - Complex.I * gamma) c₁ g₁ ∧
      BathSpec.Contribution (fun w => BathSpec.brownian lam omega gamma w * PadeSpec.bose (beta * w))
        (-Real.sqrt (omega ^ 2 - gamma ^ 2) - Complex.I * gamma) c₂ g₂ := by
  have hpi : (Real.pi : ℂ) ≠ 0 := Complex.ofReal_ne_zero.2 Real.pi_ne_zero
  obtain ⟨hw, hw2⟩ := sqrt_sq hg ho
  unfold brownian at h
  simp only [coths, bind_eq_ok] at h
  obtain ⟨⟨u, v⟩, ⟨c1, h1, c2, h2, h3⟩, f, hf, ks, -, h⟩ := h
  cases h3
  cases h
  obtain ⟨t1, rfl⟩ := div_eq h1
  obtain ⟨t2, rfl⟩ := div_eq h2
  obtain ⟨-, rfl⟩ := div_eq hf
  generalize Real.sqrt (omega ^ 2 - gamma ^ 2) = w1 at *
  have hw' : (w1 : ℂ) ≠ 0 := Complex.ofReal_ne_zero.2 hw.ne'
  have n1 : (w1 : ℂ) - Complex.I * gamma ≠ 0 := fun h => by
    have := congrArg Complex.re h
    simp at this
    exact hw.ne' this
  have n2 : -(w1 : ℂ) - Complex.I * gamma ≠ 0 := fun h => by
    have := congrArg Complex.re h
    simp at this
    exact hw.ne' this
  have d12 : (w1 : ℂ) - Complex.I * gamma - (-w1 - Complex.I * gamma) = 2 * w1 := by ring
  have hprod : ((w1 : ℂ) - Complex.I * gamma) * (-w1 - Complex.I * gamma) = -(omega : ℂ) ^ 2 := by
    linear_combination (gamma : ℂ) ^ 2 * Complex.I_sq - hw2
  have e1 : (beta : ℂ) * (w1 - Complex.I * gamma) / 2 = beta * (w1 - Complex.I * gamma) / 2 := rfl
  obtain ⟨m1, f1⟩ := bose_coth t1
  have t2' : Complex.tanh ((beta : ℂ) * (-w1 - Complex.I * gamma) / 2) ≠ 0 := by
    rw [show (beta : ℂ) * (-w1 - Complex.I * gamma) / 2 = -(beta * (w1 + Complex.I * gamma) / 2) by ring, Complex.tanh_neg]
    exact neg_ne_zero.2 t2
  obtain ⟨m2, f2⟩ := bose_coth t2'
  refine ⟨_, _, _, _, _, _, rfl, rfl, ⟨by simpa using hg, ?_, _, brownian_pole hg.ne' ?_ hprod ?_ n1 m1, ?_⟩,
    ⟨by simpa using hg, ?_, _, brownian_pole hg.ne' ?_ ((mul_comm _ _).trans hprod) ?_ n2 m2, ?_⟩⟩
  · linear_combination (-(gamma : ℂ)) * Complex.I_sq
  · ring
  · exact sub_ne_zero.1 (by rw [d12]; exact mul_ne_zero two_ne_zero hw')
  · rw [f1, d12]
    field_simp
    linear_combination (lam * omega ^ 2 * (1 + Complex.tanh (beta * (w1 - Complex.I * gamma) / 2)) : ℂ) * Complex.I_sq
  · linear_combination (-(gamma : ℂ)) * Complex.I_sq
  · ring
  · exact sub_ne_zero.1 (by rw [← neg_sub, d12]; exact neg_ne_zero.2 (mul_ne_zero two_ne_zero hw'))
  · rw [f2, ← neg_sub ((w1 : ℂ) - Complex.I * gamma), d12,
      show (beta : ℂ) * (-w1 - Complex.I * gamma) / 2 = -(beta * (w1 + Complex.I * gamma) / 2) by ring, Complex.tanh_neg]
    field_simp
    linear_combination (lam * omega ^ 2 * (1 - Complex.tanh (beta * (w1 + Complex.I * gamma) / 2)) : ℂ) * Complex.I_sq

theorem terms_ok {lam omega gamma b : ℝ} : ∀ (l : List ℕ) (ks : List (ℂ × ℂ)), (l.mapM fun k : ℕ => do
    let vk ← div (2 * Real.pi * (k + 1)) b
    let dk ← div (-2 * brownianDensity lam omega gamma (2 * Real.pi * (k + 1) / b)) b
    pure (dk, -vk)) = .ok ks →
    ks = l.map fun k : ℕ => (-2 * (brownianDensity lam omega gamma (2 * Real.pi * (k + 1) / b) : ℂ) / b, -(2 * Real.pi * (k + 1) / b : ℂ))
  | [], ks, h => by cases h; rfl
  | k :: l, ks, h => by
    simp only [List.mapM_cons, bind_eq_ok] at h
    obtain ⟨x, ⟨v, hv, d, hd, hx⟩, ys, hys, h⟩ := h
    obtain ⟨-, rfl⟩ := div_eq hv
    obtain ⟨-, rfl⟩ := div_eq hd
    cases hx
    cases h
    rw [terms_ok l ys hys, List.map_cons]

/-- The Matsubara terms of the oscillator are not contributions of poles, except for `omega² = 2 gamma²`: the code takes the spectral density at
the real number `2 pi k / beta` in place of the imaginary frequency. -/
theorem C73_matsubara_violated {lam omega gamma beta : ℝ} (hlam : lam ≠ 0) (hg : 0 < gamma) (ho : gamma < omega) (hx : omega ^ 2 ≠ 2 * gamma ^ 2)
    (hb : 0 < beta) {kMax : ℕ} {c : Correlation} (h : brownian lam omega gamma kMax (some beta) = .ok c) {k : ℕ} (hk : k + 1 < kMax) :
    ∃ d g, c.coeff[k + 2]? = some d ∧ c.derivative[k + 2]? = some g ∧
      ∀ a, ¬ BathSpec.Contribution (fun w => BathSpec.brownian lam omega gamma w * PadeSpec.bose (beta * w)) a d g := by
  have hpi : (Real.pi : ℂ) ≠ 0 := Complex.ofReal_ne_zero.2 Real.pi_ne_zero
  have hb' : (beta : ℂ) ≠ 0 := Complex.ofReal_ne_zero.2 hb.ne'
  unfold brownian at h
  simp only [bind_eq_ok, brownianTerms] at h
  obtain ⟨⟨u, v⟩, -, f, -, ks, hks, h⟩ := h
  have hks' := terms_ok _ _ hks
  cases h
  have hget : ks[k]? = some (-2 * (brownianDensity lam omega gamma (2 * Real.pi * (k + 1) / beta) : ℂ) / beta, -(2 * Real.pi * (k + 1) / beta : ℂ)) := by
    rw [hks', List.getElem?_map, List.getElem?_range (by omega)]
    rfl
  refine ⟨-2 * (brownianDensity lam omega gamma (2 * Real.pi * (k + 1) / beta) : ℂ) / beta, -(2 * Real.pi * (k + 1) / beta : ℂ), ?_, ?_, ?_⟩
  · simp [hget]
  · simp [hget]
  · rintro a ⟨-, hga, r, hr, hc⟩
    set nu : ℝ := 2 * Real.pi * (k + 1) / beta with hnu
    have hnuC : (2 * Real.pi * ((k : ℂ) + 1) / beta) = (nu : ℂ) := by rw [hnu]; push_cast; rfl
    have hnu0 : 0 < nu := by rw [hnu]; have := Real.pi_pos; positivity
    rw [hnuC] at hga
    have ha : a = -Complex.I * nu := by linear_combination (-Complex.I) * hga + a * Complex.I_sq
    subst ha
    have hexp : Complex.exp (-((beta : ℂ) * (-Complex.I * nu))) = 1 := by
      rw [← hnuC, show -((beta : ℂ) * (-Complex.I * (2 * Real.pi * ((k : ℂ) + 1) / beta))) = ((k + 1 : ℕ) : ℂ) * (2 * Real.pi * Complex.I) by
        push_cast; field_simp]
      exact Complex.exp_nat_mul_two_pi_mul_I _
    clear_value nu
    have hD' : 0 < (nu ^ 2 + omega ^ 2) ^ 2 - (2 * gamma * nu) ^ 2 := by
      have h1 : 0 < nu ^ 2 + omega ^ 2 - 2 * gamma * nu := by nlinarith [sq_nonneg (nu - gamma)]
      have h2 : 0 < nu ^ 2 + omega ^ 2 + 2 * gamma * nu := by positivity
      nlinarith [mul_pos h1 h2]
    have hD : 0 < (nu ^ 2 - omega ^ 2) ^ 2 + (2 * gamma * nu) ^ 2 := by positivity
    have hden : ((-Complex.I * (nu : ℂ)) ^ 2 - (omega : ℂ) ^ 2) ^ 2 + (2 * gamma * (-Complex.I * nu)) ^ 2 =
        (((nu ^ 2 + omega ^ 2) ^ 2 - (2 * gamma * nu) ^ 2 : ℝ) : ℂ) := by
      push_cast
      linear_combination ((nu : ℂ) ^ 4 * (Complex.I ^ 2 - 1) - 2 * nu ^ 2 * omega ^ 2 + 4 * gamma ^ 2 * nu ^ 2) * Complex.I_sq
    have hcont : ContinuousAt (BathSpec.brownian lam omega gamma) (-Complex.I * nu) := by
      unfold BathSpec.brownian
      exact continuousAt_const.mul (ContinuousAt.div (by fun_prop) (by fun_prop) (by rw [hden]; exact Complex.ofReal_ne_zero.2 hD'.ne'))
    have hres := bose_residue hb hcont hexp
    have huniq := tendsto_nhds_unique hr hres
    rw [huniq, BathSpec.brownian, hden, brownianDensity] at hc
    have hreal : -2 * (4 * lam * omega ^ 2 * gamma * nu / ((nu ^ 2 - omega ^ 2) ^ 2 + (2 * gamma * nu) ^ 2)) / beta =
        -8 * lam * omega ^ 2 * gamma * nu / ((nu ^ 2 + omega ^ 2) ^ 2 - (2 * gamma * nu) ^ 2) / beta := by
      have hDC : (((nu ^ 2 + omega ^ 2) ^ 2 - (2 * gamma * nu) ^ 2 : ℝ) : ℂ) ≠ 0 := Complex.ofReal_ne_zero.2 hD'.ne'
      have e : -2 * (Real.pi : ℂ) * Complex.I * (1 / Real.pi * (4 * lam * omega ^ 2 * gamma * (-Complex.I * nu) /
          (((nu ^ 2 + omega ^ 2) ^ 2 - (2 * gamma * nu) ^ 2 : ℝ) : ℂ)) * (1 / beta)) =
          ((-8 * lam * omega ^ 2 * gamma * nu / ((nu ^ 2 + omega ^ 2) ^ 2 - (2 * gamma * nu) ^ 2) / beta : ℝ) : ℂ) := by
        rw [Complex.ofReal_div, Complex.ofReal_div]
        generalize (((nu ^ 2 + omega ^ 2) ^ 2 - (2 * gamma * nu) ^ 2 : ℝ) : ℂ) = D at hDC ⊢
        push_cast
        field_simp
        linear_combination (8 * lam * omega ^ 2 * gamma * nu : ℂ) * Complex.I_sq
      rw [e] at hc
      exact_mod_cast hc
    have ho0 : omega ≠ 0 := by linarith
    have hcross : (nu ^ 2 + omega ^ 2) ^ 2 - (2 * gamma * nu) ^ 2 = (nu ^ 2 - omega ^ 2) ^ 2 + (2 * gamma * nu) ^ 2 := by
      have h8 : (8 * lam * omega ^ 2 * gamma * nu) ≠ 0 := by
        have := hg.ne'
        have := hnu0.ne'
        positivity
      rw [div_left_inj' hb.ne', ← mul_div_assoc, div_eq_div_iff hD.ne' hD'.ne'] at hreal
      apply mul_left_cancel₀ h8
      linear_combination -hreal
    apply hx
    have : nu ^ 2 * (omega ^ 2 - 2 * gamma ^ 2) = 0 := by linear_combination hcross / 4
    rcases mul_eq_zero.1 this with h0 | h0
    · exact absurd h0 (by positivity)
    · linarith

/-! The hypotheses can be met: an oscillator with `omega = 2`, `gamma = 1`, `beta = 1`. -/

private theorem tanh_ne {x : ℂ} (h : x.re ≠ 0) : Complex.tanh x ≠ 0 := by
  have hs : Complex.sinh x ≠ 0 := fun h0 => by
    have h1 := Complex.cosh_sub_sinh x
    have h2 := Complex.cosh_add_sinh x
    rw [h0, sub_zero] at h1
    rw [h0, add_zero, h1] at h2
    have := congrArg norm h2
    rw [Complex.norm_exp, Complex.norm_exp, Real.exp_eq_exp] at this
    simp at this
    exact h (by linarith)
  have hc : Complex.cosh x ≠ 0 := fun h0 => by
    have h1 := Complex.cosh_sub_sinh x
    have h2 := Complex.cosh_add_sinh x
    rw [h0, zero_sub] at h1
    rw [h0, zero_add] at h2
    rw [h2] at h1
    have := congrArg norm h1
    rw [norm_neg, Complex.norm_exp, Complex.norm_exp, Real.exp_eq_exp] at this
    simp at this
    exact h (by linarith)
  rw [Complex.tanh_eq_sinh_div_cosh]
  exact div_ne_zero hs hc

/-- An underdamped oscillator always has a correlation function. -/
theorem C73_total {lam omega gamma beta : ℝ} (hg : 0 < gamma) (ho : gamma < omega) (hb : 0 < beta) (kMax : ℕ) :
    ∃ c, brownian lam omega gamma kMax (some beta) = .ok c := by
  obtain ⟨hw, -⟩ := sqrt_sq hg ho
  have d : ∀ {a b : ℂ}, b ≠ 0 → div a b = .ok (a / b) := fun h => by unfold div; rw [if_neg h]
  have hb' : (beta : ℂ) ≠ 0 := Complex.ofReal_ne_zero.2 hb.ne'
  have t1 : Complex.tanh ((beta : ℂ) * (Real.sqrt (omega ^ 2 - gamma ^ 2) - Complex.I * gamma) / 2) ≠ 0 := tanh_ne (by
    simp [hb.ne', hw.ne'])
  have t2 : Complex.tanh ((beta : ℂ) * (Real.sqrt (omega ^ 2 - gamma ^ 2) + Complex.I * gamma) / 2) ≠ 0 := tanh_ne (by
    simp [hb.ne', hw.ne'])
  have hw' : (2 * (Real.sqrt (omega ^ 2 - gamma ^ 2) : ℂ)) ≠ 0 := mul_ne_zero two_ne_zero (Complex.ofReal_ne_zero.2 hw.ne')
  have ht : ∃ ks, brownianTerms lam omega gamma kMax (some beta) = .ok ks := by
    unfold brownianTerms
    simp only [d hb', ok_bind]
    refine ⟨_, Heap.mapM_ok (g := fun k : ℕ => _) fun k _ => rfl⟩
  obtain ⟨ks, hks⟩ := ht
  unfold brownian coths
  simp only [d t1, d t2, d hw', hks, ok_bind]
  exact ⟨_, rfl⟩

example : ∃ c, brownian 1 2 1 3 none = .ok c := C46_brownian_underdamped (by norm_num) 3

example : ∃ c, brownian 1 2 1 3 (some 1) = .ok c := C73_total (by norm_num) (by norm_num) (by norm_num) 3

example : ((2 : ℝ) ^ 2 ≠ 2 * 1 ^ 2) ∧ (1 : ℕ) + 1 < 3 := by norm_num

end Corr
