import Verif.Lemmas.Hermite

/-!
C100: `BasisFunction.harmonic_oscillator(n, k, m, hbar)` are the eigenfunctions of the harmonic oscillator.
-/

open MeasureTheory Polynomial

namespace Symbolic

/-! ### Specification -/

/-- A sequence of real functions is orthonormal on the line. -/
def OrthonormalOnLine (f : ℕ → ℝ → ℝ) : Prop :=
  ∀ i j, Integrable (fun x => f i x * f j x) ∧ (∫ x, f i x * f j x) = if i = j then 1 else 0

/-- `f` is an eigenfunction, with energy `E`, of a particle of mass `m` in the potential `V`. -/
def Eigenfunction (hbar m : ℝ) (V f : ℝ → ℝ) (E : ℝ) : Prop :=
  Differentiable ℝ f ∧ Differentiable ℝ (deriv f) ∧ ∀ x, -(hbar ^ 2) / (2 * m) * deriv (deriv f) x + V x * f x = E * f x

/-! ### Proof -/

theorem half_deriv (f x : ℝ) : HasDerivAt (fun x : ℝ => Real.exp (-f / 2 * x ^ 2)) (-f * x * Real.exp (-f / 2 * x ^ 2)) x := by
  have h := (((hasDerivAt_id x).pow 2).const_mul (-f / 2)).exp
  refine h.congr_deriv ?_
  simp
  ring

/-- The function for `m k / ħ = 1`. -/
theorem ho_eq {k m hbar : ℝ} (h : m * k / hbar = 1) (n : ℕ) : harmonicOscillator n k m hbar =
    fun x => ((-1) ^ n / (Real.sqrt (2 ^ n * (n.factorial : ℝ)) * Real.pi ^ (1 / 4 : ℝ))) * ((herm n).eval x * Real.exp (-1 / 2 * x ^ 2)) := by
  funext x
  unfold harmonicOscillator
  dsimp only
  rw [h, Real.one_rpow, one_mul, one_mul, hermite_eq]
  ring

/-- A polynomial times the function `exp (-x² / 2)`: its derivative. -/
theorem poly_half_deriv (p : ℝ[X]) (x : ℝ) : HasDerivAt (fun x : ℝ => p.eval x * Real.exp (-1 / 2 * x ^ 2))
    ((derivative p - X * p).eval x * Real.exp (-1 / 2 * x ^ 2)) x := by
  refine ((p.hasDerivAt x).mul (half_deriv 1 x)).congr_deriv ?_
  simp only [eval_sub, eval_mul, eval_X]
  ring

theorem pi_root : (Real.pi ^ (1 / 4 : ℝ)) * (Real.pi ^ (1 / 4 : ℝ)) = Real.sqrt Real.pi := by
  rw [← Real.rpow_add Real.pi_pos, Real.sqrt_eq_rpow]
  norm_num

/-- For `m k = ħ`, the functions are orthonormal. (The property does not hold in general: see `C100_violated`.) -/
theorem C100_orthonormal_partial {k m hbar : ℝ} (h : m * k / hbar = 1) : OrthonormalOnLine fun n => harmonicOscillator n k m hbar := by
  intro i j
  have hp : Real.pi ^ (1 / 4 : ℝ) ≠ 0 := (Real.rpow_pos_of_pos Real.pi_pos _).ne'
  have hs : ∀ n : ℕ, Real.sqrt (2 ^ n * (n.factorial : ℝ)) ≠ 0 := fun n => (Real.sqrt_pos.2 (by positivity)).ne'
  set c : ℕ → ℝ := fun n => (-1) ^ n / (Real.sqrt (2 ^ n * (n.factorial : ℝ)) * Real.pi ^ (1 / 4 : ℝ)) with hc
  have e : ∀ x, harmonicOscillator i k m hbar x * harmonicOscillator j k m hbar x =
      (c i * c j) * ((herm i).eval x * ((herm j).eval x * Real.exp (-x ^ 2))) := by
    intro x
    rw [ho_eq h, ho_eq h]
    have : Real.exp (-1 / 2 * x ^ 2) * Real.exp (-1 / 2 * x ^ 2) = Real.exp (-x ^ 2) := by
      rw [← Real.exp_add]
      congr 1
      ring
    rw [← this]
    ring
  simp only [e]
  constructor
  · refine ((integrable_poly1 (herm i * herm j)).const_mul (c i * c j)).congr (Filter.Eventually.of_forall fun x => ?_)
    simp only [eval_mul]
    ring
  · rw [integral_const_mul, herm_orthogonal]
    by_cases hij : i = j
    · subst hij
      rw [if_pos rfl, if_pos rfl, hc]
      dsimp only
      have h1 : Real.sqrt (2 ^ i * (i.factorial : ℝ)) * Real.sqrt (2 ^ i * (i.factorial : ℝ)) = 2 ^ i * (i.factorial : ℝ) :=
        Real.mul_self_sqrt (by positivity)
      have h2 := pi_root
      have h3 : ((-1 : ℝ) ^ i) * (-1) ^ i = 1 := by rw [← mul_pow]; simp
      have := hs i
      generalize Real.sqrt (2 ^ i * (i.factorial : ℝ)) = s at *
      generalize Real.pi ^ (1 / 4 : ℝ) = q at *
      generalize (-1 : ℝ) ^ i = z at *
      rw [← h1, ← h2, div_mul_div_comm, h3]
      field_simp
    · rw [if_neg hij, if_neg hij, mul_zero]

/-- For `m k = ħ`, they are the eigenfunctions of a particle of mass `m` in the potential `m k² x² / 2` (frequency `k`), with the energies
`ħ k (n + 1/2)`. -/
theorem C100_eigenfunction_partial {k m hbar : ℝ} (hm : m ≠ 0) (h : m * k / hbar = 1) (n : ℕ) :
    Eigenfunction hbar m (fun x => 1 / 2 * m * k ^ 2 * x ^ 2) (harmonicOscillator n k m hbar) (hbar * k * (n + 1 / 2)) := by
  have hb : hbar ≠ 0 := by rintro rfl; simp at h
  have hk : hbar = m * k := by field_simp at h; exact h.symm
  rw [ho_eq h]
  set c : ℝ := (-1) ^ n / (Real.sqrt (2 ^ n * (n.factorial : ℝ)) * Real.pi ^ (1 / 4 : ℝ))
  have d1 : ∀ x, HasDerivAt (fun x : ℝ => c * ((herm n).eval x * Real.exp (-1 / 2 * x ^ 2)))
      (c * ((derivative (herm n) - X * herm n).eval x * Real.exp (-1 / 2 * x ^ 2))) x := fun x => (poly_half_deriv _ x).const_mul c
  have d1' : deriv (fun x : ℝ => c * ((herm n).eval x * Real.exp (-1 / 2 * x ^ 2))) =
      fun x => c * ((derivative (herm n) - X * herm n).eval x * Real.exp (-1 / 2 * x ^ 2)) := funext fun x => (d1 x).deriv
  have d2 : ∀ x, HasDerivAt (fun x : ℝ => c * ((derivative (herm n) - X * herm n).eval x * Real.exp (-1 / 2 * x ^ 2)))
      (c * ((derivative (derivative (herm n) - X * herm n) - X * (derivative (herm n) - X * herm n)).eval x * Real.exp (-1 / 2 * x ^ 2))) x :=
    fun x => (poly_half_deriv _ x).const_mul c
  refine ⟨fun x => (d1 x).differentiableAt, ?_, fun x => ?_⟩
  · rw [d1']
    exact fun x => (d2 x).differentiableAt
  · rw [d1', (d2 x).deriv]
    have ode := congrArg (Polynomial.eval x) (herm_ode n)
    simp only [derivative_sub, derivative_mul, derivative_X, one_mul, eval_sub, eval_mul, eval_add, eval_X, eval_neg, eval_natCast,
      eval_ofNat] at ode ⊢
    have ode2 : (derivative (derivative (herm n))).eval x = 2 * x * (derivative (herm n)).eval x - 2 * n * (herm n).eval x := by linarith
    rw [ode2, hk]
    field_simp
    ring

/-- The lowest function is right for all parameters: it is normalised and the ground state of frequency `k`. -/
theorem C100_ground {k m hbar : ℝ} (hk : 0 < k) (hm : 0 < m) (hb : 0 < hbar) :
    (∫ x, harmonicOscillator 0 k m hbar x * harmonicOscillator 0 k m hbar x) = 1 ∧
    Eigenfunction hbar m (fun x => 1 / 2 * m * k ^ 2 * x ^ 2) (harmonicOscillator 0 k m hbar) (hbar * k * (1 / 2)) := by
  have hf : 0 < m * k / hbar := by positivity
  set f := m * k / hbar with hfd
  have e0 : harmonicOscillator 0 k m hbar = fun x => (f ^ (1 / 4 : ℝ) / Real.pi ^ (1 / 4 : ℝ)) * Real.exp (-f / 2 * x ^ 2) := by
    funext x
    unfold harmonicOscillator
    dsimp only
    rw [← hfd, hermite_eq]
    simp [herm]
    try ring
  rw [e0]
  set c : ℝ := f ^ (1 / 4 : ℝ) / Real.pi ^ (1 / 4 : ℝ) with hc
  constructor
  · have e : ∀ x, c * Real.exp (-f / 2 * x ^ 2) * (c * Real.exp (-f / 2 * x ^ 2)) = c * c * Real.exp (-f * x ^ 2) := by
      intro x
      rw [mul_mul_mul_comm, ← Real.exp_add]
      congr 2
      ring
    simp only [e]
    rw [integral_const_mul, integral_gaussian, hc, div_mul_div_comm, pi_root, ← Real.rpow_add hf]
    norm_num
    rw [← Real.sqrt_eq_rpow, Real.sqrt_div Real.pi_pos.le]
    have h1 : Real.sqrt Real.pi ≠ 0 := (Real.sqrt_pos.2 Real.pi_pos).ne'
    have h2 : Real.sqrt f ≠ 0 := (Real.sqrt_pos.2 hf).ne'
    field_simp
  · have d1 : ∀ x, HasDerivAt (fun x : ℝ => c * Real.exp (-f / 2 * x ^ 2)) (c * (-f * x * Real.exp (-f / 2 * x ^ 2))) x :=
      fun x => (half_deriv f x).const_mul c
    have d1' : deriv (fun x : ℝ => c * Real.exp (-f / 2 * x ^ 2)) = fun x => c * (-f * x * Real.exp (-f / 2 * x ^ 2)) :=
      funext fun x => (d1 x).deriv
    have d2 : ∀ x, HasDerivAt (fun x : ℝ => c * (-f * x * Real.exp (-f / 2 * x ^ 2)))
        (c * (-f * Real.exp (-f / 2 * x ^ 2) + -f * x * (-f * x * Real.exp (-f / 2 * x ^ 2)))) x := by
      intro x
      have h := ((((hasDerivAt_id x).const_mul (-f)).mul (half_deriv f x)).const_mul c)
      refine h.congr_deriv ?_
      simp
    refine ⟨fun x => (d1 x).differentiableAt, ?_, fun x => ?_⟩
    · rw [d1']
      exact fun x => (d2 x).differentiableAt
    · rw [d1', (d2 x).deriv]
      have : f * hbar = m * k := by rw [hfd]; field_simp
      have h2 : f = m * k / hbar := hfd
      dsimp only
      generalize Real.exp (-f / 2 * x ^ 2) = E
      clear_value c
      rw [h2]
      field_simp
      ring

/-- **Violated** otherwise: the argument of the Hermite polynomial is `(m k / ħ) x` where its square root is needed. The squared norm of the
first excited function is `m k / ħ`. -/
theorem C100_norm_of_one {k m hbar : ℝ} (hf : 0 < m * k / hbar) :
    (∫ x, harmonicOscillator 1 k m hbar x * harmonicOscillator 1 k m hbar x) = m * k / hbar := by
  set f := m * k / hbar with hfd
  have hq : f ^ (1 / 4 : ℝ) * f ^ (1 / 4 : ℝ) = Real.sqrt f := by
    rw [← Real.rpow_add hf, Real.sqrt_eq_rpow]
    norm_num
  have hp := pi_root
  have h2 : Real.sqrt 2 * Real.sqrt 2 = 2 := Real.mul_self_sqrt (by norm_num)
  have e0 : ∀ x, harmonicOscillator 1 k m hbar x * harmonicOscillator 1 k m hbar x =
      (2 * f * (Real.sqrt f * Real.sqrt f) * Real.sqrt f / Real.sqrt Real.pi) * (x * x * Real.exp (-f * x ^ 2)) := by
    intro x
    unfold harmonicOscillator
    dsimp only
    rw [← hfd, hermite_eq]
    simp only [herm, derivative_one, eval_sub, eval_mul, eval_X, eval_ofNat, eval_zero, eval_one, pow_one, Nat.factorial_one, Nat.cast_one, mul_one]
    have he : Real.exp (-f * x ^ 2) = Real.exp (-f / 2 * x ^ 2) * Real.exp (-f / 2 * x ^ 2) := by
      rw [← Real.exp_add]
      congr 1
      ring
    have hs : Real.sqrt f * Real.sqrt f = f := Real.mul_self_sqrt hf.le
    have h2' : Real.sqrt 2 ≠ 0 := by positivity
    have hp' : Real.pi ^ (1 / 4 : ℝ) ≠ 0 := (Real.rpow_pos_of_pos Real.pi_pos _).ne'
    rw [he, hs, ← hq, ← hp]
    generalize Real.exp (-f / 2 * x ^ 2) = E
    generalize f ^ (1 / 4 : ℝ) = q
    generalize Real.pi ^ (1 / 4 : ℝ) = p at hp'
    generalize Real.sqrt 2 = r at h2 h2'
    field_simp
    have : r ^ 2 = 2 := by rw [← h2]; ring
    rw [this]
    ring
  simp only [e0]
  rw [integral_const_mul]
  have key : (∫ x : ℝ, x * x * Real.exp (-f * x ^ 2)) = 1 / (2 * f) * Real.sqrt (Real.pi / f) := by
    have hd : ∀ x, HasDerivAt (fun x : ℝ => Real.exp (-f * x ^ 2)) (-(2 * f) * x * Real.exp (-f * x ^ 2)) x := by
      intro x
      have := half_deriv (2 * f) x
      have e : ∀ y : ℝ, -(2 * f) / 2 * y ^ 2 = -f * y ^ 2 := fun y => by ring
      simpa only [e] using this
    have i : ∀ p : ℝ[X], Integrable fun x : ℝ => p.eval x * Real.exp (-f * x ^ 2) := fun p => integrable_poly p hf
    have h := integral_mul_deriv_eq_deriv_mul_of_integrable (u := fun x : ℝ => x) (u' := fun _ => 1) (v := fun x : ℝ => Real.exp (-f * x ^ 2))
      (v' := fun x => -(2 * f) * x * Real.exp (-f * x ^ 2)) (fun x _ => hasDerivAt_id x) (fun x _ => hd x)
      ((i (C (-(2 * f)) * X * X)).congr (Filter.Eventually.of_forall fun x => by
        simp only [eval_mul, eval_C, eval_X, Pi.mul_apply]; ring))
      ((i 1).congr (Filter.Eventually.of_forall fun x => by simp)) ((i X).congr (Filter.Eventually.of_forall fun x => by simp))
    simp only [one_mul] at h
    rw [integral_gaussian] at h
    have e : ∀ x : ℝ, x * (-(2 * f) * x * Real.exp (-f * x ^ 2)) = -(2 * f) * (x * x * Real.exp (-f * x ^ 2)) := fun x => by ring
    simp only [e] at h
    rw [integral_const_mul] at h
    have h' : (2 * f) * (∫ x : ℝ, x * x * Real.exp (-f * x ^ 2)) = Real.sqrt (Real.pi / f) := by linarith
    rw [← h']
    generalize (∫ x : ℝ, x * x * Real.exp (-f * x ^ 2)) = I
    field_simp
  rw [key, Real.sqrt_div Real.pi_pos.le, Real.mul_self_sqrt hf.le]
  have h1 : Real.sqrt Real.pi ≠ 0 := (Real.sqrt_pos.2 Real.pi_pos).ne'
  have h3 : Real.sqrt f ≠ 0 := (Real.sqrt_pos.2 hf).ne'
  field_simp

/-- Whenever `m k / ħ` is not 1, the functions are not orthonormal. -/
theorem C100_violated {k m hbar : ℝ} (hf : 0 < m * k / hbar) (h1 : m * k / hbar ≠ 1) :
    ¬OrthonormalOnLine fun n => harmonicOscillator n k m hbar := by
  intro h
  have := (h 1 1).2
  rw [C100_norm_of_one hf, if_pos rfl] at this
  exact h1 this

/-- The default parameters meet the hypothesis; a frequency of 4 does not. -/
example : OrthonormalOnLine (fun n => harmonicOscillator n 1 1 1) ∧ ¬OrthonormalOnLine fun n => harmonicOscillator n 4 1 1 :=
  ⟨C100_orthonormal_partial (by norm_num), C100_violated (by norm_num) (by norm_num)⟩

end Symbolic
