import Verif.Model.Noise
import Verif.Props.C72
import Mathlib.Topology.Algebra.Ring.Basic

/-! C82: the exponential terms of `Drude` of `minitn/heom/noise.py`. -/

open Py Filter Topology

namespace DrudeNoise

variable {D : Drude} {beta : ℝ}

private theorem rdiv_ok {a b : ℝ} (h : b ≠ 0) : Corr.rdiv a b = .ok (a / b) := by unfold Corr.rdiv; rw [if_neg h]

private theorem mapM_all {α β : Type} {f : α → Res β} {g : α → β} : ∀ (l : List α), (∀ x ∈ l, f x = .ok (g x)) → l.mapM f = .ok (l.map g)
  | [], _ => rfl
  | x :: l, h => by
    rw [List.mapM_cons, h x (by simp), ok_bind, mapM_all l fun y hy => h y (by simp [hy])]
    rfl

private noncomputable def expOf (D : Drude) (beta : ℝ) (k : ℕ) : ℝ := if k = 0 then D.omega0 else 2 * Real.pi * k / beta

private noncomputable def symmOf (D : Drude) (beta : ℝ) (k : ℕ) : ℝ :=
  if k = 0 then D.omega0 * D.lam / Real.tan (beta * D.omega0 / 2) else
    2 * (2 * D.lam * (expOf D beta k * D.omega0) / (expOf D beta k ^ 2 + D.omega0 ^ 2)) / beta

private theorem expCoeff_ok (hb : D.beta = some beta) (h0 : beta ≠ 0) : expCoeff D = .ok ((List.range D.kMax).map (expOf D beta)) := by
  unfold expCoeff
  refine mapM_all _ fun k _ => ?_
  unfold expOf
  by_cases hk : k = 0
  · rw [if_pos hk, if_pos hk]
  · rw [if_neg hk, if_neg hk]
    unfold betaHbar
    rw [hb]
    simp only [mul_one]
    exact rdiv_ok h0

private theorem noise_ok (hb : D.beta = some beta) (h0 : beta ≠ 0) (hw : D.omega0 ≠ 0) (ht : Real.tan (beta * D.omega0 / 2) ≠ 0) :
    noise D = .ok ⟨D.kMax, ((List.range D.kMax).map (symmOf D beta)).map fun x : ℝ => (x : ℂ), (asymmCoeff D).map fun x : ℝ => (x : ℂ),
      ((List.range D.kMax).map (expOf D beta)).map fun x : ℝ => (x : ℂ)⟩ := by
  have hs : symmCoeff D = .ok ((List.range D.kMax).map (symmOf D beta)) := by
    unfold symmCoeff betaHbar
    rw [hb]
    simp only [mul_one, ok_bind]
    refine mapM_all _ fun k hk => ?_
    have hk := List.mem_range.1 hk
    unfold symmOf
    by_cases hk0 : k = 0
    · rw [if_pos hk0, if_pos hk0]
      exact rdiv_ok ht
    · rw [if_neg hk0, if_neg hk0, expCoeff_ok hb h0, ok_bind]
      have hi : Corr.item ((List.range D.kMax).map (expOf D beta)) k = .ok (expOf D beta k) := by
        unfold Corr.item
        rw [List.getElem?_map, List.getElem?_range hk]
        rfl
      have hd : expOf D beta k ^ 2 + D.omega0 ^ 2 ≠ 0 := by positivity
      rw [hi, ok_bind]
      unfold spectrum
      rw [rdiv_ok hd, ok_bind]
      exact rdiv_ok h0
  unfold noise
  rw [hs, ok_bind, expCoeff_ok hb h0]
  rfl

/-- The spectral density times the exact Bose function. -/
noncomputable def integrand (D : Drude) (beta : ℝ) (w : ℂ) : ℂ := BathSpec.drude D.lam D.omega0 w * PadeSpec.bose (beta * w)

/-- The Matsubara frequency `k`. -/
noncomputable def nu (beta : ℝ) (k : ℕ) : ℝ := 2 * Real.pi * k / beta

private theorem cot_eq {x : ℝ} (h : Real.sin x ≠ 0) :
    -2 * Complex.I / (1 - Complex.exp (-(-Complex.I * (2 * x : ℝ)))) = ((Real.cos x / Real.sin x : ℝ) : ℂ) - Complex.I := by
  have hs : Complex.sin x ≠ 0 := by rw [← Complex.ofReal_sin]; exact_mod_cast h
  have e : Complex.exp (-(-Complex.I * ((2 * x : ℝ) : ℂ))) = (Complex.cos x + Complex.sin x * Complex.I) ^ 2 := by
    rw [← Complex.exp_mul_I, ← Complex.exp_nat_mul]
    congr 1
    push_cast
    ring
  have hc := Complex.cos_sq_add_sin_sq (x : ℂ)
  have hd : 1 - (Complex.cos x + Complex.sin x * Complex.I) ^ 2 = -2 * Complex.I * Complex.sin x * (Complex.cos x + Complex.sin x * Complex.I) := by
    linear_combination -hc + (Complex.sin (x : ℂ)) ^ 2 * Complex.I_sq
  have hne : Complex.cos x + Complex.sin x * Complex.I ≠ 0 := by rw [← Complex.exp_mul_I]; exact Complex.exp_ne_zero _
  rw [e, hd, div_eq_iff (mul_ne_zero (mul_ne_zero (mul_ne_zero (by norm_num) Complex.I_ne_zero) hs) hne)]
  push_cast
  field_simp
  linear_combination hc - (Complex.sin (x : ℂ)) ^ 2 * Complex.I_sq

/-- `Drude` has as many terms as announced. The first one is the contribution of the pole of the spectral density, with the exact Bose
function. The others decay with the Matsubara frequencies, and their antisymmetric part is 0. -/
theorem C82_drude_partial (hb : D.beta = some beta) (h0 : 0 < beta) (hw : 0 < D.omega0) (ht : Real.tan (beta * D.omega0 / 2) ≠ 0) :
    ∃ N, noise D = .ok N ∧ N.kMax = D.kMax ∧ N.symm.length = D.kMax ∧ N.asymm.length = D.kMax ∧ N.exp.length = D.kMax ∧
      (1 ≤ D.kMax → BathSpec.Contribution (integrand D beta) (-Complex.I * D.omega0) (N.symm.getD 0 0 + Complex.I * N.asymm.getD 0 0)
        (-N.exp.getD 0 0)) ∧
      ∀ k, 1 ≤ k → k < D.kMax → N.exp.getD k 0 = nu beta k ∧ N.asymm.getD k 0 = 0 := by
  refine ⟨_, noise_ok hb h0.ne' hw.ne' ht, rfl, by simp, by simp [asymmCoeff], by simp, fun hk => ?_, fun k h1 h2 => ?_⟩
  · have hsin : Real.sin (beta * D.omega0 / 2) ≠ 0 := fun h => ht (by rw [Real.tan_eq_sin_div_cos, h, zero_div])
    have hcos : Real.cos (beta * D.omega0 / 2) ≠ 0 := fun h => ht (by rw [Real.tan_eq_sin_div_cos, h, div_zero])
    have hc := cot_eq hsin
    have e2 : ((2 * (beta * D.omega0 / 2) : ℝ) : ℂ) = D.omega0 * beta := by push_cast; ring
    rw [e2, ← mul_assoc] at hc
    have hne : 1 - Complex.exp (-(-Complex.I * D.omega0 * beta)) ≠ 0 := by
      intro h
      rw [h, div_zero] at hc
      have := congrArg Complex.im hc
      simp [-Complex.ofReal_div] at this
    have e0 : (List.range D.kMax) = 0 :: (List.range (D.kMax - 1)).map (· + 1) := by
      obtain ⟨m, hm⟩ : ∃ m, D.kMax = m + 1 := ⟨D.kMax - 1, by omega⟩
      rw [hm, List.range_succ_eq_map]; rfl
    refine ⟨by simpa using hw, ?_, _, Corr.drude_first hw hne, ?_⟩
    · rw [e0]
      simp only [List.map_cons, List.getD_cons_zero, expOf, if_true]
      linear_combination (-(D.omega0 : ℂ)) * Complex.I_sq
    · unfold asymmCoeff
      rw [e0]
      simp only [List.map_cons, List.getD_cons_zero, symmOf, if_true]
      have hpi : (Real.pi : ℂ) ≠ 0 := Complex.ofReal_ne_zero.2 Real.pi_ne_zero
      have e3 : -2 * (Real.pi : ℂ) * Complex.I * (D.lam * D.omega0 / Real.pi * (1 / (1 - Complex.exp (-(-Complex.I * D.omega0 * beta))))) =
          D.lam * D.omega0 * (-2 * Complex.I / (1 - Complex.exp (-(-Complex.I * D.omega0 * beta)))) := by
        field_simp
      rw [e3, hc, Real.tan_eq_sin_div_cos]
      push_cast
      have hs' : Complex.sin (beta * D.omega0 / 2) ≠ 0 := by
        have : (Complex.sin (((beta * D.omega0 / 2 : ℝ)) : ℂ)) ≠ 0 := by rw [← Complex.ofReal_sin]; exact_mod_cast hsin
        push_cast at this
        exact this
      have hc' : Complex.cos (beta * D.omega0 / 2) ≠ 0 := by
        have : (Complex.cos (((beta * D.omega0 / 2 : ℝ)) : ℂ)) ≠ 0 := by rw [← Complex.ofReal_cos]; exact_mod_cast hcos
        push_cast at this
        exact this
      field_simp
      ring
  · have hk : k ≠ 0 := by omega
    constructor
    · rw [List.getD_eq_getElem _ _ (by simpa using h2)]
      simp [expOf, hk, nu]
    · rw [List.getD_eq_getElem _ _ (by simpa [asymmCoeff] using h2)]
      simp [asymmCoeff, hk]

/-- None of the other terms is the contribution of its pole: their coefficient has the spectral density at a real frequency for that at an
imaginary one. -/
theorem C82_matsubara_violated (hb : D.beta = some beta) (h0 : 0 < beta) (hw : 0 < D.omega0) (hl : D.lam ≠ 0)
    (ht : Real.tan (beta * D.omega0 / 2) ≠ 0) {k : ℕ} (h1 : 1 ≤ k) (h2 : k < D.kMax) (hne : nu beta k ≠ D.omega0) :
    ∃ N, noise D = .ok N ∧
      (∃ c, BathSpec.Contribution (integrand D beta) (-Complex.I * nu beta k) c (-N.exp.getD k 0)) ∧
      ¬ BathSpec.Contribution (integrand D beta) (-Complex.I * nu beta k) (N.symm.getD k 0 + Complex.I * N.asymm.getD k 0) (-N.exp.getD k 0) := by
  have hpi : (Real.pi : ℂ) ≠ 0 := Complex.ofReal_ne_zero.2 Real.pi_ne_zero
  have hb' : (beta : ℂ) ≠ 0 := Complex.ofReal_ne_zero.2 h0.ne'
  have hk : k ≠ 0 := by omega
  have hnu : 0 < nu beta k := by
    unfold nu
    have : (0 : ℝ) < k := by exact_mod_cast h1
    have := Real.pi_pos
    positivity
  have hm : (D.omega0 : ℂ) ^ 2 - (nu beta k : ℂ) ^ 2 ≠ 0 := by
    have : D.omega0 ^ 2 - nu beta k ^ 2 ≠ 0 := by
      intro h
      have : (D.omega0 - nu beta k) * (D.omega0 + nu beta k) = 0 := by linear_combination h
      rcases mul_eq_zero.1 this with h | h
      · exact hne (by linarith)
      · linarith
    exact_mod_cast this
  have hp : (nu beta k : ℂ) ^ 2 + (D.omega0 : ℂ) ^ 2 ≠ 0 := by
    have : nu beta k ^ 2 + D.omega0 ^ 2 ≠ 0 := by positivity
    exact_mod_cast this
  have hden : (-Complex.I * (nu beta k : ℂ)) ^ 2 + (D.omega0 : ℂ) ^ 2 = (D.omega0 : ℂ) ^ 2 - (nu beta k : ℂ) ^ 2 := by
    linear_combination (nu beta k : ℂ) ^ 2 * Complex.I_sq
  have hexp : Complex.exp (-((beta : ℂ) * (-Complex.I * nu beta k))) = 1 := by
    obtain ⟨i, rfl⟩ : ∃ i, k = i + 1 := ⟨k - 1, by omega⟩
    rw [← Corr.matsubara_exp h0 i]
    unfold nu
    push_cast
    congr 1
    ring
  have hres := Corr.bose_residue h0 (Corr.drude_continuous (lam := D.lam) (gamma := D.omega0) (by rw [hden]; exact hm)) hexp
  refine ⟨_, noise_ok hb h0.ne' hw.ne' ht, ?_, ?_⟩
  · refine ⟨_, by simpa using hnu, ?_, _, hres, rfl⟩
    rw [List.getD_eq_getElem _ _ (by simpa using h2)]
    simp only [List.getElem_map, List.getElem_range, expOf, hk, if_false]
    have : ((2 * Real.pi * k / beta : ℝ) : ℂ) = nu beta k := rfl
    rw [this]
    linear_combination (-(nu beta k : ℂ)) * Complex.I_sq
  · rintro ⟨-, -, r, hr, hc⟩
    have hrr := tendsto_nhds_unique hr hres
    rw [hrr] at hc
    rw [List.getD_eq_getElem _ _ (by simpa using h2), List.getD_eq_getElem _ _ (by simpa [asymmCoeff] using h2)] at hc
    simp only [List.getElem_map, List.getElem_range, asymmCoeff, symmOf, expOf, hk, if_false, Complex.ofReal_zero, mul_zero, add_zero] at hc
    have e : 2 * Real.pi * k / beta = nu beta k := rfl
    rw [e] at hc
    unfold BathSpec.drude at hc
    rw [hden] at hc
    push_cast at hc
    have hl' : (D.lam : ℂ) ≠ 0 := Complex.ofReal_ne_zero.2 hl
    have hw' : (D.omega0 : ℂ) ≠ 0 := Complex.ofReal_ne_zero.2 hw.ne'
    have hn' : (nu beta k : ℂ) ≠ 0 := Complex.ofReal_ne_zero.2 hnu.ne'
    generalize (nu beta k : ℂ) = v at *
    generalize hA : (D.omega0 : ℂ) ^ 2 - v ^ 2 = A at *
    generalize hB : v ^ 2 + (D.omega0 : ℂ) ^ 2 = B at *
    have h3 : (4 : ℂ) * D.lam * D.omega0 * v * (A + B) = 0 := by
      field_simp at hc
      rw [hc, Complex.I_sq]
      ring
    have : A + B = 2 * (D.omega0 : ℂ) ^ 2 := by rw [← hA, ← hB]; ring
    rw [this] at h3
    have h4 : (4 : ℂ) * D.lam * D.omega0 * v * (2 * (D.omega0 : ℂ) ^ 2) ≠ 0 := by
      refine mul_ne_zero (mul_ne_zero (mul_ne_zero (mul_ne_zero (by norm_num) hl') hw') hn') (mul_ne_zero (by norm_num) (pow_ne_zero _ hw'))
    exact h4 h3

/-! The hypotheses can be met, with any number of terms. -/

example (k : ℕ) (h1 : 1 ≤ k) : ∃ N, noise ⟨2, 1, k + 1, some 2⟩ = .ok N ∧
    ¬ BathSpec.Contribution (integrand ⟨2, 1, k + 1, some 2⟩ 2) (-Complex.I * nu 2 k) (N.symm.getD k 0 + Complex.I * N.asymm.getD k 0)
      (-N.exp.getD k 0) := by
  have ht : Real.tan ((2 : ℝ) * 1 / 2) ≠ 0 := by
    rw [show (2 : ℝ) * 1 / 2 = 1 by norm_num]
    exact (Real.tan_pos_of_pos_of_lt_pi_div_two one_pos (by linarith [Real.pi_gt_three])).ne'
  have hn : nu 2 k ≠ 1 := by
    unfold nu
    have : (1 : ℝ) ≤ k := by exact_mod_cast h1
    have := Real.pi_gt_three
    nlinarith
  obtain ⟨N, h2, -, h3⟩ := C82_matsubara_violated (D := ⟨2, 1, k + 1, some 2⟩) rfl two_pos one_pos two_ne_zero ht h1 (Nat.lt_succ_self k) hn
  exact ⟨N, h2, h3⟩

end DrudeNoise
