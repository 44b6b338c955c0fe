import Verif.Model.Spd
import Verif.Props.C72
import Mathlib.Analysis.SpecialFunctions.Exp

/-! C84, C85, C86: the Bose function and the spectral densities of `minitn/heom/spd.py` with their poles. -/

open Py Filter Topology

namespace Spd

/-- `function` is the Bose function, and emission and absorption are in detailed balance. -/
theorem C84_function {beta w : ℝ} (hb : 0 < beta) (hw : w ≠ 0) : ∃ f g, newBose (some beta) = .ok (some beta) ∧
    function (some beta) w = .ok f ∧ function (some beta) (-w) = .ok g ∧
    (f : ℂ) = PadeSpec.bose (beta * w) ∧ f = Real.exp (beta * w) * -g ∧ f + g = 1 := by
  have key : ∀ x : ℝ, x ≠ 0 → 1 - Real.exp (-beta * x) ≠ 0 := by
    intro x hx h
    have h1 : Real.exp (-beta * x) = 1 := by linarith
    rw [Real.exp_eq_one_iff] at h1
    exact (mul_ne_zero (neg_ne_zero.2 hb.ne') hx) h1
  have h1 := key w hw
  have h2 := key (-w) (neg_ne_zero.2 hw)
  refine ⟨1 / (1 - Real.exp (-beta * w)), 1 / (1 - Real.exp (-beta * -w)), if_pos hb.le, if_neg h1, if_neg h2, ?_, ?_, ?_⟩
  · unfold PadeSpec.bose
    push_cast
    rw [neg_mul]
  all_goals
    have e : Real.exp (-beta * -w) = Real.exp (beta * w) := by congr 1; ring
    have e' : Real.exp (-beta * w) = (Real.exp (beta * w))⁻¹ := by rw [← Real.exp_neg]; congr 1; ring
    rw [e'] at h1 ⊢
    rw [e] at h2 ⊢
    have h0 := (Real.exp_pos (beta * w)).ne'
    generalize Real.exp (beta * w) = E at *
    have h3 : E - 1 ≠ 0 := fun h => h2 (by linarith)
    have h4 : 1 - E⁻¹ = (E - 1) / E := by field_simp
    rw [h4]
    field_simp
    ring

/-- The values at low temperatures come close to the value that is returned for zero temperature, if the frequency is positive. -/
theorem C84_zero_temperature_partial {w : ℝ} (hw : 0 < w) :
    ∃ f : ℝ → ℝ, (∀ᶠ b in atTop, function (some b) w = .ok (f b)) ∧ ∃ f₀, function none w = .ok f₀ ∧ Tendsto f atTop (𝓝 f₀) := by
  refine ⟨fun b => 1 / (1 - Real.exp (-b * w)), ?_, 1, rfl, ?_⟩
  · filter_upwards [eventually_gt_atTop 0] with b hb
    refine if_neg fun h => ?_
    have h1 : Real.exp (-b * w) = 1 := by linarith
    rw [Real.exp_eq_one_iff] at h1
    exact (mul_ne_zero (neg_ne_zero.2 (ne_of_gt hb)) hw.ne') h1
  · have h1 : Tendsto (fun b : ℝ => -b * w) atTop atBot := by
      exact (tendsto_neg_atTop_atBot).atBot_mul_const hw
    have h2 := Real.tendsto_exp_atBot.comp h1
    have h3 : Tendsto (fun b : ℝ => 1 / (1 - Real.exp (-b * w))) atTop (𝓝 (1 / (1 - 0))) :=
      Tendsto.div tendsto_const_nhds (tendsto_const_nhds.sub h2) (by norm_num)
    simpa using h3

/-- For negative frequencies the value for zero temperature is not the limit, which is 0: there absorption is as strong as emission. -/
theorem C84_zero_temperature_violated {w : ℝ} (hw : w < 0) :
    ∃ f : ℝ → ℝ, (∀ᶠ b in atTop, function (some b) w = .ok (f b)) ∧ Tendsto f atTop (𝓝 0) ∧ function none w = .ok 1 := by
  refine ⟨fun b => 1 / (1 - Real.exp (-b * w)), ?_, ?_, rfl⟩
  · filter_upwards [eventually_gt_atTop 0] with b hb
    refine if_neg fun h => ?_
    have h1 : Real.exp (-b * w) = 1 := by linarith
    rw [Real.exp_eq_one_iff] at h1
    exact (mul_ne_zero (neg_ne_zero.2 (ne_of_gt hb)) hw.ne) h1
  · have h1 : Tendsto (fun b : ℝ => -b * w) atTop atTop := by
      have h : (fun b : ℝ => -b * w) = fun b => b * -w := by funext b; ring
      rw [h]
      exact tendsto_id.atTop_mul_const (neg_pos.2 hw)
    have h2 := Real.tendsto_exp_atTop.comp h1
    have h3 : Tendsto (fun b : ℝ => 1 - Real.exp (-b * w)) atTop atBot := by
      simpa [sub_eq_add_neg] using tendsto_atBot_add_const_left atTop (1 : ℝ) (tendsto_neg_atTop_atBot.comp h2)
    exact h3.inv_tendsto_atBot.congr fun b => (one_div _).symm

/-- The list of the Matsubara method: pair `i` has the residue of the Bose function at `± i zeta`. -/
theorem C85_matsubara {n : ℕ} : ∃ l, matsubara n = .ok l ∧ l.length = n ∧ ∀ x ∈ l, ∃ r zeta : ℝ, x = [r, zeta] ∧ 0 < zeta ∧
    BathSpec.HasResidue PadeSpec.bose (Complex.I * zeta) r ∧ BathSpec.HasResidue PadeSpec.bose (-Complex.I * zeta) r := by
  refine ⟨_, rfl, by simp, fun x hx => ?_⟩
  obtain ⟨i, -, rfl⟩ := List.mem_map.1 hx
  have key : ∀ a : ℂ, Complex.exp (-a) = 1 → BathSpec.HasResidue PadeSpec.bose a (1 : ℝ) := by
    intro a ha
    have h := Corr.bose_residue (beta := 1) one_pos (J := fun _ => 1) (a := a) continuousAt_const (by simpa using ha)
    simpa using h
  refine ⟨1, 2 * Real.pi * ((i : ℝ) + 1), rfl, by have := Real.pi_pos; positivity, key _ ?_, key _ ?_⟩
  · rw [Complex.exp_eq_one_iff]
    exact ⟨-((i : ℤ) + 1), by push_cast; ring⟩
  · rw [Complex.exp_eq_one_iff]
    exact ⟨(i : ℤ) + 1, by push_cast; ring⟩

/-- The names of the methods. -/
def pade : List Char := ['p', 'a', 'd', 'e']

/-- The names of the methods. -/
def matsu : List Char := ['m', 'a', 't', 's', 'u', 'b', 'a', 'r', 'a']

/-- `residues` returns the empty list for no terms and for zero temperature, and refuses negative numbers and unknown methods. -/
theorem C85_residues_partial {beta : Option ℝ} {n : ℤ} {m : List Char} (hm : lower m = pade ∨ lower m = matsu) :
    residues beta 0 m = .ok [] ∧ (0 ≤ n → residues none n m = .ok []) ∧ (n < 0 → residues beta n m = .error .assertionError) ∧
    ∀ m', lower m' ≠ pade → lower m' ≠ matsu → residues beta n m' = .error .notImplementedError := by
  refine ⟨?_, fun h => ?_, fun h => ?_, fun m' h1 h2 => ?_⟩
  · unfold residues
    rcases hm with hm | hm <;> cases beta <;> simp [hm, pade, matsu, ok_bind, pure, Except.pure]
  · unfold residues
    rcases hm with hm | hm <;> simp [hm, pade, matsu, ok_bind, pure, Except.pure, not_lt.2 h]
  · unfold residues
    rcases hm with hm | hm <;> simp [hm, pade, matsu, ok_bind, h]
  · unfold residues
    unfold pade at h1
    unfold matsu at h2
    rw [if_neg h1, if_neg h2]
    rfl

/-- Every other call fails, except the Matsubara method with two terms. -/
theorem C85_residues_violated {beta : ℝ} {n : ℕ} (hn : 0 < n) {m : List Char} :
    (lower m = pade → residues (some beta) n m = .error .typeError) ∧
    (lower m = matsu → n ≠ 2 → residues (some beta) n m = .error .valueError) := by
  have h0 : ¬ (n : ℤ) < 0 := by omega
  have h1 : ¬ (n : ℤ) = 0 := by omega
  refine ⟨fun hm => ?_, fun hm h2 => ?_⟩
  · unfold pade at hm
    unfold residues
    rw [if_pos hm, ok_bind, if_neg h0]
    dsimp only
    rw [if_neg h1]
    simp [pade1, hn.ne', error_bind]
  · unfold matsu at hm
    unfold residues
    rw [if_neg (by rw [hm]; decide), if_pos hm, ok_bind, if_neg h0]
    dsimp only
    rw [if_neg h1]
    have h3 : ∃ l, matsubara n = .ok l ∧ l.length = n := ⟨_, rfl, by simp⟩
    obtain ⟨l, e, hl⟩ := h3
    rw [Int.toNat_natCast, e, ok_bind]
    have h4 : unpack2 l = .error .valueError := by
      match l, hl with
      | [], _ => rfl
      | [_], _ => rfl
      | [_, _], hl => exact absurd hl.symm h2
      | _ :: _ :: _ :: _, _ => rfl
    rw [h4]
    rfl

/-- And there the poles are not those of the Bose function. -/
theorem C85_two_violated {beta : ℝ} (hb : 0 < beta) : ∃ l, residues (some beta) 2 matsu = .ok l ∧
    ((1 / beta : ℂ), -Complex.I / beta) ∈ l ∧ ¬ BathSpec.HasResidue (fun w => PadeSpec.bose (beta * w)) (-Complex.I / beta) (1 / beta) := by
  have hb' : (beta : ℂ) ≠ 0 := Complex.ofReal_ne_zero.2 hb.ne'
  have hd : ∀ a : ℂ, Corr.div a beta = .ok (a / beta) := fun a => if_neg hb'
  refine ⟨[(1 / beta, -Complex.I * 1 / beta), ((2 * Real.pi * (0 + 1) : ℝ) / beta, -Complex.I * (2 * Real.pi * (1 + 1) : ℝ) / beta),
    (1 / beta, Complex.I * 1 / beta), ((2 * Real.pi * (0 + 1) : ℝ) / beta, Complex.I * (2 * Real.pi * (1 + 1) : ℝ) / beta)], ?_, ?_, ?_⟩
  · unfold residues
    rw [if_neg (by decide), if_pos (by decide), ok_bind, if_neg (by decide)]
    dsimp only
    rw [if_neg (by decide)]
    simp [matsubara, List.range_succ, ok_bind, unpack2, hd, pure, Except.pure]
  · simp
  · intro h
    have hc : ContinuousAt (fun w : ℂ => (w - -Complex.I / beta) * PadeSpec.bose (beta * w)) (-Complex.I / beta) := by
      have hne : 1 - Complex.exp (-((beta : ℂ) * (-Complex.I / beta))) ≠ 0 := by
        intro h0
        have h1 : Complex.exp (-((beta : ℂ) * (-Complex.I / beta))) = 1 := by linear_combination -h0
        rw [Complex.exp_eq_one_iff] at h1
        obtain ⟨k, hk⟩ := h1
        rw [mul_div_cancel₀ _ hb', neg_neg] at hk
        have h2 := congrArg Complex.im hk
        simp at h2
        have hp := Real.pi_gt_three
        rcases lt_trichotomy k 0 with h3 | h3 | h3
        · have : (k : ℝ) ≤ -1 := by exact_mod_cast Int.le_sub_one_of_lt h3
          nlinarith
        · subst h3
          simp at h2
        · have : (1 : ℝ) ≤ k := by exact_mod_cast h3
          nlinarith
      unfold PadeSpec.bose
      exact ContinuousAt.mul (by fun_prop) (ContinuousAt.div (by fun_prop) (by fun_prop) hne)
    have h1 := tendsto_nhds_unique h (hc.tendsto.mono_left nhdsWithin_le_nhds)
    simp only [sub_self, zero_mul] at h1
    exact one_div_ne_zero hb' h1

/-- The pairs of the Drude bath are the residues and poles of its spectral density, and it is the sum of its poles. -/
theorem C86_drude {D : Drude} (hg : D.gamma ≠ 0) :
    (∀ x ∈ D.residues, BathSpec.HasResidue (BathSpec.drude D.lam D.gamma) x.2 x.1) ∧
    ∀ w : ℝ, ∃ J, D.spectralDensity w = .ok J ∧ (J : ℂ) = BathSpec.drude D.lam D.gamma w ∧
      (J : ℂ) = (D.residues.map fun x : ℂ × ℂ => x.1 / ((w : ℂ) - x.2)).sum := by
  have hg' : (D.gamma : ℂ) ≠ 0 := Complex.ofReal_ne_zero.2 hg
  have hpi : (Real.pi : ℂ) ≠ 0 := Complex.ofReal_ne_zero.2 Real.pi_ne_zero
  have hi := Complex.I_ne_zero
  have key : ∀ s : ℂ, s ^ 2 = -1 → BathSpec.HasResidue (BathSpec.drude D.lam D.gamma) (s * D.gamma) (D.lam * D.gamma / Real.pi) := by
    intro s hs
    have hs0 : s ≠ 0 := fun h => by rw [h] at hs; norm_num at hs
    have hne : s * D.gamma + s * D.gamma ≠ 0 := by
      rw [← two_mul]
      exact mul_ne_zero two_ne_zero (mul_ne_zero hs0 hg')
    have hc : ContinuousAt (fun w : ℂ => 2 / Real.pi * D.lam * D.gamma * w / (w + s * D.gamma)) (s * D.gamma) :=
      ContinuousAt.div (by fun_prop) (by fun_prop) hne
    have h := hc.tendsto.mono_left (nhdsWithin_le_nhds (s := {s * (D.gamma : ℂ)}ᶜ))
    unfold BathSpec.HasResidue
    have e : 2 / (Real.pi : ℂ) * D.lam * D.gamma * (s * D.gamma) / (s * D.gamma + s * D.gamma) = D.lam * D.gamma / Real.pi := by
      field_simp
      ring
    rw [e] at h
    refine h.congr' ?_
    filter_upwards [self_mem_nhdsWithin] with w hw
    have hw0 : w - s * D.gamma ≠ 0 := sub_ne_zero.2 hw
    unfold BathSpec.drude
    rw [show w ^ 2 + (D.gamma : ℂ) ^ 2 = (w - s * D.gamma) * (w + s * D.gamma) by linear_combination (D.gamma : ℂ) ^ 2 * hs, mul_div_assoc',
      mul_div_mul_left _ _ hw0]
  refine ⟨?_, fun w => ?_⟩
  · intro x hx
    simp only [Drude.residues, List.mem_cons, List.not_mem_nil, or_false] at hx
    rcases hx with rfl | rfl
    · exact key (-Complex.I) (by rw [neg_sq, Complex.I_sq])
    · exact key Complex.I Complex.I_sq
  · have hne : w ^ 2 + D.gamma ^ 2 ≠ 0 := by positivity
    have hne' : (w : ℂ) ^ 2 + (D.gamma : ℂ) ^ 2 ≠ 0 := by exact_mod_cast hne
    have hm : (w : ℂ) ^ 2 + (D.gamma : ℂ) ^ 2 = ((w : ℂ) - -Complex.I * D.gamma) * ((w : ℂ) - Complex.I * D.gamma) := by
      linear_combination (D.gamma : ℂ) ^ 2 * Complex.I_sq
    refine ⟨_, if_neg hne, by unfold BathSpec.drude; push_cast; rfl, ?_⟩
    rw [hm] at hne'
    have h1 := left_ne_zero_of_mul hne'
    have h2 := right_ne_zero_of_mul hne'
    push_cast
    rw [hm]
    simp only [Drude.residues, List.map_cons, List.map_nil, List.sum_cons, List.sum_nil, add_zero]
    rw [div_add_div _ _ h1 h2]
    congr 1
    field_simp
    ring

/-- The Brownian bath cannot be evaluated at all. -/
theorem C86_brownian_violated (B : Brownian) : (∀ w, B.spectralDensity w = .error .typeError) ∧ B.residues = .error .typeError :=
  ⟨fun _ => rfl, rfl⟩

/-- The hypotheses hold, e.g. for inverse temperature 2, frequency -3 and the Drude bath with cut-off 1. -/
example : (0 : ℝ) < 2 ∧ (-3 : ℝ) ≠ 0 ∧ (-3 : ℝ) < 0 ∧ lower ['P', 'a', 'd', 'e'] = pade ∧ lower ['M', 'a', 't', 's', 'u', 'b', 'a', 'r', 'a'] = matsu ∧ (Drude.mk 2 1).gamma ≠ 0 := by
  refine ⟨by norm_num, by norm_num, by norm_num, by decide, by decide, one_ne_zero⟩

end Spd
