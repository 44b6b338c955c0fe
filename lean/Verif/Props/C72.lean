import Verif.Model.Corr
import Verif.Py.Lemmas
import Verif.Spec.BathResidue
import Verif.Props.C71
import Mathlib.Analysis.SpecialFunctions.ExpDeriv
import Mathlib.Analysis.Real.Pi.Bounds

/-!
C72: the terms of the Drude bath are the contributions of the poles.
-/

open Py Filter Topology

namespace Corr

theorem div_eq {a b r : ℂ} (h : div a b = .ok r) : b ≠ 0 ∧ r = a / b := by
  unfold div at h
  split_ifs at h with hb
  cases h
  exact ⟨hb, rfl⟩

theorem drudePoles_ok {gamma lam beta : ℝ} : ∀ {l : List (ℂ × ℂ)} {r}, drudePoles gamma lam beta l = .ok r →
    (∀ x ∈ l, (gamma : ℂ) ^ 2 - (x.1 / beta) ^ 2 ≠ 0) ∧
    r.1 = l.map (fun x : ℂ × ℂ => -4 * (x.1 / beta) * (x.2 / beta) * gamma * lam / (gamma ^ 2 - (x.1 / beta) ^ 2)) ∧ r.2 = l.map fun x : ℂ × ℂ => -(x.1 / beta)
  | [], r, h => by cases h; simp
  | (p, q) :: l, r, h => by
    simp only [drudePoles, bind_eq_ok] at h
    obtain ⟨a, ha, b, hb, c, hc, ⟨x, y⟩, h1, h⟩ := h
    obtain ⟨h0, rfl⟩ := div_eq ha
    obtain ⟨-, rfl⟩ := div_eq hb
    obtain ⟨h2, rfl⟩ := div_eq hc
    obtain ⟨i1, i2, i3⟩ := drudePoles_ok h1
    cases h
    simp only at i2 i3 ⊢
    exact ⟨fun x hx => by
      rcases List.mem_cons.1 hx with rfl | hx
      · exact h2
      · exact i1 x hx, by simp [i2], by simp [i3]⟩

/-- The other terms are continuous at a pole. -/
private theorem sum_continuous {p : ℝ} (hp : 0 < p) : ∀ (l : List (ℂ × ℂ)), (∀ x ∈ l, ∃ q : ℝ, x.1 = q ∧ 0 < q ∧ q ≠ p) →
    ContinuousAt (fun x : ℂ => (l.map fun (a : ℂ × ℂ) => a.2 / (x - Complex.I * a.1) + a.2 / (x + Complex.I * a.1)).sum) (-Complex.I * p)
  | [], _ => by simpa using continuousAt_const
  | (a, r) :: l, h => by
    obtain ⟨q, hq, hq0, hqp⟩ := h (a, r) (by simp)
    simp only at hq
    subst hq
    have ih := sum_continuous hp l fun x hx => h x (by simp [hx])
    simp only [List.map_cons, List.sum_cons]
    have h1 : -Complex.I * (p : ℂ) - Complex.I * q ≠ 0 := by
      rw [show -Complex.I * (p : ℂ) - Complex.I * q = -Complex.I * ((p + q : ℝ) : ℂ) by push_cast; ring]
      exact mul_ne_zero (neg_ne_zero.2 Complex.I_ne_zero) (Complex.ofReal_ne_zero.2 (by positivity))
    have h2 : -Complex.I * (p : ℂ) + Complex.I * q ≠ 0 := by
      rw [show -Complex.I * (p : ℂ) + Complex.I * q = Complex.I * ((q - p : ℝ) : ℂ) by push_cast; ring]
      exact mul_ne_zero Complex.I_ne_zero (Complex.ofReal_ne_zero.2 (sub_ne_zero.2 hqp))
    have c1 : ContinuousAt (fun x : ℂ => r / (x - Complex.I * q)) (-Complex.I * p) := ContinuousAt.div (by fun_prop) (by fun_prop) h1
    have c2 : ContinuousAt (fun x : ℂ => r / (x + Complex.I * q)) (-Complex.I * p) := ContinuousAt.div (by fun_prop) (by fun_prop) h2
    exact (c1.add c2).add ih

/-- Near a pole. -/
private theorem approx_split {p r : ℝ} (hp : 0 < p) {l1 l2 : List (ℂ × ℂ)} (h1 : ∀ x ∈ l1, ∃ q : ℝ, x.1 = q ∧ 0 < q ∧ q ≠ p)
    (h2 : ∀ x ∈ l2, ∃ q : ℝ, x.1 = q ∧ 0 < q ∧ q ≠ p) : ∃ h : ℂ → ℂ, ContinuousAt h (-Complex.I * p) ∧ ∀ x : ℂ,
      1 / x + 1 / 2 + ((l1 ++ ((p : ℂ), (r : ℂ)) :: l2).map fun (a : ℂ × ℂ) => a.2 / (x - Complex.I * a.1) + a.2 / (x + Complex.I * a.1)).sum =
        r / (x + Complex.I * p) + h x := by
  refine ⟨fun x => 1 / x + 1 / 2 + (l1.map fun (a : ℂ × ℂ) => a.2 / (x - Complex.I * a.1) + a.2 / (x + Complex.I * a.1)).sum +
    (l2.map fun (a : ℂ × ℂ) => a.2 / (x - Complex.I * a.1) + a.2 / (x + Complex.I * a.1)).sum + r / (x - Complex.I * p), ?_, fun x => ?_⟩
  · have hp0 : -Complex.I * (p : ℂ) ≠ 0 := mul_ne_zero (neg_ne_zero.2 Complex.I_ne_zero) (Complex.ofReal_ne_zero.2 hp.ne')
    have hp1 : -Complex.I * (p : ℂ) - Complex.I * p ≠ 0 := by
      rw [show -Complex.I * (p : ℂ) - Complex.I * p = 2 * (-Complex.I * p) by ring]
      exact mul_ne_zero two_ne_zero hp0
    have c0 : ContinuousAt (fun x : ℂ => 1 / x) (-Complex.I * p) := ContinuousAt.div (by fun_prop) (by fun_prop) hp0
    have c1 : ContinuousAt (fun x : ℂ => 1 / x + 1 / 2) (-Complex.I * p) := c0.add continuousAt_const
    have c2 : ContinuousAt (fun x : ℂ => (r : ℂ) / (x - Complex.I * p)) (-Complex.I * p) := ContinuousAt.div (by fun_prop) (by fun_prop) hp1
    exact ((c1.add (sum_continuous hp l1 h1)).add (sum_continuous hp l2 h2)).add c2
  · simp only [List.map_append, List.map_cons, List.sum_append, List.sum_cons]
    ring

theorem drude_continuous {lam gamma : ℝ} {w : ℂ} (h : w ^ 2 + (gamma : ℂ) ^ 2 ≠ 0) : ContinuousAt (BathSpec.drude lam gamma) w := by
  unfold BathSpec.drude
  exact ContinuousAt.div (by fun_prop) (by fun_prop) h

/-- The contribution of a pole of the decomposition. -/
private theorem pole_residue {gamma lam beta p r : ℝ} (hb : 0 < beta) {h F : ℂ → ℂ} (hc : ContinuousAt h (-Complex.I * p))
    (hF : ∀ x, F x = r / (x + Complex.I * p) + h x) (hne : (gamma : ℂ) ^ 2 - ((p : ℂ) / beta) ^ 2 ≠ 0) :
    BathSpec.HasResidue (fun w => BathSpec.drude lam gamma w * F (beta * w)) (-Complex.I * (p / beta))
      (BathSpec.drude lam gamma (-Complex.I * (p / beta)) * (r / beta)) := by
  have hb' : (beta : ℂ) ≠ 0 := Complex.ofReal_ne_zero.2 hb.ne'
  unfold BathSpec.HasResidue
  have e : (beta : ℂ) * (-Complex.I * (p / beta)) = -Complex.I * p := by field_simp
  have hcont : ContinuousAt (fun w : ℂ => BathSpec.drude lam gamma w * (r / beta + (w - -Complex.I * (p / beta)) * h (beta * w))) (-Complex.I * (p / beta)) := by
    refine (drude_continuous ?_).mul (continuousAt_const.add ((continuousAt_id.sub continuousAt_const).mul ?_))
    · rw [show (-Complex.I * ((p : ℂ) / beta)) ^ 2 + (gamma : ℂ) ^ 2 = gamma ^ 2 - (p / beta) ^ 2 by linear_combination ((p : ℂ) / beta) ^ 2 * Complex.I_sq]
      exact hne
    · refine ContinuousAt.comp (f := fun w : ℂ => (beta : ℂ) * w) ?_ (by fun_prop)
      rw [e]
      exact hc
  have ht := hcont.tendsto
  simp only [sub_self, zero_mul, add_zero] at ht
  refine (ht.mono_left nhdsWithin_le_nhds).congr' ?_
  filter_upwards [self_mem_nhdsWithin] with w hw
  have hw' : w - -Complex.I * (p / beta) ≠ 0 := sub_ne_zero.2 hw
  have e2 : (beta : ℂ) * w + Complex.I * p = beta * (w - -Complex.I * (p / beta)) := by field_simp; ring
  rw [hF, e2]
  generalize w - -Complex.I * (p / beta) = d at hw' ⊢
  generalize h (beta * w) = u
  generalize BathSpec.drude lam gamma w = J
  field_simp

/-- The contribution of the pole of the spectral density. -/
theorem drude_first {gamma lam beta : ℝ} (hg : 0 < gamma) (hne : 1 - Complex.exp (-(-Complex.I * gamma * beta)) ≠ 0) :
    BathSpec.HasResidue (fun w => BathSpec.drude lam gamma w * PadeSpec.bose (beta * w)) (-Complex.I * gamma)
      (lam * gamma / Real.pi * (1 / (1 - Complex.exp (-(-Complex.I * gamma * beta))))) := by
  have hg' : (gamma : ℂ) ≠ 0 := Complex.ofReal_ne_zero.2 hg.ne'
  have hpi : (Real.pi : ℂ) ≠ 0 := Complex.ofReal_ne_zero.2 Real.pi_ne_zero
  have h2 : -Complex.I * (gamma : ℂ) - Complex.I * gamma ≠ 0 := by
    rw [show -Complex.I * (gamma : ℂ) - Complex.I * gamma = -2 * Complex.I * gamma by ring]
    exact mul_ne_zero (mul_ne_zero (by norm_num) Complex.I_ne_zero) hg'
  have e : (beta : ℂ) * (-Complex.I * gamma) = -Complex.I * gamma * beta := by ring
  have hcont : ContinuousAt (fun w : ℂ => 2 / Real.pi * lam * gamma * w / (w - Complex.I * gamma) * PadeSpec.bose (beta * w)) (-Complex.I * gamma) := by
    have c1 : ContinuousAt (fun w : ℂ => 2 / Real.pi * lam * gamma * w / (w - Complex.I * gamma)) (-Complex.I * gamma) :=
      ContinuousAt.div (by fun_prop) (by fun_prop) h2
    have c2 : ContinuousAt (fun w : ℂ => PadeSpec.bose (beta * w)) (-Complex.I * gamma) := by
      unfold PadeSpec.bose
      exact ContinuousAt.div (by fun_prop) (by fun_prop) (by rw [e]; exact hne)
    exact c1.mul c2
  have ht := hcont.tendsto
  have hv : 2 / Real.pi * lam * gamma * (-Complex.I * gamma) / (-Complex.I * gamma - Complex.I * gamma) * PadeSpec.bose (beta * (-Complex.I * gamma)) =
      lam * gamma / Real.pi * (1 / (1 - Complex.exp (-(-Complex.I * gamma * beta)))) := by
    rw [PadeSpec.bose, e]
    congr 1
    have hI := Complex.I_ne_zero
    rw [div_eq_iff h2]
    field_simp
    ring
  rw [hv] at ht
  refine (ht.mono_left nhdsWithin_le_nhds).congr' ?_
  filter_upwards [self_mem_nhdsWithin] with w hw
  have hw' : w - -Complex.I * gamma ≠ 0 := sub_ne_zero.2 hw
  unfold BathSpec.drude
  have e3 : w ^ 2 + (gamma : ℂ) ^ 2 = (w - -Complex.I * gamma) * (w - Complex.I * gamma) := by linear_combination (gamma : ℂ) ^ 2 * Complex.I_sq
  rw [e3, ← mul_assoc, ← mul_div_assoc, mul_div_mul_left _ _ hw']

/-- The terms of a `Drude` bath of finite temperature with any decomposition of the Bose function into real poles: the first one is the
contribution of the pole of the spectral density, with the exact Bose function; the others are the contributions of the poles of the
decomposition. -/
theorem C72_drude {gamma lam beta : ℝ} (hg : 0 < gamma) (hb : 0 < beta) {k : ℕ} {decomp : ℕ → Res (List ℂ × List ℂ)} {poles residues : List ℝ}
    (hd : decomp k = .ok (poles.map (fun x : ℝ => (x : ℂ)), residues.map (fun x : ℝ => (x : ℂ)))) (hl : poles.length = residues.length)
    (hp : ∀ p ∈ poles, 0 < p) (hn : poles.Nodup) {c : Correlation} (h : drude gamma lam (k + 1) (some beta) decomp = .ok c) :
    ∃ c₀ cs gs, c.coeff = c₀ :: cs ∧ c.derivative = (-(gamma : ℂ)) :: gs ∧
      BathSpec.Contribution (fun w => BathSpec.drude lam gamma w * PadeSpec.bose (beta * w)) (-Complex.I * gamma) c₀ (-(gamma : ℂ)) ∧
      List.Forall₂ (fun p (x : ℂ × ℂ) => BathSpec.Contribution (fun w => BathSpec.drude lam gamma w *
        PadeSpec.approx (poles.map (fun x : ℝ => (x : ℂ))) (residues.map (fun x : ℝ => (x : ℂ))) (beta * w)) (-Complex.I * (p / beta)) x.1 x.2)
        (poles.map (fun x : ℝ => (x : ℂ))) (cs.zip gs) := by
  have hpi : (Real.pi : ℂ) ≠ 0 := Complex.ofReal_ne_zero.2 Real.pi_ne_zero
  have hb' : (beta : ℂ) ≠ 0 := Complex.ofReal_ne_zero.2 hb.ne'
  unfold drude at h
  simp only [drudeTerms, bind_eq_ok] at h
  obtain ⟨⟨x, y⟩, ⟨⟨ps, rs⟩, h1, f, hf, ⟨cs, gs⟩, h2, h3⟩, h4⟩ := h
  rw [hd] at h1
  cases h1
  cases h3
  cases h4
  obtain ⟨hf0, rfl⟩ := div_eq hf
  obtain ⟨hne, rfl, rfl⟩ := drudePoles_ok h2
  refine ⟨_, _, _, rfl, rfl, ⟨by simpa using hg, ?_, _, drude_first hg hf0, ?_⟩, ?_⟩
  · linear_combination (-(gamma : ℂ)) * Complex.I_sq
  · field_simp
  · simp only
    rw [List.zip_map']
    have hz : ∀ (P R : List ℝ), (P.map (fun x : ℝ => (x : ℂ))).zip (R.map (fun x : ℝ => (x : ℂ))) = (P.zip R).map fun x => ((x.1 : ℂ), (x.2 : ℂ)) := by
      intro P R
      rw [List.zip_map]
      rfl
    rw [hz] at hne ⊢
    have hfst : (poles.map (fun x : ℝ => (x : ℂ))) = (poles.zip residues).map fun x => (x.1 : ℂ) := by
      conv_lhs => rw [← List.map_fst_zip (l₁ := poles) (l₂ := residues) hl.le]
      rw [List.map_map]
      rfl
    have happ : ∀ x, PadeSpec.approx (poles.map (fun x : ℝ => (x : ℂ))) (residues.map (fun x : ℝ => (x : ℂ))) x = 1 / x + 1 / 2 +
        (((poles.zip residues).map fun x => ((x.1 : ℂ), (x.2 : ℂ))).map fun (a : ℂ × ℂ) => a.2 / (x - Complex.I * a.1) + a.2 / (x + Complex.I * a.1)).sum := by
      intro x
      unfold PadeSpec.approx
      rw [hz]
    simp only [happ]
    rw [hfst, List.map_map, List.forall₂_map_left_iff, List.forall₂_map_right_iff, List.forall₂_same]
    rintro ⟨p, r⟩ hpr
    have hp0 : 0 < p := hp p (List.of_mem_zip hpr).1
    obtain ⟨l1, l2, hsplit⟩ := List.append_of_mem hpr
    have hnd : (poles.zip residues).map Prod.fst = poles := List.map_fst_zip hl.le
    have hdis : ∀ y ∈ l1 ++ l2, 0 < y.1 ∧ y.1 ≠ p := by
      intro y hy
      have hy' : y ∈ poles.zip residues := by
        rw [hsplit]
        rcases List.mem_append.1 hy with h | h
        · simp [h]
        · simp [h]
      refine ⟨hp y.1 (List.of_mem_zip (show (y.1, y.2) ∈ _ from hy')).1, fun he => ?_⟩
      rw [← hnd, hsplit, List.map_append, List.map_cons] at hn
      have hn2 := (List.nodup_middle.1 hn)
      rw [List.nodup_cons] at hn2
      apply hn2.1
      rw [← List.map_append]
      exact List.mem_map.2 ⟨y, hy, he⟩
    have hq : ∀ l : List (ℝ × ℝ), (∀ y ∈ l, y ∈ l1 ++ l2) → ∀ x ∈ l.map (fun x => ((x.1 : ℂ), (x.2 : ℂ))), ∃ q : ℝ, x.1 = q ∧ 0 < q ∧ q ≠ p := by
      intro l hl x hx
      obtain ⟨y, hy, rfl⟩ := List.mem_map.1 hx
      exact ⟨y.1, rfl, hdis y (hl y hy)⟩
    obtain ⟨hh, hcont, heq⟩ := approx_split (r := r) hp0 (hq l1 fun y hy => by simp [hy]) (hq l2 fun y hy => by simp [hy])
    have hne' := hne ((p : ℂ), (r : ℂ)) (List.mem_map.2 ⟨_, hpr, rfl⟩)
    simp only at hne'
    rw [hsplit, List.map_append, List.map_cons]
    have hres := pole_residue (gamma := gamma) (lam := lam) hb hcont heq hne'
    refine ⟨?_, ?_, _, hres, ?_⟩
    · rw [← Complex.ofReal_div]
      simpa using div_pos hp0 hb
    · simp only [Function.comp_apply]
      linear_combination (-(p / beta : ℂ)) * Complex.I_sq
    · simp only [Function.comp_apply, BathSpec.drude]
      rw [show (-Complex.I * ((p : ℂ) / beta)) ^ 2 + (gamma : ℂ) ^ 2 = gamma ^ 2 - (p / beta) ^ 2 by linear_combination ((p : ℂ) / beta) ^ 2 * Complex.I_sq,
        ← mul_div_assoc, mul_comm, ]
      generalize (gamma : ℂ) ^ 2 - ((p : ℂ) / beta) ^ 2 = D at hne' ⊢
      field_simp
      linear_combination (-4 * p * r * lam * gamma : ℂ) * Complex.I_sq

/-- With `pade`: there is a decomposition of the Bose function, as good as C71 says, of which the terms are the contributions. -/
theorem C72_pade {gamma lam beta : ℝ} (hg : 0 < gamma) (hb : 0 < beta) {k : ℕ} {eigvals : List ℝ → List ℝ → List ℝ} (hS : PadeSpec.Solver eigvals)
    {c : Correlation} (h : drude gamma lam (k + 1) (some beta) (pade eigvals) = .ok c) :
    ∃ poles residues : List ℝ, (∀ x : ℝ, x ≠ 0 →
        ‖PadeSpec.bose x - PadeSpec.approx (poles.map (fun x : ℝ => (x : ℂ))) (residues.map (fun x : ℝ => (x : ℂ))) x‖ ≤
          |x| / 4 * (x ^ 2 / 4) ^ (2 * k) / (Nat.doubleFactorial (4 * k + 1) * Nat.doubleFactorial (4 * k + 3))) ∧
      ∃ c₀ cs gs, c.coeff = c₀ :: cs ∧ c.derivative = (-(gamma : ℂ)) :: gs ∧
      BathSpec.Contribution (fun w => BathSpec.drude lam gamma w * PadeSpec.bose (beta * w)) (-Complex.I * gamma) c₀ (-(gamma : ℂ)) ∧
      List.Forall₂ (fun p (x : ℂ × ℂ) => BathSpec.Contribution (fun w => BathSpec.drude lam gamma w *
        PadeSpec.approx (poles.map (fun x : ℝ => (x : ℂ))) (residues.map (fun x : ℝ => (x : ℂ))) (beta * w)) (-Complex.I * (p / beta)) x.1 x.2)
        (poles.map (fun x : ℝ => (x : ℂ))) (cs.zip gs) := by
  obtain ⟨poles, residues, hok, hp, hr, hpos, hmono, -, -, hbound⟩ := Pade.C71_pade hS k
  exact ⟨poles, residues, hbound, C72_drude hg hb hok (hp.trans hr.symm) hpos (hmono.imp fun h => h.ne) h⟩

/-- The residue of the Bose function at a Matsubara frequency, times a continuous function. -/
theorem bose_residue {beta : ℝ} (hb : 0 < beta) {J : ℂ → ℂ} {a : ℂ} (hJ : ContinuousAt J a) (ha : Complex.exp (-(beta * a)) = 1) :
    BathSpec.HasResidue (fun w => J w * PadeSpec.bose (beta * w)) a (J a * (1 / beta)) := by
  have hb' : (beta : ℂ) ≠ 0 := Complex.ofReal_ne_zero.2 hb.ne'
  have hder : HasDerivAt (fun w : ℂ => 1 - Complex.exp (-(beta * w))) (beta : ℂ) a := by
    have h1 : HasDerivAt (fun w : ℂ => -((beta : ℂ) * w)) (-(beta * 1)) a := ((hasDerivAt_id a).const_mul (beta : ℂ)).neg
    have h2 := (h1.cexp).const_sub 1
    rw [ha] at h2
    simpa using h2
  rw [hasDerivAt_iff_tendsto_slope] at hder
  have hinv := hder.inv₀ hb'
  have := (hJ.tendsto.mono_left nhdsWithin_le_nhds).mul hinv
  rw [← one_div] at this
  refine this.congr' ?_
  filter_upwards [self_mem_nhdsWithin] with w hw
  have hw' : w - a ≠ 0 := sub_ne_zero.2 hw
  rw [slope_def_field, ha, sub_self, sub_zero, inv_div, PadeSpec.bose]
  ring

private theorem drudePoles_total {gamma lam beta : ℝ} (hb : beta ≠ 0) : ∀ (l : List (ℂ × ℂ)), (∀ x ∈ l, (gamma : ℂ) ^ 2 - (x.1 / beta) ^ 2 ≠ 0) →
    ∃ r, drudePoles gamma lam beta l = .ok r
  | [], _ => ⟨_, rfl⟩
  | (p, q) :: l, h => by
    obtain ⟨⟨x, y⟩, hr⟩ := drudePoles_total (lam := lam) hb l fun x hx => h x (by simp [hx])
    have hb' : (beta : ℂ) ≠ 0 := Complex.ofReal_ne_zero.2 hb
    have h1 : ∀ a, div a beta = .ok (a / beta) := fun a => by unfold div; rw [if_neg hb']
    have h2 : ∀ a, div a ((gamma : ℂ) ^ 2 - (p / beta) ^ 2) = .ok (a / ((gamma : ℂ) ^ 2 - (p / beta) ^ 2)) := fun a => by
      unfold div; rw [if_neg (h (p, q) (by simp))]
    unfold drudePoles
    rw [h1, ok_bind, h1, ok_bind, h2, ok_bind, hr, ok_bind]
    exact ⟨_, rfl⟩

theorem matsubara_exp {beta : ℝ} (hb : 0 < beta) (i : ℕ) :
    Complex.exp (-((beta : ℂ) * (-Complex.I * (2 * ((i : ℂ) + 1) * (Real.pi : ℂ) / beta)))) = 1 := by
  have hb' : (beta : ℂ) ≠ 0 := Complex.ofReal_ne_zero.2 hb.ne'
  rw [show -((beta : ℂ) * (-Complex.I * (2 * ((i : ℂ) + 1) * (Real.pi : ℂ) / beta))) = ((i + 1 : ℕ) : ℂ) * (2 * Real.pi * Complex.I) by
    push_cast; field_simp]
  exact Complex.exp_nat_mul_two_pi_mul_I _

/-- With `matsubara` every term is the contribution of a pole of the spectral density times the exact Bose function. The bath exists if and only
if no Matsubara frequency is `gamma`. -/
theorem C72_matsubara {gamma lam beta : ℝ} (hg : 0 < gamma) (hb : 0 < beta) (k : ℕ) :
    ((∃ c, drude gamma lam (k + 1) (some beta) matsubara = .ok c) ↔ Complex.exp (Complex.I * gamma * beta) ≠ 1) ∧
    ∀ c, drude gamma lam (k + 1) (some beta) matsubara = .ok c →
      List.Forall₂ (fun (a : ℂ) (x : ℂ × ℂ) => BathSpec.Contribution (fun w => BathSpec.drude lam gamma w * PadeSpec.bose (beta * w)) a x.1 x.2)
        ((-Complex.I * gamma) :: (List.range k).map fun i : ℕ => -Complex.I * (2 * Real.pi * (i + 1) / beta)) (c.coeff.zip c.derivative) := by
  have hb' : (beta : ℂ) ≠ 0 := Complex.ofReal_ne_zero.2 hb.ne'
  have hpi : (Real.pi : ℂ) ≠ 0 := Complex.ofReal_ne_zero.2 Real.pi_ne_zero
  have hexp : -(-Complex.I * gamma * beta) = Complex.I * gamma * beta := by ring
  constructor
  · constructor
    · rintro ⟨c, h⟩
      unfold drude at h
      simp only [drudeTerms, bind_eq_ok] at h
      obtain ⟨_, ⟨_, h1, f, hf, _⟩, _⟩ := h
      obtain ⟨hf0, -⟩ := div_eq hf
      rw [hexp] at hf0
      exact fun h => hf0 (by rw [h, sub_self])
    · intro hne
      have hall : ∀ x ∈ ((List.range k).map fun i : ℕ => 2 * ((i : ℂ) + 1) * (Real.pi : ℂ)).zip (List.replicate k (1 : ℂ)),
          (gamma : ℂ) ^ 2 - (x.1 / beta) ^ 2 ≠ 0 := by
        rintro ⟨p, r⟩ hx
        obtain ⟨i, -, rfl⟩ := List.mem_map.1 (List.of_mem_zip hx).1
        intro h0
        apply hne
        have h1 : ((gamma : ℂ) - 2 * ((i : ℂ) + 1) * (Real.pi : ℂ) / beta) * (gamma + 2 * ((i : ℂ) + 1) * (Real.pi : ℂ) / beta) = 0 := by
          linear_combination h0
        have hm := matsubara_exp hb i
        rcases mul_eq_zero.1 h1 with h2 | h2
        · rw [← sub_eq_zero.1 h2] at hm
          rw [← hm]; congr 1; ring
        · rw [show 2 * ((i : ℂ) + 1) * (Real.pi : ℂ) / beta = -gamma by linear_combination h2] at hm
          have : Complex.I * gamma * beta = -(-((beta : ℂ) * (-Complex.I * -gamma))) := by ring
          rw [this, Complex.exp_neg, hm, inv_one]
      obtain ⟨r, hr⟩ := drudePoles_total (lam := lam) hb.ne' _ hall
      unfold drude drudeTerms matsubara
      simp only [ok_bind, hexp]
      rw [show div 1 (1 - Complex.exp (Complex.I * gamma * beta)) = .ok (1 / (1 - Complex.exp (Complex.I * gamma * beta))) by
        unfold div; rw [if_neg (sub_ne_zero.2 (Ne.symm hne))], ok_bind, hr]
      exact ⟨_, rfl⟩
  · intro c h
    unfold drude at h
    simp only [drudeTerms, bind_eq_ok] at h
    obtain ⟨⟨x, y⟩, ⟨⟨ps, rs⟩, h1, f, hf, ⟨cs, gs⟩, h2, h3⟩, h4⟩ := h
    cases h1
    cases h3
    cases h4
    obtain ⟨hf0, rfl⟩ := div_eq hf
    obtain ⟨hne, rfl, rfl⟩ := drudePoles_ok h2
    simp only [List.zip_cons_cons]
    refine List.Forall₂.cons ⟨by simpa using hg, ?_, _, drude_first hg hf0, ?_⟩ ?_
    · simp only
      linear_combination (-(gamma : ℂ)) * Complex.I_sq
    · simp only
      field_simp
    · have hrep : List.replicate k (1 : ℂ) = (List.range k).map fun _ => (1 : ℂ) := by simp
      rw [hrep, List.zip_map'] at hne
      rw [hrep, List.zip_map', List.zip_map', List.map_map, List.forall₂_map_left_iff, List.forall₂_map_right_iff, List.forall₂_same]
      intro i hi
      have hne' := hne (2 * ((i : ℂ) + 1) * (Real.pi : ℂ), 1) (List.mem_map.2 ⟨i, hi, rfl⟩)
      simp only at hne'
      have hpt : -Complex.I * (2 * Real.pi * ((i : ℂ) + 1) / beta) = -Complex.I * (2 * ((i : ℂ) + 1) * (Real.pi : ℂ) / beta) := by ring
      rw [hpt]
      have hden : (-Complex.I * (2 * ((i : ℂ) + 1) * (Real.pi : ℂ) / beta)) ^ 2 + (gamma : ℂ) ^ 2 = gamma ^ 2 - (2 * ((i : ℂ) + 1) * (Real.pi : ℂ) / beta) ^ 2 := by
        linear_combination (2 * ((i : ℂ) + 1) * (Real.pi : ℂ) / beta) ^ 2 * Complex.I_sq
      have hres := bose_residue hb (drude_continuous (lam := lam) (gamma := gamma) (by rw [hden]; exact hne')) (matsubara_exp hb i)
      refine ⟨?_, ?_, _, hres, ?_⟩
      · have : (2 * ((i : ℂ) + 1) * (Real.pi : ℂ) / beta) = ((2 * ((i : ℝ) + 1) * Real.pi / beta : ℝ) : ℂ) := by push_cast; rfl
        rw [this]
        have hpos : 0 < 2 * ((i : ℝ) + 1) * Real.pi / beta := by positivity
        simpa using hpos
      · simp only [Function.comp_apply]
        linear_combination (-(2 * ((i : ℂ) + 1) * (Real.pi : ℂ) / beta)) * Complex.I_sq
      · simp only [Function.comp_apply, BathSpec.drude]
        rw [hden]
        generalize (gamma : ℂ) ^ 2 - (2 * ((i : ℂ) + 1) * (Real.pi : ℂ) / beta) ^ 2 = D at hne' ⊢
        field_simp
        linear_combination (-4 * lam * gamma : ℂ) * Complex.I_sq

/-! The hypotheses can be met, with any number of terms. -/

private theorem exp_ne {x : ℝ} (h0 : 0 < x) (h1 : x < Real.pi) : Complex.exp (Complex.I * x) ≠ 1 := fun h => by
  have := congrArg Complex.im h
  rw [mul_comm, Complex.exp_ofReal_mul_I_im, Complex.one_im] at this
  exact (Real.sin_pos_of_pos_of_lt_pi h0 h1).ne' this

example (k : ℕ) : ∃ c, drude 1 2 (k + 1) (some 3) matsubara = .ok c := by
  refine ((C72_matsubara (gamma := 1) one_pos (by norm_num) k).1).2 ?_
  have := exp_ne (x := 3) (by norm_num) Real.pi_gt_three
  simpa using this

example (k : ℕ) : ∃ gamma > 0, ∃ c, drude gamma 2 (k + 1) (some 1) (pade Pade.exactSolver) = .ok c := by
  obtain ⟨poles, residues, hok, -, -, hpos, -⟩ := Pade.C71_pade Pade.exactSolver_ok k
  obtain ⟨g, hg, hn⟩ := (Set.Ioo_infinite (zero_lt_one (α := ℝ))).exists_notMem_finset poles.toFinset
  refine ⟨g, hg.1, ?_⟩
  have hall : ∀ x ∈ (poles.map (fun x : ℝ => (x : ℂ))).zip (residues.map (fun x : ℝ => (x : ℂ))), (g : ℂ) ^ 2 - (x.1 / (1 : ℝ)) ^ 2 ≠ 0 := by
    rintro ⟨p, r⟩ hx h0
    obtain ⟨q, hq, rfl⟩ := List.mem_map.1 (List.of_mem_zip hx).1
    have h1 : (g - q) * (g + q) = 0 := by
      have : (((g - q) * (g + q) : ℝ) : ℂ) = 0 := by
        rw [← h0]; push_cast; ring
      exact_mod_cast this
    rcases mul_eq_zero.1 h1 with h2 | h2
    · exact hn (by rw [sub_eq_zero.1 h2]; simpa using hq)
    · linarith [hpos q hq, hg.1]
  obtain ⟨r, hr⟩ := drudePoles_total (lam := 2) one_ne_zero _ hall
  have he := exp_ne hg.1 (hg.2.trans (by linarith [Real.pi_gt_three]))
  have hexp : -(-Complex.I * (g : ℂ) * ((1 : ℝ) : ℂ)) = Complex.I * g := by push_cast; ring
  unfold drude drudeTerms
  simp only [hok, ok_bind, hexp]
  rw [show div 1 (1 - Complex.exp (Complex.I * g)) = .ok (1 / (1 - Complex.exp (Complex.I * g))) by
    unfold div; rw [if_neg (sub_ne_zero.2 (Ne.symm he))], ok_bind, hr]
  exact ⟨_, rfl⟩

end Corr
