import Verif.Props.C46
import Verif.Props.C72
import Verif.Props.C73
import Mathlib.Analysis.Real.Pi.Bounds

/-!
C74: the imaginary part of a bath correlation function does not depend on the temperature, nor on the decomposition of the Bose function, nor on
the number of terms: it is the sine transform of the spectral density.
-/

open Py

namespace Corr

private theorem series_nil (t : ℝ) : BathSpec.series [] [] t = 0 := rfl

private theorem series_cons (a : ℂ) (b : ℂ) (c d : List ℂ) (t : ℝ) :
    BathSpec.series (a :: c) (b :: d) t = a * Complex.exp (b * t) + BathSpec.series c d t := by
  simp [BathSpec.series]

private theorem series_append {a b c d : List ℂ} (h : a.length = b.length) (t : ℝ) :
    BathSpec.series (a ++ c) (b ++ d) t = BathSpec.series a b t + BathSpec.series c d t := by
  unfold BathSpec.series
  rw [List.zip_append h, List.map_append, List.sum_append]

/-- Real coefficients and derivatives have a real sum. -/
private theorem series_real : ∀ {c d : List ℂ}, (∀ x ∈ c, x.im = 0) → (∀ x ∈ d, x.im = 0) → ∀ t : ℝ, (BathSpec.series c d t).im = 0
  | [], d, _, _, t => by simp [BathSpec.series]
  | a :: c, [], _, _, t => by simp [BathSpec.series]
  | a :: c, b :: d, hc, hd, t => by
    have ih := series_real (fun x hx => hc x (List.mem_cons_of_mem _ hx)) (fun x hx => hd x (List.mem_cons_of_mem _ hx)) t
    have h1 : a = (a.re : ℂ) := Complex.ext rfl (by simp [hc a (by simp)])
    have h2 : b = (b.re : ℂ) := Complex.ext rfl (by simp [hd b (by simp)])
    rw [series_cons, h1, h2, Complex.add_im, ih, ← Complex.ofReal_mul, ← Complex.ofReal_exp, ← Complex.ofReal_mul, Complex.ofReal_im, add_zero]

/-- The real part of the Bose function on the imaginary axis is one half. -/
private theorem bose_re {x : ℝ} (h : 1 - Complex.exp (Complex.I * x) ≠ 0) : (1 / (1 - Complex.exp (Complex.I * x))).re = 1 / 2 := by
  have hs : Complex.normSq (1 - Complex.exp (Complex.I * x)) = 2 * (1 - Real.cos x) := by
    rw [mul_comm, Complex.normSq_apply, Complex.sub_re, Complex.sub_im, Complex.exp_ofReal_mul_I_re, Complex.exp_ofReal_mul_I_im, Complex.one_re, Complex.one_im]
    nlinarith [Real.sin_sq_add_cos_sq x]
  have hre : (1 - Complex.exp (Complex.I * x)).re = 1 - Real.cos x := by
    rw [mul_comm, Complex.sub_re, Complex.exp_ofReal_mul_I_re, Complex.one_re]
  have hne : 2 * (1 - Real.cos x) ≠ 0 := by
    rw [← hs]
    exact fun h0 => h (Complex.normSq_eq_zero.1 h0)
  rw [one_div, Complex.inv_re, hs, hre]
  have : 1 - Real.cos x ≠ 0 := fun h0 => hne (by rw [h0, mul_zero])
  field_simp

/-- The `Drude` bath, at every temperature and with every real decomposition of the Bose function. -/
theorem C74_drude {gamma lam : ℝ} {k : ℕ} {beta : Option ℝ} {decomp : ℕ → Res (List ℂ × List ℂ)}
    (hd : ∀ n r, decomp n = .ok r → (∀ p ∈ r.1, p.im = 0) ∧ ∀ p ∈ r.2, p.im = 0) {c : Correlation}
    (h : drude gamma lam (k + 1) beta decomp = .ok c) (t : ℝ) :
    (BathSpec.series c.coeff c.derivative t).im = -(lam * gamma * Real.exp (-gamma * t)) := by
  have hexp : Complex.exp (-(gamma : ℂ) * t) = ((Real.exp (-gamma * t) : ℝ) : ℂ) := by push_cast; rfl
  cases beta with
  | none =>
    cases h
    dsimp only
    rw [series_cons, Complex.add_im, series_real (fun x hx => by simp [List.eq_of_mem_replicate hx]) (fun x hx => by simp [List.eq_of_mem_replicate hx]),
      hexp, Complex.im_mul_ofReal]
    simp
    ring
  | some b =>
    unfold drude at h
    simp only [drudeTerms, bind_eq_ok] at h
    obtain ⟨⟨x, y⟩, ⟨⟨ps, rs⟩, h1, f, hf, ⟨cs, gs⟩, h2, h3⟩, h4⟩ := h
    cases h3
    cases h4
    obtain ⟨hne, rfl⟩ := div_eq hf
    obtain ⟨hp, hr⟩ := hd _ _ h1
    obtain ⟨-, e1, e2⟩ := drudePoles_ok h2
    simp only at e1 e2 hp hr
    dsimp only
    have real : ∀ x ∈ ps.zip rs, ∃ p q : ℝ, x = ((p : ℂ), (q : ℂ)) := fun x hx => by
      have := List.of_mem_zip hx
      exact ⟨x.1.re, x.2.re, Prod.ext (Complex.ext rfl (by simp [hp _ this.1])) (Complex.ext rfl (by simp [hr _ this.2]))⟩
    rw [series_cons, Complex.add_im, series_real (c := cs) (d := gs), hexp, Complex.im_mul_ofReal]
    · have e : -(-Complex.I * (gamma : ℂ) * b) = Complex.I * ((gamma * b : ℝ) : ℂ) := by push_cast; ring
      rw [e] at hne ⊢
      have hb := bose_re hne
      generalize 1 / (1 - Complex.exp (Complex.I * ((gamma * b : ℝ) : ℂ))) = z at hb
      rw [show -2 * Complex.I * (lam : ℂ) * gamma * z = ((-2 * lam * gamma : ℝ) : ℂ) * (Complex.I * z) by push_cast; ring, Complex.im_ofReal_mul,
        Complex.I_mul_im, hb]
      ring
    · intro x hx
      rw [e1] at hx
      obtain ⟨y, hy, rfl⟩ := List.mem_map.1 hx
      obtain ⟨p, q, rfl⟩ := real y hy
      dsimp only
      rw [show -4 * ((p : ℂ) / b) * ((q : ℂ) / b) * gamma * lam / ((gamma : ℂ) ^ 2 - ((p : ℂ) / b) ^ 2) =
        ((-4 * (p / b) * (q / b) * gamma * lam / (gamma ^ 2 - (p / b) ^ 2) : ℝ) : ℂ) by push_cast; rfl]
      exact Complex.ofReal_im _
    · intro x hx
      rw [e2] at hx
      obtain ⟨y, hy, rfl⟩ := List.mem_map.1 hx
      obtain ⟨p, q, rfl⟩ := real y hy
      dsimp only
      rw [show -((p : ℂ) / b) = ((-(p / b) : ℝ) : ℂ) by push_cast; rfl]
      exact Complex.ofReal_im _

/-- Both decompositions of the code are real. -/
theorem C74_decompositions (eigvals : List ℝ → List ℝ → List ℝ) (n : ℕ) :
    (∀ r, matsubara n = .ok r → (∀ p ∈ r.1, p.im = 0) ∧ ∀ p ∈ r.2, p.im = 0) ∧
      ∀ r, pade eigvals n = .ok r → (∀ p ∈ r.1, p.im = 0) ∧ ∀ p ∈ r.2, p.im = 0 := by
  constructor
  · intro r h
    have h1 := (C47_decompositions eigvals n).1 r h
    cases h
    refine ⟨fun p hp => Complex.conj_eq_iff_im.1 (h1 p hp), fun p hp => ?_⟩
    rw [List.eq_of_mem_replicate hp]
    rfl
  · intro r h
    refine ⟨fun p hp => Complex.conj_eq_iff_im.1 ((C47_decompositions eigvals n).2 r h p hp), ?_⟩
    unfold pade at h
    split_ifs at h
    · cases h; simp
    · simp only [bind_eq_ok] at h
      obtain ⟨poles, h1, inv, h2, res, h3, h⟩ := h
      cases h
      intro p hp
      obtain ⟨x, -, rfl⟩ := List.mem_map.1 hp
      exact Complex.ofReal_im x

/-- The `Brownian` bath, at every temperature and with every number of terms. -/
theorem C74_brownian {lam omega gamma : ℝ} {kMax : ℕ} {beta : Option ℝ} {c : Correlation} (h : brownian lam omega gamma kMax beta = .ok c) (t : ℝ) :
    (BathSpec.series c.coeff c.derivative t).im =
      -(lam * omega ^ 2 / Real.sqrt (omega ^ 2 - gamma ^ 2) * Real.exp (-gamma * t) * Real.sin (Real.sqrt (omega ^ 2 - gamma ^ 2) * t)) := by
  unfold brownian at h
  simp only [bind_eq_ok] at h
  obtain ⟨⟨u, v⟩, hc, f, hf, ks, hks, h⟩ := h
  obtain ⟨-, rfl⟩ := div_eq hf
  have hk : ∀ p ∈ ks, p.1.im = 0 ∧ p.2.im = 0 := by
    cases beta with
    | none => cases hks; simp
    | some b =>
      rw [terms_ok _ _ hks]
      intro p hp
      obtain ⟨k, -, rfl⟩ := List.mem_map.1 hp
      constructor
      · rw [show (-2 * (brownianDensity lam omega gamma (2 * Real.pi * (k + 1) / b) : ℂ) / b) =
          ((-2 * brownianDensity lam omega gamma (2 * Real.pi * (k + 1) / b) / b : ℝ) : ℂ) by push_cast; rfl]
        exact Complex.ofReal_im _
      · rw [show -(2 * (Real.pi : ℂ) * ((k : ℂ) + 1) / b) = ((-(2 * Real.pi * (k + 1) / b) : ℝ) : ℂ) by push_cast; rfl]
        exact Complex.ofReal_im _
  have huv : v = (starRingEnd ℂ) u := by
    cases beta with
    | none => cases hc; simp
    | some b =>
      simp only [coths, bind_eq_ok] at hc
      obtain ⟨c1, h1, c2, h2, h3⟩ := hc
      obtain ⟨-, rfl⟩ := div_eq h1
      obtain ⟨-, rfl⟩ := div_eq h2
      cases h3
      rw [map_div₀, map_one, ← Complex.tanh_conj]
      simp only [map_div₀, map_mul, map_sub, Complex.conj_ofReal, Complex.conj_I, map_ofNat]
      ring_nf
  subst huv
  cases h
  dsimp only
  rw [series_append (by simp), Complex.add_im, series_real (c := ks.map Prod.fst) (d := ks.map Prod.snd), add_zero, series_cons, series_cons, series_nil, add_zero]
  · generalize Real.sqrt (omega ^ 2 - gamma ^ 2) = w
    have e1 : Complex.exp ((-(gamma : ℂ) - Complex.I * w) * t) = ((Real.exp (-gamma * t) : ℝ) : ℂ) * Complex.exp (((-(w * t) : ℝ) : ℂ) * Complex.I) := by
      rw [Complex.ofReal_exp, ← Complex.exp_add]; push_cast; ring_nf
    have e2 : Complex.exp ((-(gamma : ℂ) + Complex.I * w) * t) = ((Real.exp (-gamma * t) : ℝ) : ℂ) * Complex.exp (((w * t : ℝ) : ℂ) * Complex.I) := by
      rw [Complex.ofReal_exp, ← Complex.exp_add]; push_cast; ring_nf
    have e3 : ((lam : ℂ) * omega ^ 2 / (2 * w)) = ((lam * omega ^ 2 / (2 * w) : ℝ) : ℂ) := by push_cast; rfl
    rw [e1, e2, e3]
    generalize Real.exp (-gamma * t) = E
    rw [Complex.exp_mul_I, Complex.exp_mul_I, ← Complex.ofReal_cos, ← Complex.ofReal_cos, ← Complex.ofReal_sin, ← Complex.ofReal_sin,
      Real.cos_neg, Real.sin_neg]
    generalize Real.cos (w * t) = C
    generalize Real.sin (w * t) = S
    have e4 : lam * omega ^ 2 / w = 2 * (lam * omega ^ 2 / (2 * w)) := by
      by_cases hw : w = 0
      · simp [hw]
      · field_simp
    rw [e4]
    generalize lam * omega ^ 2 / (2 * w) = A
    simp
    ring
  · intro x hx
    obtain ⟨p, hp, rfl⟩ := List.mem_map.1 hx
    exact (hk p hp).1
  · intro x hx
    obtain ⟨p, hp, rfl⟩ := List.mem_map.1 hx
    exact (hk p hp).2

/-- `generate_BCF`: every mode `(omega, g)` adds `-g² sin(omega t)`, at every temperature. -/
theorem C74_generate {ph : List (ℝ × ℝ)} {bath : Option Correlation} {beta : Option ℝ} {c : Correlation} (h : generateBCF ph bath beta = .ok c) (t : ℝ) :
    (BathSpec.series c.coeff c.derivative t).im = -(ph.map fun p : ℝ × ℝ => p.2 ^ 2 * Real.sin (p.1 * t)).sum +
      match bath with
      | none => 0
      | some b => (BathSpec.series b.coeff b.derivative t).im := by
  unfold generateBCF at h
  simp only [bind_eq_ok] at h
  obtain ⟨modes, hm, h⟩ := h
  have key : ∀ (l : List (ℝ × ℝ)) ms, l.mapM (mode beta) = .ok ms →
      ((ms.map fun m => m.1).flatten).length = ((ms.map fun m => m.2.2).flatten).length ∧
      (BathSpec.series (ms.map fun m => m.1).flatten (ms.map fun m => m.2.2).flatten t).im = -(l.map fun p : ℝ × ℝ => p.2 ^ 2 * Real.sin (p.1 * t)).sum := by
    intro l
    induction l with
    | nil => intro ms h; cases h; simp [BathSpec.series]
    | cons x l ih =>
      intro ms h
      obtain ⟨omega, g⟩ := x
      simp only [List.mapM_cons, bind_eq_ok] at h
      obtain ⟨y, hy, ys, h1, h⟩ := h
      obtain ⟨i2, i3⟩ := ih _ h1
      simp only [mode, bind_eq_ok] at hy
      obtain ⟨u, hu, hy⟩ := hy
      have hreal : ∃ v : ℝ, u = v := by
        cases beta with
        | none => cases hu; exact ⟨1, by simp⟩
        | some b =>
          obtain ⟨-, rfl⟩ := div_eq hu
          exact ⟨1 / Real.tanh (b * omega / 2), by push_cast; rfl⟩
      obtain ⟨v, rfl⟩ := hreal
      cases hy
      cases h
      simp only [List.map_cons, List.flatten_cons]
      refine ⟨by simp [i2], ?_⟩
      rw [series_append (by simp), Complex.add_im, i3, series_cons, series_cons, series_nil, add_zero]
      have e1 : Complex.exp ((-Complex.I * (omega : ℂ)) * t) = Complex.exp (((-(omega * t) : ℝ) : ℂ) * Complex.I) := by
        push_cast; ring_nf
      have e2 : Complex.exp ((Complex.I * (omega : ℂ)) * t) = Complex.exp (((omega * t : ℝ) : ℂ) * Complex.I) := by
        push_cast; ring_nf
      have e3 : ((g : ℂ) ^ 2 / 2) = ((g ^ 2 / 2 : ℝ) : ℂ) := by push_cast; rfl
      rw [e1, e2, e3, Complex.exp_mul_I, Complex.exp_mul_I, ← Complex.ofReal_cos, ← Complex.ofReal_cos, ← Complex.ofReal_sin, ← Complex.ofReal_sin,
        Real.cos_neg, Real.sin_neg, List.sum_cons]
      generalize hA : g ^ 2 / 2 = A
      have e4 : g ^ 2 = 2 * A := by rw [← hA]; ring
      rw [e4]
      generalize (l.map fun p : ℝ × ℝ => p.2 ^ 2 * Real.sin (p.1 * t)).sum = T
      generalize Real.cos (omega * t) = C
      generalize Real.sin (omega * t) = S
      simp
      ring
  obtain ⟨k2, k3⟩ := key _ _ hm
  cases bath with
  | none => cases h; dsimp only; rw [k3, add_zero]
  | some b =>
    cases h
    dsimp only
    rw [series_append k2, Complex.add_im, k3]

/-- In particular the imaginary part is the same for any two temperatures, decompositions and numbers of terms. -/
theorem C74_temperature {gamma lam : ℝ} {ph : List (ℝ × ℝ)} {k k' : ℕ} {beta beta' : Option ℝ} {decomp decomp' : ℕ → Res (List ℂ × List ℂ)}
    (hd : ∀ n r, decomp n = .ok r → (∀ p ∈ r.1, p.im = 0) ∧ ∀ p ∈ r.2, p.im = 0)
    (hd' : ∀ n r, decomp' n = .ok r → (∀ p ∈ r.1, p.im = 0) ∧ ∀ p ∈ r.2, p.im = 0) {b b' c c' : Correlation}
    (hb : drude gamma lam (k + 1) beta decomp = .ok b) (hb' : drude gamma lam (k' + 1) beta' decomp' = .ok b')
    (h : generateBCF ph (some b) beta = .ok c) (h' : generateBCF ph (some b') beta' = .ok c') (t : ℝ) :
    (BathSpec.series c.coeff c.derivative t).im = (BathSpec.series c'.coeff c'.derivative t).im := by
  rw [C74_generate h, C74_generate h']
  dsimp only
  rw [C74_drude hd hb, C74_drude hd' hb']

/-! The hypotheses can be met: a Drude bath with Matsubara terms at `beta = 1` and without temperature. -/

private theorem exp_I_ne : (1 : ℂ) - Complex.exp (-(-Complex.I * (1 : ℝ) * (1 : ℝ))) ≠ 0 := fun h => by
  have := congrArg Complex.im h
  rw [show -(-Complex.I * ((1 : ℝ) : ℂ) * ((1 : ℝ) : ℂ)) = ((1 : ℝ) : ℂ) * Complex.I by push_cast; ring, Complex.sub_im,
    Complex.exp_ofReal_mul_I_im, Complex.one_im, Complex.zero_im] at this
  have h1 : 0 < Real.sin 1 := Real.sin_pos_of_pos_of_lt_pi one_pos (by linarith [Real.pi_gt_three])
  linarith

private theorem ex_drude : ∃ c, drude 1 1 2 (some 1) matsubara = .ok c := by
  have d : ∀ {a b : ℂ}, b ≠ 0 → div a b = .ok (a / b) := fun h => by unfold div; rw [if_neg h]
  have h1 : (((1 : ℝ) : ℂ)) ≠ 0 := by simp
  have h2 : (((1 : ℝ) : ℂ)) ^ 2 - (2 * ((0 : ℕ) + 1) * (Real.pi : ℂ) / ((1 : ℝ) : ℂ)) ^ 2 ≠ 0 := fun h => by
    have : (1 : ℝ) - (2 * Real.pi) ^ 2 = 0 := by
      have h' : (((1 : ℝ) - (2 * Real.pi) ^ 2 : ℝ) : ℂ) = 0 := by
        rw [← h]; push_cast; ring
      exact_mod_cast h'
    nlinarith [Real.pi_gt_three]
  unfold drude drudeTerms matsubara
  simp only [ok_bind, d exp_I_ne, List.range_one, List.map_cons, List.map_nil, List.replicate_one, List.zip_cons_cons, List.zip_nil_right, drudePoles,
    d h1, d h2]
  exact ⟨_, rfl⟩

example : ∃ b b', drude 1 1 2 (some 1) matsubara = .ok b ∧ drude 1 1 1 none matsubara = .ok b' ∧
    ∀ t, (BathSpec.series b.coeff b.derivative t).im = (BathSpec.series b'.coeff b'.derivative t).im := by
  obtain ⟨b, hb⟩ := ex_drude
  obtain ⟨b', hb'⟩ := C46_drude_zero 1 1 1 matsubara
  refine ⟨b, b', hb, hb', fun t => ?_⟩
  have hd := fun n => (C74_decompositions (fun d _ => d) n).1
  rw [C74_drude hd hb, C74_drude hd hb']

end Corr
