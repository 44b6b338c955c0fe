import Verif.Model.Corr
import Verif.Py.Lemmas
import Mathlib.Tactic.NormNum
import Mathlib.Tactic.LinearCombination

/-!
C46: correlation functions carry as many coefficients as they announce. C47: generated bath correlation functions are conjugation
consistent.
-/

open Py

namespace Corr

/-- The three lists have the announced length. -/
def Consistent (c : Correlation) : Prop := c.coeff.length = c.kMax ∧ c.conjCoeff.length = c.kMax ∧ c.derivative.length = c.kMax

private theorem poles_length {gamma lam beta : ℝ} : ∀ {l : List (ℂ × ℂ)} {r}, drudePoles gamma lam beta l = .ok r →
    r.1.length = l.length ∧ r.2.length = l.length
  | [], r, h => by cases h; simp
  | (p, q) :: l, r, h => by
    simp only [drudePoles, bind_eq_ok] at h
    obtain ⟨a, -, b, -, c, -, ⟨x, y⟩, h1, h⟩ := h
    have := poles_length h1
    cases h
    simpa using this

/-- `Drude`, with any decomposition into `n` poles and residues. -/
theorem C46_drude_partial {gamma lam : ℝ} {kMax : ℕ} {beta : Option ℝ} {decomp : ℕ → Res (List ℂ × List ℂ)}
    (hd : ∀ n r, decomp n = .ok r → r.1.length = n ∧ r.2.length = n) {c : Correlation}
    (h : drude gamma lam kMax beta decomp = .ok c) : c.kMax = kMax ∧ Consistent c := by
  unfold drude at h
  simp only [bind_eq_ok] at h
  obtain ⟨⟨x, y⟩, h1, h⟩ := h
  have hl : x.length = kMax ∧ y.length = kMax := by
    match kMax, beta, h1 with
    | 0, _, h1 => cases h1; simp
    | k + 1, none, h1 => cases h1; simp
    | k + 1, some b, h1 =>
      simp only [drudeTerms, bind_eq_ok] at h1
      obtain ⟨⟨p, r⟩, h2, f, -, ⟨cs, gs⟩, h3, h4⟩ := h1
      have := poles_length h3
      have h5 := hd _ _ h2
      simp only [List.length_zip, h5.1, h5.2, min_self] at this
      cases h4
      simp [this]
  cases h
  simp [Consistent, hl]

private theorem mapM_length {α β : Type} (g : α → Res β) : ∀ (l : List α) r, l.mapM g = .ok r → r.length = l.length
  | [], r, h => by cases h; rfl
  | a :: l, r, h => by
    rw [List.mapM_cons] at h
    simp only [bind_eq_ok] at h
    obtain ⟨b, -, bs, h1, h⟩ := h
    cases h
    simp [mapM_length g l bs h1]

/-- Both decompositions of the code give `n` poles and residues: `matsubara`, and `pade` if the eigenvalue solver returns as many values as
the matrix has rows (C71 shows that `pade` does not fail). -/
theorem C46_decompositions_partial (eigvals : List ℝ → List ℝ → List ℝ) (he : ∀ d s, (eigvals d s).length = d.length) (n : ℕ) :
    (∃ r, matsubara n = .ok r ∧ r.1.length = n ∧ r.2.length = n) ∧ ∀ r, pade eigvals n = .ok r → r.1.length = n ∧ r.2.length = n := by
  refine ⟨⟨_, rfl, by simp, by simp⟩, ?_⟩
  intro r h
  unfold pade at h
  split_ifs at h with h0
  · cases h; simp [h0]
  · simp only [bind_eq_ok] at h
    obtain ⟨poles, h1, inv, h2, res, h3, h⟩ := h
    have l1 := mapM_length _ _ _ h1
    have l3 := mapM_length _ _ _ h3
    cases h
    simp [l1, l3, he]
    omega

/-- Without temperature `Drude` never fails. -/
theorem C46_drude_zero (gamma lam : ℝ) (kMax : ℕ) (decomp) : ∃ c, drude gamma lam kMax none decomp = .ok c := by
  cases kMax <;> exact ⟨_, rfl⟩

/-- `Brownian` has the announced number of coefficients only if `k_max = 0`: it announces `k_max + 2`, but has 2 without temperature and
`k_max + 1` with temperature. -/
theorem C46_brownian_violated {lam omega gamma : ℝ} {kMax : ℕ} (hk : 1 ≤ kMax) {beta : Option ℝ} {c : Correlation}
    (h : brownian lam omega gamma kMax beta = .ok c) :
    c.kMax = kMax + 2 ∧ c.coeff.length = (if beta.isSome then kMax + 1 else 2) ∧ ¬ Consistent c := by
  unfold brownian at h
  simp only [bind_eq_ok] at h
  obtain ⟨⟨a, b⟩, -, f, -, ks, hks, h⟩ := h
  have hlen : ks.length = if beta.isSome then kMax - 1 else 0 := by
    cases beta with
    | none => cases hks; simp
    | some b =>
      have : ∀ (l : List ℕ) (g : ℕ → Res (ℂ × ℂ)) r, l.mapM g = .ok r → r.length = l.length := by
        intro l g
        induction l with
        | nil => intro r h; cases h; rfl
        | cons x l ih =>
          intro r h
          simp only [List.mapM_cons, bind_eq_ok] at h
          obtain ⟨y, -, ys, h1, h⟩ := h
          cases h
          simp [ih _ h1]
      simpa using this _ _ _ hks
  cases h
  cases beta with
  | none => simp [Consistent, hlen]; omega
  | some b => simp [Consistent, hlen]; omega

/-- Without temperature `Brownian` succeeds exactly in the underdamped case. -/
theorem C46_brownian_underdamped {lam omega gamma : ℝ} (hw : gamma ^ 2 < omega ^ 2) (kMax : ℕ) :
    ∃ c, brownian lam omega gamma kMax none = .ok c := by
  have h : (2 * (Real.sqrt (omega ^ 2 - gamma ^ 2) : ℝ) : ℂ) ≠ 0 := by
    have : 0 < Real.sqrt (omega ^ 2 - gamma ^ 2) := Real.sqrt_pos.2 (by linarith)
    exact mul_ne_zero two_ne_zero (by exact_mod_cast this.ne')
  unfold brownian coths brownianTerms div
  simp only [ok_bind, if_neg h]
  exact ⟨_, rfl⟩

/-- `generate_BCF` counts the coefficients itself; so its result is consistent if the three lists of the given bath have the same length
(also for `Brownian`). -/
theorem C46_generate_partial {ph : List (ℝ × ℝ)} {bath : Option Correlation} {beta : Option ℝ}
    (hb : ∀ b, bath = some b → b.conjCoeff.length = b.coeff.length ∧ b.derivative.length = b.coeff.length) {c : Correlation}
    (h : generateBCF ph bath beta = .ok c) : Consistent c := by
  unfold generateBCF at h
  simp only [bind_eq_ok] at h
  obtain ⟨modes, hm, h⟩ := h
  have key : ∀ (l : List (ℝ × ℝ)) ms, l.mapM (mode beta) = .ok ms →
      ((ms.map fun m => m.2.1).flatten).length = ((ms.map fun m => m.1).flatten).length ∧
      ((ms.map fun m => m.2.2).flatten).length = ((ms.map fun m => m.1).flatten).length := by
    intro l
    induction l with
    | nil => intro ms h; cases h; simp
    | cons x l ih =>
      intro ms h
      simp only [List.mapM_cons, bind_eq_ok] at h
      obtain ⟨y, hy, ys, h1, h⟩ := h
      have := ih _ h1
      simp only [mode, bind_eq_ok] at hy
      obtain ⟨t, -, hy⟩ := hy
      cases hy
      cases h
      simpa using this
  have := key _ _ hm
  cases bath with
  | none => cases h; exact ⟨rfl, this.1, this.2⟩
  | some b =>
    have h2 := hb b rfl
    cases h
    refine ⟨rfl, ?_, ?_⟩
    · simp only [List.length_append, this.1, h2.1]
    · simp only [List.length_append, this.2, h2.2]

/-! C47 -/

/-- The sum of exponentials with these coefficients and derivatives at time `t`. -/
noncomputable def expSum (coeff derivative : List ℂ) (t : ℝ) : ℂ :=
  ((coeff.zip derivative).map fun p => p.1 * Complex.exp (p.2 * t)).sum

/-- `conj_coeff` belongs to the complex conjugate of the correlation function. -/
def ConjConsistent (c : Correlation) : Prop :=
  ∀ t : ℝ, expSum c.conjCoeff c.derivative t = (starRingEnd ℂ) (expSum c.coeff c.derivative t)

private theorem expSum_append {a b c d : List ℂ} (h : a.length = b.length) (t : ℝ) : expSum (a ++ c) (b ++ d) t = expSum a b t + expSum c d t := by
  unfold expSum
  rw [List.zip_append h, List.map_append, List.sum_append]

private theorem conj_exp (z : ℂ) (t : ℝ) : (starRingEnd ℂ) (Complex.exp (z * t)) = Complex.exp ((starRingEnd ℂ) z * t) := by
  rw [← Complex.exp_conj, map_mul, Complex.conj_ofReal]

/-- For every list of modes, with and without temperature, and every bath that is itself conjugation consistent. -/
theorem C47_generate {ph : List (ℝ × ℝ)} {bath : Option Correlation} {beta : Option ℝ}
    (hb : ∀ b, bath = some b → ConjConsistent b) {c : Correlation} (h : generateBCF ph bath beta = .ok c) :
    ConjConsistent c := by
  intro t
  unfold generateBCF at h
  simp only [bind_eq_ok] at h
  obtain ⟨modes, hm, h⟩ := h
  have key : ∀ (l : List (ℝ × ℝ)) ms, l.mapM (mode beta) = .ok ms →
      ((ms.map fun m => m.2.1).flatten).length = ((ms.map fun m => m.2.2).flatten).length ∧
      ((ms.map fun m => m.1).flatten).length = ((ms.map fun m => m.2.2).flatten).length ∧
      expSum (ms.map fun m => m.2.1).flatten (ms.map fun m => m.2.2).flatten t =
        (starRingEnd ℂ) (expSum (ms.map fun m => m.1).flatten (ms.map fun m => m.2.2).flatten t) := by
    intro l
    induction l with
    | nil => intro ms h; cases h; simp [expSum]
    | cons x l ih =>
      intro ms h
      obtain ⟨omega, g⟩ := x
      simp only [List.mapM_cons, bind_eq_ok] at h
      obtain ⟨y, hy, ys, h1, h⟩ := h
      obtain ⟨i1, i2, i3⟩ := ih _ h1
      simp only [mode, bind_eq_ok] at hy
      obtain ⟨u, hu, hy⟩ := hy
      have hreal : (starRingEnd ℂ) u = u := by
        cases beta with
        | none => cases hu; simp
        | some b =>
          simp only [tempFactor, div] at hu
          split_ifs at hu
          cases hu
          rw [map_div₀, map_one, Complex.conj_ofReal]
      cases hy
      cases h
      simp only [List.map_cons, List.flatten_cons]
      refine ⟨by simp [i1], by simp [i2], ?_⟩
      rw [expSum_append (by simp), expSum_append (by simp), i3, map_add]
      congr 1
      simp only [expSum, List.zip_cons_cons, List.zip_nil_right, List.map_cons, List.map_nil, List.sum_cons, List.sum_nil, add_zero,
        map_add, map_mul, map_sub, map_div₀, map_pow, conj_exp, hreal, Complex.conj_ofReal, map_neg, Complex.conj_I, map_one, map_ofNat,
        neg_neg]
      ring
  obtain ⟨k1, k2, k3⟩ := key _ _ hm
  cases bath with
  | none => cases h; exact k3
  | some b =>
    have h2 := hb b rfl t
    cases h
    dsimp only
    rw [expSum_append k1, expSum_append k2, k3, h2, map_add]

private theorem expSum_real {c d : List ℂ} (hd : ∀ x ∈ d, (starRingEnd ℂ) x = x) (t : ℝ) :
    expSum (c.map (starRingEnd ℂ)) d t = (starRingEnd ℂ) (expSum c d t) := by
  induction c generalizing d with
  | nil => simp [expSum]
  | cons a c ih =>
    cases d with
    | nil => simp [expSum]
    | cons b d =>
      have := ih (d := d) fun x hx => hd x (List.mem_cons_of_mem _ hx)
      unfold expSum at this ⊢
      simp only [List.map_cons, List.zip_cons_cons, List.sum_cons, map_add, map_mul, this, conj_exp, hd b (by simp)]

private theorem poles_real {gamma lam beta : ℝ} : ∀ {l : List (ℂ × ℂ)} {r}, drudePoles gamma lam beta l = .ok r →
    (∀ p ∈ l, (starRingEnd ℂ) p.1 = p.1) → ∀ x ∈ r.2, (starRingEnd ℂ) x = x
  | [], r, h, _ => by cases h; simp
  | (p, q) :: l, r, h, hr => by
    simp only [drudePoles, bind_eq_ok] at h
    obtain ⟨a, ha, b, -, c, -, ⟨x, y⟩, h1, h⟩ := h
    obtain ⟨hp, hr⟩ := List.forall_mem_cons.1 hr
    have := poles_real h1 hr
    simp only [div] at ha
    split_ifs at ha
    cases ha
    cases h
    intro z hz
    rcases List.mem_cons.1 hz with rfl | hz
    · rw [map_neg, map_div₀, Complex.conj_ofReal]
      dsimp only at hp
      rw [hp]
    · exact this z hz

theorem drude_real {gamma lam : ℝ} {kMax : ℕ} {beta : Option ℝ} {decomp : ℕ → Res (List ℂ × List ℂ)}
    (hd : ∀ n r, decomp n = .ok r → ∀ p ∈ r.1, (starRingEnd ℂ) p = p) {c : Correlation}
    (h : drude gamma lam kMax beta decomp = .ok c) :
    c.conjCoeff = c.coeff.map (starRingEnd ℂ) ∧ ∀ z ∈ c.derivative, (starRingEnd ℂ) z = z := by
  unfold drude at h
  simp only [bind_eq_ok] at h
  obtain ⟨⟨x, y⟩, h1, h⟩ := h
  have hy : ∀ z ∈ y, (starRingEnd ℂ) z = z := by
    match kMax, beta, h1 with
    | 0, _, h1 => cases h1; simp
    | k + 1, none, h1 =>
      cases h1
      intro z hz
      rcases List.mem_cons.1 hz with rfl | hz
      · simp
      · simp [List.eq_of_mem_replicate hz]
    | k + 1, some b, h1 =>
      simp only [drudeTerms, bind_eq_ok] at h1
      obtain ⟨⟨p, r⟩, h2, f, -, ⟨cs, gs⟩, h3, h4⟩ := h1
      have := poles_real h3 fun q hq => hd _ _ h2 _ (List.of_mem_zip hq).1
      cases h4
      intro z hz
      rcases List.mem_cons.1 hz with rfl | hz
      · simp
      · exact this z hz
  cases h
  exact ⟨rfl, hy⟩

/-- The `Drude` bath is conjugation consistent if the poles are real, as those of `matsubara` and `pade` are. -/
theorem C47_drude {gamma lam : ℝ} {kMax : ℕ} {beta : Option ℝ} {decomp : ℕ → Res (List ℂ × List ℂ)}
    (hd : ∀ n r, decomp n = .ok r → ∀ p ∈ r.1, (starRingEnd ℂ) p = p) {c : Correlation}
    (h : drude gamma lam kMax beta decomp = .ok c) : ConjConsistent c := by
  obtain ⟨h1, h2⟩ := drude_real hd h
  intro t
  rw [h1]
  exact expSum_real h2 t

theorem C47_decompositions (eigvals : List ℝ → List ℝ → List ℝ) (n : ℕ) :
    (∀ r, matsubara n = .ok r → ∀ p ∈ r.1, (starRingEnd ℂ) p = p) ∧ ∀ r, pade eigvals n = .ok r → ∀ p ∈ r.1, (starRingEnd ℂ) p = p := by
  constructor
  · intro r h
    cases h
    intro p hp
    simp only [List.mem_map] at hp
    obtain ⟨i, -, rfl⟩ := hp
    simp only [map_mul, map_add, map_one, map_ofNat, Complex.conj_ofReal, Complex.conj_natCast]
  · intro r h
    unfold pade at h
    split_ifs at h
    · cases h; simp
    · simp only [bind_eq_ok] at h
      obtain ⟨poles, h1, inv, h2, res, h3, h⟩ := h
      cases h
      intro p hp
      simp only [List.mem_map] at hp
      obtain ⟨x, -, rfl⟩ := hp
      exact Complex.conj_ofReal x

/-- The `Brownian` bath is conjugation consistent. -/
theorem C47_brownian {lam omega gamma : ℝ} {kMax : ℕ} {beta : Option ℝ} {c : Correlation}
    (h : brownian lam omega gamma kMax beta = .ok c) : ConjConsistent c := by
  intro t
  unfold brownian at h
  simp only [bind_eq_ok] at h
  obtain ⟨⟨a, b⟩, -, f, hf, ks, hks, h⟩ := h
  have hfr : (starRingEnd ℂ) f = f := by
    simp only [div] at hf
    split_ifs at hf
    cases hf
    simp only [map_div₀, map_mul, map_pow, map_ofNat, Complex.conj_ofReal]
  have hk : ∀ p ∈ ks, (starRingEnd ℂ) p.1 = p.1 ∧ (starRingEnd ℂ) p.2 = p.2 := by
    cases beta with
    | none => cases hks; simp
    | some b =>
      have : ∀ (l : List ℕ) (g : ℕ → Res (ℂ × ℂ)), (∀ i p, g i = .ok p → (starRingEnd ℂ) p.1 = p.1 ∧ (starRingEnd ℂ) p.2 = p.2) →
          ∀ r, l.mapM g = .ok r → ∀ p ∈ r, (starRingEnd ℂ) p.1 = p.1 ∧ (starRingEnd ℂ) p.2 = p.2 := by
        intro l g hg
        induction l with
        | nil => intro r h; cases h; simp
        | cons x l ih =>
          intro r h
          simp only [List.mapM_cons, bind_eq_ok] at h
          obtain ⟨y, hy, ys, h1, h⟩ := h
          cases h
          exact List.forall_mem_cons.2 ⟨hg _ _ hy, ih _ h1⟩
      refine this _ _ ?_ _ hks
      intro i p hp
      simp only [bind_eq_ok, div] at hp
      obtain ⟨v, hv, d, hd, hp⟩ := hp
      split_ifs at hv hd
      cases hv; cases hd; cases hp
      simp only [map_div₀, map_mul, map_neg, map_add, map_one, map_ofNat, Complex.conj_ofReal, Complex.conj_natCast, and_self]
  cases h
  dsimp only
  rw [expSum_append (by simp), expSum_append (by simp), map_add]
  have e2 : expSum (ks.map Prod.fst) (ks.map Prod.snd) t = (starRingEnd ℂ) (expSum (ks.map Prod.fst) (ks.map Prod.snd) t) := by
    have e : (ks.map Prod.fst).map (starRingEnd ℂ) = ks.map Prod.fst := by
      rw [List.map_map]
      exact List.map_congr_left fun p hp => (hk p hp).1
    conv_lhs => rw [← e]
    refine expSum_real (fun x hx => ?_) t
    obtain ⟨p, hp, rfl⟩ := List.mem_map.1 hx
    exact (hk p hp).2
  rw [← e2]
  congr 1
  simp only [expSum, List.zip_cons_cons, List.zip_nil_right, List.map_cons, List.map_nil, List.sum_cons, List.sum_nil, add_zero,
    map_add, map_mul, map_sub, conj_exp, hfr, Complex.conj_ofReal, map_neg, Complex.conj_I, map_one, neg_mul, sub_neg_eq_add,
    Complex.conj_conj]
  ring_nf

/-- Two modes and a Drude bath, without temperature. -/
example : ∃ b c, drude 1 2 3 none matsubara = .ok b ∧ ConjConsistent b ∧ generateBCF [(1, 2), (3, 4)] (some b) none = .ok c ∧
    ConjConsistent c ∧ Consistent c ∧ c.kMax = 7 := by
  obtain ⟨b, hb⟩ := C46_drude_zero 1 2 3 matsubara
  have hc := C47_drude (fun n => (C47_decompositions (fun d _ => d) n).1) hb
  have hl := C46_drude_partial (fun n r h => by
    obtain ⟨r', h1, h2, h3⟩ := (C46_decompositions_partial (fun d _ => d) (fun _ _ => rfl) n).1
    cases h1.symm.trans h
    exact ⟨h2, h3⟩) hb
  refine ⟨b, _, hb, hc, rfl, C47_generate (ph := [(1, 2), (3, 4)]) (bath := some b) (beta := none) (fun _ h => by cases h; exact hc) rfl,
    C46_generate_partial (ph := [(1, 2), (3, 4)]) (bath := some b) (beta := none) (fun _ h => by cases h; rw [hl.2.1, hl.2.2.1, hl.2.2.2]; simp) rfl, ?_⟩
  simp [hl.2.1, hl.1]

end Corr
