import Verif.Lemmas.PsdThird3
import Verif.Props.C71

/-!
C75: `PSD(N, BoseFermi, pade)` with `pade` 1, 2 and 3 is the Padé approximant of the Bose or the Fermi function.
-/

open scoped BigOperators Nat Topology
open Py Filter

namespace Pade

/-- The functions at non-negative real arguments. -/
noncomputable def hr (bf j : ℕ) (r : ℝ) : ℝ := if bf = 1 then gr j r else match j with
  | 0 => gr 0 r + r * gr 1 r
  | j + 1 => gr j r

private theorem hr_eq (bf j : ℕ) (r : ℝ) : hk bf j (r : ℂ) = (hr bf j r : ℂ) := by
  unfold hk hr
  by_cases h : bf = 1
  · simp only [if_pos h, gr_eq]
  · simp only [if_neg h]
    cases j with
    | zero => dsimp only; rw [gr_eq, gr_eq]; push_cast; rfl
    | succ j => exact gr_eq j r

private theorem hr_pos (bf j : ℕ) {r : ℝ} (h : 0 ≤ r) : 0 < hr bf j r := by
  unfold hr
  split_ifs
  · exact gr_pos j h
  · cases j with
    | zero =>
      have h0 := gr_pos 0 h
      have h1 := gr_pos 1 h
      dsimp only
      positivity
    | succ j => exact gr_pos j h

/-- The two factors of the bound. -/
private noncomputable def k1 (bf M : ℕ) : ℝ := if bf = 1 then ((2 * M + 1)‼ : ℕ) else ((2 * M - 1)‼ : ℕ)

private theorem prod_bk {bf : ℕ} (hbf : bf = 1 ∨ bf = 2) (M : ℕ) : ∏ i ∈ Finset.range M, bk bf i = k1 bf M := by
  unfold k1
  rcases hbf with rfl | rfl
  · rw [if_pos rfl, ← odd_prod]
    refine Finset.prod_congr rfl fun i _ => ?_
    unfold bk tk
    rw [if_pos rfl]
    ring
  · rw [if_neg (by norm_num)]
    cases M with
    | zero => simp
    | succ M =>
      rw [show 2 * (M + 1) - 1 = 2 * M + 1 by omega, ← odd_prod, Finset.prod_range_succ']
      unfold bk tk
      rw [if_neg (by norm_num)]
      simp only [Nat.cast_zero, mul_zero, add_zero, mul_one]
      refine Finset.prod_congr rfl fun i _ => ?_
      push_cast
      ring

private theorem hr_le {bf : ℕ} (hbf : bf = 1 ∨ bf = 2) (M : ℕ) {r : ℝ} (h : 0 ≤ r) : hr bf (M + 1) r * k1 bf (M + 1) ≤ hr bf 0 r := by
  unfold hr k1
  rcases hbf with rfl | rfl
  · simp only [if_true]
    exact gr_le (M + 1) h
  · simp only [if_neg (show ¬ (2 : ℕ) = 1 by norm_num)]
    rw [show 2 * (M + 1) - 1 = 2 * M + 1 by omega]
    have h1 := gr_le M h
    have h2 := mul_nonneg h (gr_pos 1 h).le
    linarith

private theorem k1_pos (bf M : ℕ) : 0 < k1 bf M := by
  unfold k1
  split_ifs <;> exact_mod_cast Nat.doubleFactorial_pos _

private theorem bound_order {bf : ℕ} (hbf : bf = 1 ∨ bf = 2) (M : ℕ) {x : ℝ} (hx : x ≠ 0) {D err : ℂ}
    (hD : D = cont ((x : ℂ) ^ 2 / 4) M (fun i => (bk bf i : ℂ)))
    (herr : err = (x : ℂ) / 4 * ((-((x : ℂ) ^ 2 / 4)) ^ M * hk bf (M + 1) ((x : ℂ) ^ 2 / 4) / (hk bf 0 ((x : ℂ) ^ 2 / 4) * D))) :
    D ≠ 0 ∧ ‖err‖ ≤ |x| / 4 * (x ^ 2 / 4) ^ M / (k1 bf M * k1 bf (M + 1)) := by
  have hw : 0 ≤ x ^ 2 / 4 := by positivity
  have hcast : ((x : ℂ) ^ 2 / 4) = ((x ^ 2 / 4 : ℝ) : ℂ) := by push_cast; rfl
  have hg0 := hr_pos bf 0 hw
  have hg1 := hr_pos bf (M + 1) hw
  have hc := cont_ge hw M (bk_pos bf)
  rw [prod_bk hbf] at hc
  have p1 := k1_pos bf M
  have p2 := k1_pos bf (M + 1)
  have hcp : 0 < cont (x ^ 2 / 4) M (bk bf) := p1.trans_le hc
  rw [hcast, ← cont_cast] at hD
  subst hD
  refine ⟨Complex.ofReal_ne_zero.2 hcp.ne', ?_⟩
  have hle := hr_le hbf M hw
  rw [herr, hcast, hr_eq, hr_eq]
  have e : (x : ℂ) / 4 * ((-((x ^ 2 / 4 : ℝ) : ℂ)) ^ M * (hr bf (M + 1) (x ^ 2 / 4) : ℂ) / ((hr bf 0 (x ^ 2 / 4) : ℂ) * (cont (x ^ 2 / 4) M (bk bf) : ℝ))) =
      ((x / 4 * ((-(x ^ 2 / 4)) ^ M * hr bf (M + 1) (x ^ 2 / 4) / (hr bf 0 (x ^ 2 / 4) * cont (x ^ 2 / 4) M (bk bf))) : ℝ) : ℂ) := by
    push_cast; rfl
  rw [e, Complex.norm_real, Real.norm_eq_abs, abs_mul, abs_div, abs_of_pos (four_pos : (0 : ℝ) < 4), mul_div_assoc (|x| / 4)]
  refine mul_le_mul_of_nonneg_left ?_ (by positivity : 0 ≤ |x| / 4)
  have hwp : |(-(x ^ 2 / 4)) ^ M| = (x ^ 2 / 4) ^ M := by rw [abs_pow, abs_neg, abs_of_nonneg hw]
  have hden : 0 < hr bf 0 (x ^ 2 / 4) * cont (x ^ 2 / 4) M (bk bf) := mul_pos hg0 hcp
  rw [abs_div, abs_mul, hwp, abs_of_pos hg1, abs_of_pos hden, mul_div_assoc, div_eq_mul_one_div ((x ^ 2 / 4) ^ M)]
  refine mul_le_mul_of_nonneg_left ?_ (pow_nonneg hw _)
  rw [div_le_div_iff₀ (by positivity) (by positivity)]
  calc hr bf (M + 1) (x ^ 2 / 4) * (k1 bf M * k1 bf (M + 1)) = (hr bf (M + 1) (x ^ 2 / 4) * k1 bf (M + 1)) * k1 bf M := by ring
    _ ≤ hr bf 0 (x ^ 2 / 4) * cont (x ^ 2 / 4) M (bk bf) := by gcongr
    _ = 1 * (hr bf 0 (x ^ 2 / 4) * cont (x ^ 2 / 4) M (bk bf)) := by ring

private theorem h0_ne (bf : ℕ) (x : ℝ) : hk bf 0 ((x : ℂ) ^ 2 / 4) ≠ 0 := by
  have hcast : ((x : ℂ) ^ 2 / 4) = ((x ^ 2 / 4 : ℝ) : ℂ) := by push_cast; rfl
  rw [hcast, hr_eq]
  exact Complex.ofReal_ne_zero.2 (hr_pos bf 0 (by positivity)).ne'

private theorem bound_convergent {bf n M : ℕ} {rn : ℝ} {poles residues : List ℝ} (hbf : bf = 1 ∨ bf = 2) (h : Convergent bf n M rn poles residues)
    {x : ℝ} (hx : x ≠ 0) : ‖BoseFermiSpec.target bf x - BoseFermiSpec.approx bf poles residues rn 0 x‖ ≤
      |x| / 4 * (x ^ 2 / 4) ^ (M + 1) / (k1 bf (M + 1) * k1 bf (M + 2)) := by
  have hh := h0_ne bf x
  have hD : cont ((x : ℂ) ^ 2 / 4) (M + 1) (fun i => (bk bf i : ℂ)) ≠ 0 := (bound_order hbf (M + 1) hx rfl rfl).1
  refine (bound_order hbf (M + 1) hx rfl ?_).2
  have hs := h.2.2.2.2.2 x hD
  have hE := convergent_error bf ((x : ℂ) ^ 2 / 4) M
  rw [target_eq (Complex.ofReal_ne_zero.2 hx) hh, BoseFermiSpec.approx, ← hE]
  generalize ((poles.zip residues).map fun a : ℝ × ℝ => (a.2 : ℂ) / ((x : ℂ) - Complex.I * a.1) + a.2 / ((x : ℂ) + Complex.I * a.1)).sum = S at *
  rw [add_assoc _ S, hs]
  generalize cont ((x : ℂ) ^ 2 / 4) (M + 1) (fun i => (bk bf i : ℂ)) = D at *
  generalize cont ((x : ℂ) ^ 2 / 4) M (fun i => (bk bf (i + 1) : ℂ)) = Cc at *
  generalize hk bf 0 ((x : ℂ) ^ 2 / 4) = h0 at *
  generalize hk bf 1 ((x : ℂ) ^ 2 / 4) = h1 at *
  push_cast
  field_simp
  ring

private theorem psd_run {eigvals : List ℝ → List ℝ → List ℝ} (third) {bf pade N : ℕ} (hbf : bf = 1 ∨ bf = 2) (hpade : pade = 1 ∨ pade = 2)
    {poles residues : List ℝ} (h : BoseFermi.poles eigvals N bf pade = .ok (poles, residues)) :
    BoseFermi.psd eigvals third N bf pade = .ok (poles, residues, if bf = 1 ∧ pade = 2 then 1 / (4 * (N + 1) * (2 * N + 3)) else 0, 0) := by
  unfold BoseFermi.psd
  rw [if_neg (by omega), if_neg (by omega), if_pos hpade, h]
  rfl

/-- What is asked of a decomposition with `N` poles: they are positive and increasing, the residues are positive, and the error at the real `x` is at
most `(|x| / 4) (x² / 4)^M / ((2 M + 1)‼ (2 M + 3)‼)` for bosons, `(|x| / 4) (x² / 4)^M / ((2 M - 1)‼ (2 M + 1)‼)` for fermions. -/
def Decomposition (bf N M : ℕ) (poles residues : List ℝ) (rn : ℝ) : Prop :=
  poles.length = N ∧ residues.length = N ∧ (∀ p ∈ poles, 0 < p) ∧ poles.Pairwise (· < ·) ∧ (∀ r ∈ residues, 0 < r) ∧
    ∀ x : ℝ, x ≠ 0 → ‖BoseFermiSpec.target bf x - BoseFermiSpec.approx bf poles residues rn 0 x‖ ≤
      |x| / 4 * (x ^ 2 / 4) ^ M / (if bf = 1 then (2 * M + 1)‼ * (2 * M + 3)‼ else (2 * M - 1)‼ * (2 * M + 1)‼ : ℕ)

private theorem k1_mul {bf : ℕ} (M : ℕ) : k1 bf M * k1 bf (M + 1) = ((if bf = 1 then (2 * M + 1)‼ * (2 * M + 3)‼ else (2 * M - 1)‼ * (2 * M + 1)‼ : ℕ) : ℝ) := by
  unfold k1
  split_ifs
  · push_cast; rfl
  · rw [show 2 * (M + 1) - 1 = 2 * M + 1 by omega]; push_cast; rfl

private theorem decomposition {bf n M : ℕ} {rn : ℝ} {poles residues : List ℝ} (hbf : bf = 1 ∨ bf = 2) (h : Convergent bf n M rn poles residues) :
    Decomposition bf n (M + 1) poles residues rn := by
  obtain ⟨h1, h2, h3, h4, h5, -⟩ := id h
  refine ⟨h1, h2, h3, h4, h5, fun x hx => ?_⟩
  rw [← k1_mul]
  exact bound_convergent hbf h hx

/-- `PSD(N, BoseFermi, 1)` for bosons and fermions, and `PSD(N, 1, 2)` for bosons: never fails; a decomposition of order `2 N` or `2 N + 1`. -/
theorem C75_psd_partial {eigvals : List ℝ → List ℝ → List ℝ} (hS : PadeSpec.Solver eigvals) (third) {bf pade : ℕ} (hbf : bf = 1 ∨ bf = 2)
    (hpade : pade = 1 ∨ (pade = 2 ∧ bf = 1)) (N : ℕ) :
    ∃ poles residues rn, BoseFermi.psd eigvals third N bf pade = .ok (poles, residues, rn, 0) ∧
      Decomposition bf N (2 * N + pade / 2) poles residues rn := by
  rcases hpade with rfl | ⟨rfl, rfl⟩
  · rcases N with _ | N
    · refine ⟨[], [], 0, ?_, rfl, rfl, by simp, by simp, by simp, fun x hx => ?_⟩
      · rw [psd_run third hbf (Or.inl rfl) (poles := []) (residues := []) rfl]
        simp
      · rw [← k1_mul]
        refine (bound_order hbf 0 hx rfl ?_).2
        rw [target_eq (Complex.ofReal_ne_zero.2 hx) (h0_ne bf x)]
        simp [BoseFermiSpec.approx, cont]
    · obtain ⟨poles, residues, h, hc⟩ := poles_one hS hbf N
      refine ⟨poles, residues, 0, ?_, ?_⟩
      · rw [psd_run third hbf (Or.inl rfl) h]
        simp
      · exact decomposition hbf hc
  · obtain ⟨poles, residues, h, hc⟩ := poles_two hS (bf := 1) (Or.inl rfl) N
    refine ⟨poles, residues, 1 / (4 * (N + 1) * (2 * N + 3)), ?_, ?_⟩
    · rw [psd_run third (Or.inl rfl) (Or.inr rfl) h]
      simp
    · rw [tk, if_pos rfl, ← mul_assoc] at hc
      exact decomposition (Or.inl rfl) hc

/-- `PSD(N, 2, 2)`: the poles and the residues for fermions are right, but the linear term is not: the code returns 0, and
`1 / (4 (N + 1) (2 N + 1))` is right. So the decomposition has already the wrong slope at 0. -/
theorem C75_fermi_violated {eigvals : List ℝ → List ℝ → List ℝ} (hS : PadeSpec.Solver eigvals) (third) (N : ℕ) :
    ∃ poles residues, BoseFermi.psd eigvals third N 2 2 = .ok (poles, residues, 0, 0) ∧
      Decomposition 2 N (2 * N + 1) poles residues (1 / (4 * (N + 1) * (2 * N + 1))) ∧
      Tendsto (fun x : ℝ => (BoseFermiSpec.target 2 x - BoseFermiSpec.approx 2 poles residues 0 0 x) / x) (𝓝[≠] 0)
        (𝓝 (1 / (4 * (N + 1) * (2 * N + 1)) : ℂ)) ∧ ¬ Decomposition 2 N (2 * N + 1) poles residues 0 := by
  obtain ⟨poles, residues, h, hc⟩ := poles_two hS (bf := 2) (Or.inr rfl) N
  have hr : (tk 2 : ℝ) = 1 := by unfold tk; simp
  rw [hr, ← mul_assoc] at hc
  have hd := decomposition (Or.inr rfl) hc
  have hw : Tendsto (fun x : ℝ => 1 / 4 * (x ^ 2 / 4) ^ (2 * N + 1) / (((2 * (2 * N + 1) - 1)‼ * (2 * (2 * N + 1) + 1)‼ : ℕ) : ℝ)) (𝓝[≠] 0) (𝓝 0) := by
    have : Continuous fun x : ℝ => 1 / 4 * (x ^ 2 / 4) ^ (2 * N + 1) / (((2 * (2 * N + 1) - 1)‼ * (2 * (2 * N + 1) + 1)‼ : ℕ) : ℝ) := by fun_prop
    have := this.tendsto 0
    simp only [ne_eq, OfNat.ofNat_ne_zero, not_false_eq_true, zero_pow, zero_div, Nat.add_eq_zero_iff, mul_eq_zero, one_ne_zero, and_false, mul_zero] at this
    exact this.mono_left nhdsWithin_le_nhds
  have key : ∀ rn : ℝ, Decomposition 2 N (2 * N + 1) poles residues rn →
      Tendsto (fun x : ℝ => (BoseFermiSpec.target 2 x - BoseFermiSpec.approx 2 poles residues rn 0 x) / x) (𝓝[≠] 0) (𝓝 0) := by
    intro rn hrn
    refine squeeze_zero_norm' ?_ hw
    filter_upwards [self_mem_nhdsWithin] with x hx
    have hx : x ≠ 0 := hx
    have h1 := hrn.2.2.2.2.2 x hx
    rw [if_neg (by norm_num)] at h1
    rw [norm_div, Complex.norm_real, Real.norm_eq_abs, div_le_iff₀ (abs_pos.2 hx)]
    calc _ ≤ _ := h1
      _ = _ := by ring
  have hlim : Tendsto (fun x : ℝ => (BoseFermiSpec.target 2 x - BoseFermiSpec.approx 2 poles residues 0 0 x) / x) (𝓝[≠] 0)
        (𝓝 (1 / (4 * (N + 1) * (2 * N + 1)) : ℂ)) := by
    have h1 := (key _ hd).add_const (1 / (4 * (N + 1) * (2 * N + 1)) : ℂ)
    rw [zero_add] at h1
    refine h1.congr' ?_
    filter_upwards [self_mem_nhdsWithin] with x hx
    have hx : (x : ℂ) ≠ 0 := Complex.ofReal_ne_zero.2 hx
    unfold BoseFermiSpec.approx
    push_cast
    field_simp
    ring
  refine ⟨poles, residues, ?_, hd, hlim, fun h0 => ?_⟩
  · rw [psd_run third (Or.inr rfl) (Or.inr rfl) h]
    simp
  · have := tendsto_nhds_unique hlim (key 0 h0)
    have h3 : (((1 / (4 * (N + 1) * (2 * N + 1)) : ℝ)) : ℂ) = 0 := by push_cast; exact this
    have h4 : (0 : ℝ) < 1 / (4 * (N + 1) * (2 * N + 1)) := by positivity
    exact h4.ne' (by exact_mod_cast h3)

/-- Other values of the arguments are rejected. -/
theorem C75_assertion (eigvals : List ℝ → List ℝ → List ℝ) (third) (N : ℕ) {bf pade : ℕ} (h : ¬ ((bf = 1 ∨ bf = 2) ∧ pade < 4)) :
    BoseFermi.psd eigvals third N bf pade = .error .assertionError := by
  unfold BoseFermi.psd
  rw [if_pos h]

/-- The hypotheses can be met. -/
example (third) : ∃ poles residues rn, BoseFermi.psd exactSolver third 3 1 2 = .ok (poles, residues, rn, 0) ∧ Decomposition 1 3 7 poles residues rn :=
  C75_psd_partial exactSolver_ok third (Or.inl rfl) (Or.inr ⟨rfl, rfl⟩) 3

/-- What is asked of a decomposition with `N` poles, a linear and a cubic term: the poles are positive and increasing, the residues are positive, and
with `c = 3` for bosons and `c = 1` for fermions the error at the real `x` is at most
`|x| (x² / 4)^(2 N + 2) (N + 2) (2 N + c + 2) / (4 (N + 1) (2 N + c) (4 N + c + 2)‼ (4 N + c + 4)‼)`. -/
def Decomposition3 (bf N : ℕ) (poles residues : List ℝ) (rn tn : ℝ) : Prop :=
  poles.length = N ∧ residues.length = N ∧ (∀ p ∈ poles, 0 < p) ∧ poles.Pairwise (· < ·) ∧ (∀ r ∈ residues, 0 < r) ∧
    ∀ x : ℝ, x ≠ 0 → ‖BoseFermiSpec.target bf x - BoseFermiSpec.approx bf poles residues rn tn x‖ ≤
      if bf = 1 then |x| * (x ^ 2 / 4) ^ (2 * N + 2) * ((N + 2) * (2 * N + 5)) / (4 * (N + 1) * (2 * N + 3) * ((4 * N + 5)‼ * (4 * N + 7)‼ : ℕ))
      else |x| * (x ^ 2 / 4) ^ (2 * N + 2) * ((N + 2) * (2 * N + 3)) / (4 * (N + 1) * (2 * N + 1) * ((4 * N + 3)‼ * (4 * N + 5)‼ : ℕ))

private noncomputable def hrt (bf j : ℕ) (r : ℝ) : ℝ :=
  if j % 2 = 0 then hr bf j r + (j / 2 : ℕ) * (tk bf + 2 * (j / 2 : ℕ) - 2) * hr bf (j + 1) r
  else hr bf (j + 1) r / (4 * ((j / 2 : ℕ) + 1) * (tk bf + 2 * (j / 2 : ℕ)))

private theorem hrt_eq (bf j : ℕ) (r : ℝ) : ht bf j (r : ℂ) = (hrt bf j r : ℂ) := by
  unfold ht hrt
  split_ifs
  · rw [hr_eq, hr_eq]; push_cast; rfl
  · rw [hr_eq]; push_cast; rfl

private theorem hrt_pos (bf j : ℕ) {r : ℝ} (h : 0 ≤ r) : 0 < hrt bf j r := by
  have t := tk_pos bf
  have h0 := hr_pos bf j h
  have h1 := hr_pos bf (j + 1) h
  unfold hrt
  split_ifs
  · rcases Nat.eq_zero_or_pos (j / 2) with hj | hj
    · rw [hj]; simpa using h0
    · have : (1 : ℝ) ≤ (j / 2 : ℕ) := by exact_mod_cast hj
      have : 0 ≤ tk bf + 2 * (j / 2 : ℕ) - 2 := by linarith
      positivity
  · positivity

private theorem hrt_le (bf : ℕ) {r : ℝ} (h : 0 ≤ r) : ∀ m, hrt bf m r * ∏ i ∈ Finset.range m, bt bf i ≤ hrt bf 0 r
  | 0 => by simp
  | m + 1 => by
    refine le_trans ?_ (hrt_le bf h m)
    rw [Finset.prod_range_succ]
    have e : hrt bf m r = bt bf m * hrt bf (m + 1) r + r * hrt bf (m + 2) r := by
      have := ht_rec bf (r : ℂ) m
      rw [hrt_eq, hrt_eq, hrt_eq] at this
      exact_mod_cast this
    have h2 := hrt_pos bf (m + 2) h
    have hp : 0 ≤ ∏ i ∈ Finset.range m, bt bf i := Finset.prod_nonneg fun i _ => (bt_pos bf i).le
    calc hrt bf (m + 1) r * ((∏ i ∈ Finset.range m, bt bf i) * bt bf m) = (bt bf m * hrt bf (m + 1) r) * ∏ i ∈ Finset.range m, bt bf i := by ring
      _ ≤ hrt bf m r * ∏ i ∈ Finset.range m, bt bf i := by
        refine mul_le_mul_of_nonneg_right ?_ hp
        rw [e]
        have : 0 ≤ r * hrt bf (m + 2) r := by positivity
        linarith

private theorem third_error (bf : ℕ) (w : ℂ) (m : ℕ) : cont w (m + 1) (fun i => (bt bf i : ℂ)) * ht bf 1 w - cont w m (fun i => (bt bf (i + 1) : ℂ)) * ht bf 0 w =
    (-w) ^ (m + 1) * ht bf (m + 2) w := by
  cases m with
  | zero =>
    have := ht_rec bf w 0
    simp only [cont, zero_add] at this ⊢
    linear_combination -this
  | succ m =>
    have := cont_error w (ht_rec bf w) m
    simp only [Nat.add_assoc, Nat.reduceAdd] at this ⊢
    rw [this, pow_succ _ (m + 1)]
    ring

private theorem third_fraction (bf : ℕ) {w : ℂ} (h : hk bf 0 w ≠ 0) : 1 / 4 * (hk bf 1 w / hk bf 0 w) = 1 / (4 * tk bf) - w * (ht bf 1 w / ht bf 0 w) := by
  have t : ((tk bf : ℝ) : ℂ) ≠ 0 := Complex.ofReal_ne_zero.2 (tk_pos bf).ne'
  have e0 : ht bf 0 w = hk bf 0 w := by have := ht_even bf 0 w; simpa using this
  have e1 : ht bf 1 w = hk bf 2 w / (4 * tk bf) := by have := ht_odd bf 0 w; simpa using this
  have r := hk_rec bf w 0
  simp only [bk, Nat.cast_zero, mul_zero, add_zero, zero_add] at r
  rw [e0, e1]
  field_simp
  rw [r]
  ring

private theorem third_bound {bf N : ℕ} {rn tn : ℝ} {poles residues : List ℝ} (h : Convergent3 bf N rn tn poles residues)
    {x : ℝ} (hx : x ≠ 0) : ‖BoseFermiSpec.target bf x - BoseFermiSpec.approx bf poles residues rn tn x‖ ≤
      |x| * (x ^ 2 / 4) ^ (2 * N + 2) / ((∏ i ∈ Finset.range (2 * N + 1), bt bf i) * ∏ i ∈ Finset.range (2 * N + 2), bt bf i) := by
  have hw : 0 ≤ x ^ 2 / 4 := by positivity
  have hcast : ((x : ℂ) ^ 2 / 4) = ((x ^ 2 / 4 : ℝ) : ℂ) := by push_cast; rfl
  have hc := cont_ge hw (2 * N + 1) (bt_pos bf)
  have hcp := cont_pos hw (2 * N + 1) (bt_pos bf)
  have hg0 := hrt_pos bf 0 hw
  have hg2 := hrt_pos bf (2 * N + 2) hw
  have hle := hrt_le bf hw (2 * N + 2)
  have P1 : 0 < ∏ i ∈ Finset.range (2 * N + 1), bt bf i := Finset.prod_pos fun i _ => bt_pos bf i
  have P2 : 0 < ∏ i ∈ Finset.range (2 * N + 2), bt bf i := Finset.prod_pos fun i _ => bt_pos bf i
  have hD : cont ((x : ℂ) ^ 2 / 4) (2 * N + 1) (fun i => (bt bf i : ℂ)) = ((cont (x ^ 2 / 4) (2 * N + 1) (bt bf) : ℝ) : ℂ) := by rw [hcast, ← cont_cast]
  have hD0 : cont ((x : ℂ) ^ 2 / 4) (2 * N + 1) (fun i => (bt bf i : ℂ)) ≠ 0 := by rw [hD]; exact Complex.ofReal_ne_zero.2 hcp.ne'
  have hs := h.2.2.2.2.2 x hD0
  have hE := third_error bf ((x : ℂ) ^ 2 / 4) (2 * N)
  have hh := h0_ne bf x
  have hF := third_fraction bf hh
  have hH0 : ht bf 0 ((x : ℂ) ^ 2 / 4) ≠ 0 := by rw [hcast, hrt_eq]; exact Complex.ofReal_ne_zero.2 hg0.ne'
  have key : BoseFermiSpec.target bf x - BoseFermiSpec.approx bf poles residues rn tn x =
      ((x * ((x ^ 2 / 4) ^ (2 * N + 2) * hrt bf (2 * N + 2) (x ^ 2 / 4) / (hrt bf 0 (x ^ 2 / 4) * cont (x ^ 2 / 4) (2 * N + 1) (bt bf))) : ℝ) : ℂ) := by
    have e : ((x * ((x ^ 2 / 4) ^ (2 * N + 2) * hrt bf (2 * N + 2) (x ^ 2 / 4) / (hrt bf 0 (x ^ 2 / 4) * cont (x ^ 2 / 4) (2 * N + 1) (bt bf))) : ℝ) : ℂ) =
        x * (((x : ℂ) ^ 2 / 4) ^ (2 * N + 2) * ht bf (2 * N + 2) ((x : ℂ) ^ 2 / 4) /
          (ht bf 0 ((x : ℂ) ^ 2 / 4) * cont ((x : ℂ) ^ 2 / 4) (2 * N + 1) (fun i => (bt bf i : ℂ)))) := by
      rw [hD, hcast, hrt_eq, hrt_eq]
      push_cast
      rfl
    have e3 : ((x : ℂ) ^ 2 / 4) ^ (2 * N + 2) * ht bf (2 * N + 2) ((x : ℂ) ^ 2 / 4) = -((x : ℂ) ^ 2 / 4) * ((-((x : ℂ) ^ 2 / 4)) ^ (2 * N + 1) * ht bf (2 * N + 2) ((x : ℂ) ^ 2 / 4)) := by
      have : (-((x : ℂ) ^ 2 / 4)) ^ (2 * N + 1) = -((x : ℂ) ^ 2 / 4) ^ (2 * N + 1) := Odd.neg_pow ⟨N, rfl⟩ _
      rw [this]
      ring
    rw [e, e3, ← hE, target_eq (Complex.ofReal_ne_zero.2 hx) hh, BoseFermiSpec.approx]
    have e4 : (x : ℂ) / 4 * (hk bf 1 ((x : ℂ) ^ 2 / 4) / hk bf 0 ((x : ℂ) ^ 2 / 4)) = x * (1 / 4 * (hk bf 1 ((x : ℂ) ^ 2 / 4) / hk bf 0 ((x : ℂ) ^ 2 / 4))) := by ring
    rw [e4, hF]
    generalize ((poles.zip residues).map fun a : ℝ × ℝ => (a.2 : ℂ) / ((x : ℂ) - Complex.I * a.1) + a.2 / ((x : ℂ) + Complex.I * a.1)).sum = S at *
    have e5 : ∀ a b : ℂ, a + 1 / 2 + b - (a + 1 / 2 + S + rn * x + tn * x ^ 3) = b - (S + rn * x + tn * x ^ 3) := fun a b => by ring
    rw [e5, hs]
    generalize cont ((x : ℂ) ^ 2 / 4) (2 * N + 1) (fun i => (bt bf i : ℂ)) = D at *
    generalize cont ((x : ℂ) ^ 2 / 4) (2 * N) (fun i => (bt bf (i + 1) : ℂ)) = Cc at *
    generalize ht bf 0 ((x : ℂ) ^ 2 / 4) = h0 at *
    generalize ht bf 1 ((x : ℂ) ^ 2 / 4) = h1 at *
    field_simp
    ring
  rw [key, Complex.norm_real, Real.norm_eq_abs, abs_mul, mul_div_assoc |x|]
  refine mul_le_mul_of_nonneg_left ?_ (abs_nonneg x)
  have hden : 0 < hrt bf 0 (x ^ 2 / 4) * cont (x ^ 2 / 4) (2 * N + 1) (bt bf) := mul_pos hg0 hcp
  rw [abs_of_nonneg (by positivity), mul_div_assoc, div_eq_mul_one_div ((x ^ 2 / 4) ^ (2 * N + 2))]
  refine mul_le_mul_of_nonneg_left ?_ (pow_nonneg hw _)
  rw [div_le_div_iff₀ hden (by positivity)]
  generalize ∏ i ∈ Finset.range (2 * N + 1), bt bf i = A at *
  generalize ∏ i ∈ Finset.range (2 * N + 2), bt bf i = B at *
  calc hrt bf (2 * N + 2) (x ^ 2 / 4) * (A * B) = (hrt bf (2 * N + 2) (x ^ 2 / 4) * B) * A := by ring
    _ ≤ hrt bf 0 (x ^ 2 / 4) * cont (x ^ 2 / 4) (2 * N + 1) (bt bf) := by gcongr
    _ = 1 * (hrt bf 0 (x ^ 2 / 4) * cont (x ^ 2 / 4) (2 * N + 1) (bt bf)) := by ring

/-- `PSD(N, BoseFermi, 3)`, for bosons and for fermions: never fails; a decomposition with a linear and a cubic term. -/
theorem C75_third {eigvals : List ℝ → List ℝ → List ℝ} (hS : PadeSpec.Solver eigvals) {bf : ℕ} (hbf : bf = 1 ∨ bf = 2) (N : ℕ) :
    ∃ poles residues rn tn, BoseFermi.psd eigvals (BoseFermi.third eigvals) N bf 3 = .ok (poles, residues, rn, tn) ∧
      Decomposition3 bf N poles residues rn tn := by
  obtain ⟨poles, residues, rn, tn, h, hc⟩ := third_ok hS bf N
  refine ⟨poles, residues, rn, tn, ?_, hc.1, hc.2.1, hc.2.2.1, hc.2.2.2.1, hc.2.2.2.2.1, fun x hx => ?_⟩
  · unfold BoseFermi.psd
    rw [if_neg (by omega), if_neg (by omega), if_neg (by omega), h]
  · refine (third_bound hc hx).trans (le_of_eq ?_)
    have e2 : ∏ i ∈ Finset.range (2 * N + 2), bt bf i = k1 bf (2 * N + 3) / ((N + 2) * (tk bf + 2 * N + 2)) := by
      have := bt_prod_even bf (N + 1)
      rw [show 2 * (N + 1) = 2 * N + 2 by ring, show 2 * N + 2 + 1 = 2 * N + 3 by ring, prod_bk hbf] at this
      rw [this]
      push_cast
      ring
    rw [e2, bt_prod_odd, prod_bk hbf]
    have q1 := k1_pos bf (2 * N + 2)
    have q2 := k1_pos bf (2 * N + 3)
    have n1 : (0 : ℝ) < N + 1 := by positivity
    have n2 : (0 : ℝ) < N + 2 := by positivity
    have n3 : (0 : ℝ) < 2 * N + 3 := by positivity
    have n4 : (0 : ℝ) < 2 * N + 1 := by positivity
    have n5 : (0 : ℝ) < 2 * N + 5 := by positivity
    rcases hbf with rfl | rfl
    · rw [if_pos rfl]
      have a1 : k1 1 (2 * N + 2) = ((4 * N + 5)‼ : ℕ) := by unfold k1; rw [if_pos rfl, show 2 * (2 * N + 2) + 1 = 4 * N + 5 by ring]
      have a2 : k1 1 (2 * N + 3) = ((4 * N + 7)‼ : ℕ) := by unfold k1; rw [if_pos rfl, show 2 * (2 * N + 3) + 1 = 4 * N + 7 by ring]
      rw [a1] at q1 ⊢
      rw [a2] at q2 ⊢
      have t : tk 1 = 3 := by unfold tk; rw [if_pos rfl]
      rw [t, show (3 : ℝ) + 2 * N + 2 = 2 * N + 5 by ring, show (3 : ℝ) + 2 * N = 2 * N + 3 by ring]
      push_cast
      field_simp
    · rw [if_neg (by norm_num)]
      have a1 : k1 2 (2 * N + 2) = ((4 * N + 3)‼ : ℕ) := by unfold k1; rw [if_neg (by norm_num), show 2 * (2 * N + 2) - 1 = 4 * N + 3 by omega]
      have a2 : k1 2 (2 * N + 3) = ((4 * N + 5)‼ : ℕ) := by unfold k1; rw [if_neg (by norm_num), show 2 * (2 * N + 3) - 1 = 4 * N + 5 by omega]
      rw [a1] at q1 ⊢
      rw [a2] at q2 ⊢
      have t : tk 2 = 1 := by unfold tk; rw [if_neg (by norm_num)]
      rw [t, show (1 : ℝ) + 2 * N + 2 = 2 * N + 3 by ring, show (1 : ℝ) + 2 * N = 2 * N + 1 by ring]
      push_cast
      field_simp

/-- The hypotheses can be met. -/
example : ∃ poles residues rn tn, BoseFermi.psd exactSolver (BoseFermi.third exactSolver) 3 2 3 = .ok (poles, residues, rn, tn) ∧
    Decomposition3 2 3 poles residues rn tn :=
  C75_third exactSolver_ok (Or.inr rfl) 3

end Pade
