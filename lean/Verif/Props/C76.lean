import Verif.Model.BoseFermi
import Verif.Spec.BoseFermi
import Verif.Spec.BathResidue
import Verif.Lemmas.Pade3
import Mathlib.Analysis.SpecialFunctions.Trigonometric.Cotangent
import Mathlib.Analysis.Real.Pi.Bounds

/-!
C76: `MSD(N, BoseFermi)`, the Matsubara decomposition of the Bose and the Fermi function.
-/

open scoped BigOperators Topology
open Py Filter

namespace BoseFermi

/-- The denominator of the function: its zeros are the poles. -/
private theorem exp_eq_one {x : ℂ} (h : Complex.exp x ≠ 1) : x / (2 * Real.pi * Complex.I) ∈ Complex.integerComplement := by
  rw [Complex.mem_integerComplement_iff]
  rintro ⟨n, hn⟩
  apply h
  rw [Complex.exp_eq_one_iff]
  refine ⟨n, ?_⟩
  have := Complex.two_pi_I_ne_zero
  rw [eq_div_iff this] at hn
  exact hn.symm

/-- The cotangent series with `x = 2 pi i z`. -/
private theorem series {x : ℂ} (h : Complex.exp x ≠ 1) :
    Tendsto (fun n : ℕ => ∑ j ∈ Finset.range n, (1 / (x - Complex.I * (2 * (j + 1) * Real.pi)) + 1 / (x + Complex.I * (2 * (j + 1) * Real.pi)))) atTop
      (𝓝 (1 / (1 - Complex.exp (-x)) - 1 / x - 1 / 2)) := by
  have hz := exp_eq_one h
  have hI := Complex.two_pi_I_ne_zero
  have hx : x ≠ 0 := fun h0 => h (by rw [h0, Complex.exp_zero])
  have ht := (tendsto_logDeriv_euler_cot_sub hz).const_mul (1 / (2 * Real.pi * Complex.I) : ℂ)
  have e : (1 / (2 * Real.pi * Complex.I) : ℂ) * (Real.pi * Complex.cot (Real.pi * (x / (2 * Real.pi * Complex.I))) - 1 / (x / (2 * Real.pi * Complex.I))) =
      1 / (1 - Complex.exp (-x)) - 1 / x - 1 / 2 := by
    rw [Complex.cot_pi_eq_exp_ratio, mul_div_cancel₀ _ hI, Complex.exp_neg]
    have h1 : Complex.exp x ≠ 0 := Complex.exp_ne_zero x
    have h2 : Complex.exp x - 1 ≠ 0 := sub_ne_zero.2 h
    have h3 : 1 - Complex.exp x ≠ 0 := sub_ne_zero.2 (Ne.symm h)
    have h4 : 1 - (Complex.exp x)⁻¹ ≠ 0 := by
      intro h5
      rw [sub_eq_zero, eq_comm, inv_eq_one] at h5
      exact h h5
    have hpi : (Real.pi : ℂ) ≠ 0 := Complex.ofReal_ne_zero.2 Real.pi_ne_zero
    have hi := Complex.I_ne_zero
    have e4 : 1 / (1 - (Complex.exp x)⁻¹) = Complex.exp x / (Complex.exp x - 1) := by field_simp
    rw [e4]
    generalize Complex.exp x = E at *
    have e5 : (E + 1) / (Complex.I * (1 - E)) = Complex.I * ((E + 1) / (E - 1)) := by
      rw [div_eq_iff (mul_ne_zero hi h3)]
      field_simp
      linear_combination (E ^ 2 - 1) * Complex.I_sq
    rw [e5]
    field_simp
    ring
  rw [e] at ht
  refine ht.congr fun n => ?_
  rw [Finset.mul_sum]
  refine Finset.sum_congr rfl fun j _ => ?_
  have e1 : x - Complex.I * (2 * (j + 1) * Real.pi) = (2 * Real.pi * Complex.I) * (x / (2 * Real.pi * Complex.I) - (j + 1)) := by
    rw [mul_sub, mul_div_cancel₀ _ hI]; ring
  have e2 : x + Complex.I * (2 * (j + 1) * Real.pi) = (2 * Real.pi * Complex.I) * (x / (2 * Real.pi * Complex.I) + (j + 1)) := by
    rw [mul_add (2 * Real.pi * Complex.I : ℂ), mul_div_cancel₀ _ hI]; ring
  rw [e1, e2, cotTerm, mul_add, one_div_mul_one_div, one_div_mul_one_div]

private theorem tail (x : ℂ) : Tendsto (fun n : ℕ => 1 / (x + Complex.I * ((2 * n + 1) * Real.pi))) atTop (𝓝 0) := by
  simp only [one_div]
  refine tendsto_inv₀_cobounded.comp (tendsto_norm_atTop_iff_cobounded.1 ?_)
  have h1 : Tendsto (fun n : ℕ => (n : ℝ) - ‖x‖) atTop atTop := tendsto_atTop_add_const_right _ _ tendsto_natCast_atTop_atTop
  refine tendsto_atTop_mono (fun n => ?_) h1
  have h2 : ‖Complex.I * ((2 * (n : ℂ) + 1) * Real.pi)‖ = (2 * n + 1) * Real.pi := by
    rw [norm_mul, Complex.norm_I, one_mul]
    have : ((2 * (n : ℂ) + 1) * Real.pi) = (((2 * (n : ℝ) + 1) * Real.pi : ℝ) : ℂ) := by push_cast; rfl
    rw [this, Complex.norm_real, Real.norm_eq_abs, abs_of_nonneg (by positivity)]
  have h3 : ‖Complex.I * ((2 * (n : ℂ) + 1) * Real.pi)‖ ≤ ‖x + Complex.I * ((2 * n + 1) * Real.pi)‖ + ‖x‖ := by
    have := norm_sub_le (x + Complex.I * ((2 * n + 1) * Real.pi)) x
    rwa [add_sub_cancel_left] at this
  rw [h2] at h3
  have h4 : (n : ℝ) ≤ (2 * n + 1) * Real.pi := by
    have := Real.pi_gt_three
    have hn : (0 : ℝ) ≤ n := n.cast_nonneg
    nlinarith
  linarith

/-- The same for the odd multiples of `pi i`. -/
private theorem series_odd {x : ℂ} (h : Complex.exp x ≠ -1) :
    Tendsto (fun n : ℕ => ∑ j ∈ Finset.range n, (1 / (x - Complex.I * ((2 * j + 1) * Real.pi)) + 1 / (x + Complex.I * ((2 * j + 1) * Real.pi)))) atTop
      (𝓝 (1 / (1 + Complex.exp (-x)) - 1 / 2)) := by
  have he : Complex.exp (x + Real.pi * Complex.I) = -Complex.exp x := by rw [Complex.exp_add, Complex.exp_pi_mul_I]; ring
  have hs := series (x := x + Real.pi * Complex.I) (by rw [he]; intro h1; exact h (by rw [← h1, neg_neg]))
  have he' : Complex.exp (-(x + Real.pi * Complex.I)) = -Complex.exp (-x) := by rw [Complex.exp_neg, he, Complex.exp_neg, inv_neg]
  rw [he', sub_neg_eq_add] at hs
  have ht := (hs.add_const (1 / (x + Real.pi * Complex.I))).sub (tail x)
  have e : 1 / (1 + Complex.exp (-x)) - 1 / (x + Real.pi * Complex.I) - 1 / 2 + 1 / (x + Real.pi * Complex.I) - 0 = 1 / (1 + Complex.exp (-x)) - 1 / 2 := by ring
  rw [e] at ht
  refine ht.congr fun n => ?_
  induction n with
  | zero => simp; ring
  | succ n ih =>
    rw [Finset.sum_range_succ, Finset.sum_range_succ, ← ih]
    have e1 : x + Real.pi * Complex.I - Complex.I * (2 * (n + 1) * Real.pi) = x - Complex.I * ((2 * n + 1) * Real.pi) := by ring
    have e2 : x + Real.pi * Complex.I + Complex.I * (2 * (n + 1) * Real.pi) = x + Complex.I * ((2 * ((n + 1 : ℕ) : ℂ) + 1) * Real.pi) := by push_cast; ring
    rw [e1, e2]
    ring

private theorem approx_eq (bf N : ℕ) (p : ℕ → ℝ) (x : ℂ) : BoseFermiSpec.approx bf ((List.range N).map p) (List.replicate N 1) 0 0 x =
    (if bf = 1 then 1 / x else 0) + 1 / 2 + ∑ j ∈ Finset.range N, (1 / (x - Complex.I * p j) + 1 / (x + Complex.I * p j)) := by
  have hrep : List.replicate N (1 : ℝ) = (List.range N).map fun _ => (1 : ℝ) := by simp
  rw [BoseFermiSpec.approx, hrep, List.zip_map', List.map_map, Pade.sum_range_list]
  simp

private theorem residue_of_deriv {D : ℂ → ℂ} {a : ℂ} (h0 : D a = 0) (hD : HasDerivAt D 1 a) : BathSpec.HasResidue (fun x => 1 / D x) a 1 := by
  rw [hasDerivAt_iff_tendsto_slope] at hD
  have := hD.inv₀ one_ne_zero
  rw [inv_one] at this
  refine this.congr' ?_
  filter_upwards [self_mem_nhdsWithin] with w hw
  rw [slope_def_field, h0, sub_zero, inv_div]
  ring

/-- The poles. -/
private noncomputable def pk (bf i : ℕ) : ℝ := if bf = 1 then 2 * ((i : ℝ) + 1) * Real.pi else (2 * (i : ℝ) + 1) * Real.pi

private theorem msd_eq {bf : ℕ} (hbf : bf = 1 ∨ bf = 2) (N : ℕ) : msd N bf = .ok ((List.range N).map (pk bf), List.replicate N 1, 0, 0) := by
  rcases hbf with rfl | rfl
  · rfl
  · rfl

private theorem pk_pos (bf i : ℕ) : 0 < pk bf i := by
  have := Real.pi_pos
  unfold pk
  split_ifs <;> positivity

private theorem pk_lt (bf : ℕ) {i j : ℕ} (h : i < j) : pk bf i < pk bf j := by
  have := Real.pi_pos
  have h' : (i : ℝ) < j := Nat.cast_lt.2 h
  unfold pk
  split_ifs <;> gcongr

private theorem pk_le {bf : ℕ} (_ : bf = 1 ∨ bf = 2) {i N : ℕ} (h : i < N) : pk bf i ≤ 2 * N * Real.pi := by
  have hpi := Real.pi_pos
  have h' : (i : ℝ) + 1 ≤ N := by exact_mod_cast h
  unfold pk
  split_ifs <;> refine mul_le_mul_of_nonneg_right ?_ hpi.le <;> linarith

private theorem pk_gt {bf : ℕ} (_ : bf = 1 ∨ bf = 2) {i N : ℕ} (h : N ≤ i) : 2 * N * Real.pi < pk bf i := by
  have hpi := Real.pi_pos
  have h' : (N : ℝ) ≤ i := by exact_mod_cast h
  unfold pk
  split_ifs <;> refine mul_lt_mul_of_pos_right ?_ hpi <;> linarith

private theorem pk_exp {bf : ℕ} (hbf : bf = 1 ∨ bf = 2) (i : ℕ) : Complex.exp (-(Complex.I * (pk bf i : ℝ))) = if bf = 1 then 1 else -1 := by
  unfold pk
  rcases hbf with rfl | rfl
  · simp only [if_true]
    rw [Complex.exp_eq_one_iff]
    exact ⟨-(i + 1), by push_cast; ring⟩
  · simp only [if_neg (show ¬ (2 : ℕ) = 1 by norm_num)]
    have e : -(Complex.I * (((2 * (i : ℝ) + 1) * Real.pi : ℝ) : ℂ)) = ((-(i + 1) : ℤ) : ℂ) * (2 * Real.pi * Complex.I) + Real.pi * Complex.I := by push_cast; ring
    rw [e, Complex.exp_add, Complex.exp_eq_one_iff.2 ⟨_, rfl⟩, Complex.exp_pi_mul_I, one_mul]

private theorem pk_of_exp {bf : ℕ} (hbf : bf = 1 ∨ bf = 2) {p : ℝ} (hp : 0 < p) (h : Complex.exp (-(Complex.I * p)) = if bf = 1 then 1 else -1) :
    ∃ i : ℕ, pk bf i = p := by
  have hpi := Real.pi_pos
  unfold pk
  rcases hbf with rfl | rfl
  · simp only [if_true] at h ⊢
    obtain ⟨n, hn⟩ := Complex.exp_eq_one_iff.1 h
    have h1 : p = -(2 * n * Real.pi) := by
      have := congrArg Complex.im hn
      simp at this
      linarith
    have h2 : n < 0 := by
      by_contra h3
      have : (0 : ℝ) ≤ n := by exact_mod_cast not_lt.1 h3
      have : 0 ≤ 2 * (n : ℝ) * Real.pi := by positivity
      linarith
    obtain ⟨m, hm⟩ := Int.eq_ofNat_of_zero_le (show 0 ≤ -n - 1 by omega)
    refine ⟨m, ?_⟩
    have h3 : (m : ℝ) = -n - 1 := by exact_mod_cast hm.symm
    rw [h1, h3]
    ring
  · simp only [if_neg (show ¬ (2 : ℕ) = 1 by norm_num)] at h ⊢
    have h' : Complex.exp (-(Complex.I * p) + Real.pi * Complex.I) = 1 := by rw [Complex.exp_add, h, Complex.exp_pi_mul_I]; norm_num
    obtain ⟨n, hn⟩ := Complex.exp_eq_one_iff.1 h'
    have h1 : p = -(2 * n * Real.pi) + Real.pi := by
      have := congrArg Complex.im hn
      simp at this
      linarith
    have h2 : n < 1 := by
      by_contra h3
      have : (1 : ℝ) ≤ n := by exact_mod_cast not_lt.1 h3
      nlinarith
    obtain ⟨m, hm⟩ := Int.eq_ofNat_of_zero_le (show 0 ≤ -n by omega)
    refine ⟨m, ?_⟩
    have h3 : (m : ℝ) = -n := by exact_mod_cast hm.symm
    rw [h1, h3]
    ring

private theorem target_residue {bf : ℕ} (hbf : bf = 1 ∨ bf = 2) {a : ℂ} (h : Complex.exp (-a) = if bf = 1 then 1 else -1) :
    BathSpec.HasResidue (BoseFermiSpec.target bf) a ((1 : ℝ) : ℂ) := by
  rw [Complex.ofReal_one]
  have h0 : HasDerivAt (fun x : ℂ => Complex.exp (-x)) (-Complex.exp (-a)) a := by
    have := ((hasDerivAt_id a).neg).cexp
    simpa using this
  rcases hbf with rfl | rfl
  · simp only [if_true] at h
    have h1 := h0.const_sub 1
    rw [h, neg_neg] at h1
    have := residue_of_deriv (D := fun x : ℂ => 1 - Complex.exp (-x)) (by rw [h, sub_self]) h1
    have e : BoseFermiSpec.target 1 = fun x => 1 / (1 - Complex.exp (-x)) := by funext x; rw [BoseFermiSpec.target, if_pos rfl]
    rw [e]
    exact this
  · simp only [if_neg (show ¬ (2 : ℕ) = 1 by norm_num)] at h
    have h1 := h0.const_add 1
    rw [h, neg_neg] at h1
    have := residue_of_deriv (D := fun x : ℂ => 1 + Complex.exp (-x)) (by rw [h]; norm_num) h1
    have e : BoseFermiSpec.target 2 = fun x => 1 / (1 + Complex.exp (-x)) := by funext x; rw [BoseFermiSpec.target, if_neg (by norm_num)]
    rw [e]
    exact this

/-- `MSD(N, BoseFermi)`: never fails, and
* the values `p` are exactly the `p > 0` up to `2 N pi` for which the function has a pole at `i p`, in increasing order, and all poles are on the imaginary axis;
* the returned residues are the residues of the function at `i p` and at `-i p`;
* there are no further terms, and the decomposition converges to the function for growing `N`, at every complex point which is not a pole. -/
theorem C76_msd {bf : ℕ} (hbf : bf = 1 ∨ bf = 2) :
    ∃ poles residues : ℕ → List ℝ, (∀ N, msd N bf = .ok (poles N, residues N, 0, 0)) ∧
      (∀ N, (poles N).length = N ∧ (residues N).length = N ∧ (poles N).Pairwise (· < ·) ∧
        (∀ p, p ∈ poles N ↔ 0 < p ∧ p ≤ 2 * N * Real.pi ∧ Complex.exp (-(Complex.I * p)) = if bf = 1 then 1 else -1) ∧
        ∀ p r, (p, r) ∈ (poles N).zip (residues N) →
          BathSpec.HasResidue (BoseFermiSpec.target bf) (Complex.I * p) r ∧ BathSpec.HasResidue (BoseFermiSpec.target bf) (-(Complex.I * p)) r) ∧
      (∀ x : ℂ, Complex.exp (-x) = (if bf = 1 then 1 else -1) → x.re = 0) ∧
      ∀ x : ℂ, Complex.exp (-x) ≠ (if bf = 1 then 1 else -1) →
        Tendsto (fun N => BoseFermiSpec.approx bf (poles N) (residues N) 0 0 x) atTop (𝓝 (BoseFermiSpec.target bf x)) := by
  refine ⟨fun N => (List.range N).map (pk bf), fun N => List.replicate N 1, fun N => msd_eq hbf N, fun N => ⟨by simp, by simp, ?_, fun p => ⟨?_, ?_⟩, ?_⟩, ?_, ?_⟩
  · rw [List.pairwise_map]
    exact List.pairwise_lt_range.imp fun h => pk_lt bf h
  · intro hp
    obtain ⟨i, hi, rfl⟩ := List.mem_map.1 hp
    exact ⟨pk_pos bf i, pk_le hbf (List.mem_range.1 hi), pk_exp hbf i⟩
  · rintro ⟨h0, h1, h2⟩
    obtain ⟨i, rfl⟩ := pk_of_exp hbf h0 h2
    refine List.mem_map.2 ⟨i, List.mem_range.2 ?_, rfl⟩
    by_contra hi
    exact absurd h1 (not_le.2 (pk_gt hbf (not_lt.1 hi)))
  · intro p r hpr
    have hr : r = 1 := List.eq_of_mem_replicate (List.of_mem_zip hpr).2
    obtain ⟨i, hi, rfl⟩ := List.mem_map.1 (List.of_mem_zip hpr).1
    subst hr
    have h1 := pk_exp hbf i
    refine ⟨target_residue hbf h1, target_residue hbf ?_⟩
    rw [neg_neg]
    rw [Complex.exp_neg] at h1
    have h2 := inv_eq_iff_eq_inv.1 h1
    rw [h2]
    split_ifs <;> norm_num
  · intro x hx
    have h1 : ‖Complex.exp (-x)‖ = 1 := by rw [hx]; split_ifs <;> simp
    rw [Complex.norm_exp, Real.exp_eq_one_iff, Complex.neg_re, neg_eq_zero] at h1
    exact h1
  · intro x hx
    simp only [approx_eq]
    rcases hbf with rfl | rfl
    · simp only [if_true] at hx ⊢
      have h := (series (x := x) fun h => hx (by rw [Complex.exp_neg, h, inv_one])).const_add (1 / x + 1 / 2)
      have e : 1 / x + 1 / 2 + (1 / (1 - Complex.exp (-x)) - 1 / x - 1 / 2) = BoseFermiSpec.target 1 x := by
        rw [BoseFermiSpec.target, if_pos rfl]; ring
      rw [e] at h
      refine h.congr fun n => ?_
      simp only [pk, if_true]
      push_cast
      rfl
    · simp only [if_neg (show ¬ (2 : ℕ) = 1 by norm_num)] at hx ⊢
      have h := (series_odd (x := x) fun h => hx (by rw [Complex.exp_neg, h]; norm_num)).const_add (0 + 1 / 2)
      have e : 0 + 1 / 2 + (1 / (1 + Complex.exp (-x)) - 1 / 2) = BoseFermiSpec.target 2 x := by
        rw [BoseFermiSpec.target, if_neg (by norm_num)]; ring
      rw [e] at h
      refine h.congr fun n => ?_
      simp only [pk, if_neg (show ¬ (2 : ℕ) = 1 by norm_num)]
      push_cast
      rfl

/-- `PSD(N, BoseFermi, 0)` is the same. Other values of the arguments are rejected. -/
theorem C76_arguments (eigvals third) (N : ℕ) {bf : ℕ} :
    (bf = 1 ∨ bf = 2 → psd eigvals third N bf 0 = msd N bf) ∧ (¬ (bf = 1 ∨ bf = 2) → msd N bf = .error .assertionError) := by
  constructor
  · intro h
    unfold psd
    rw [if_neg (by omega), if_pos rfl]
  · intro h
    unfold msd
    rw [if_neg (by omega), if_neg (by omega)]

/-- The Fermi function at 0 is not excluded. -/
example : Complex.exp (-(0 : ℂ)) ≠ (if 2 = 1 then 1 else -1) := by norm_num

end BoseFermi
