import Verif.Lemmas.Pade3
import Mathlib.Analysis.Matrix.Spectrum
import Mathlib.Data.Multiset.Sort
import Mathlib.Analysis.SpecificLimits.Normed

/-!
C71: `Drude.pade(n)` is the Padé approximant of the Bose function with `n` pairs of poles.
-/

open scoped BigOperators Nat Topology
open Polynomial Py Filter

namespace Pade

/-- For every `n` and every eigenvalue solver, `pade n` does not fail (no division by zero occurs). It returns `n` positive residues and `n` real
poles, positive and in increasing order. The function with these poles and residues agrees with the Bose function to order `4 n` at 0, and at
every real `x` the error is at most `(|x| / 4) (x² / 4)^(2 n) / ((4 n + 1)‼ (4 n + 3)‼)`. -/
theorem C71_pade {eigvals : List ℝ → List ℝ → List ℝ} (hS : PadeSpec.Solver eigvals) (n : ℕ) :
    ∃ poles residues : List ℝ, Corr.pade eigvals n = .ok (poles.map (fun x : ℝ => (x : ℂ)), residues.map (fun x : ℝ => (x : ℂ))) ∧
      poles.length = n ∧ residues.length = n ∧ (∀ p ∈ poles, 0 < p) ∧ poles.Pairwise (· < ·) ∧ (∀ r ∈ residues, 0 < r) ∧
      (fun x => PadeSpec.bose x - PadeSpec.approx (poles.map (fun x : ℝ => (x : ℂ))) (residues.map (fun x : ℝ => (x : ℂ))) x)
        =O[𝓝[≠] 0] (fun x => x ^ (4 * n + 1)) ∧
      ∀ x : ℝ, x ≠ 0 →
        ‖PadeSpec.bose x - PadeSpec.approx (poles.map (fun x : ℝ => (x : ℂ))) (residues.map (fun x : ℝ => (x : ℂ))) x‖ ≤
          |x| / 4 * (x ^ 2 / 4) ^ (2 * n) / ((4 * n + 1)‼ * (4 * n + 3)‼) := by
  obtain ⟨poles, residues, hok, hp, hr, hpos, hmono, hres, herr⟩ := pade_error hS n
  refine ⟨poles, residues, hok, hp, hr, hpos, hmono, hres, ?_, fun x hx => ?_⟩
  · have hw : Tendsto (fun x : ℂ => x ^ 2 / 4) (𝓝 0) (𝓝 0) := by
      have : Continuous fun x : ℂ => x ^ 2 / 4 := by fun_prop
      simpa using this.tendsto 0
    have hD : Tendsto (fun x : ℂ => cont (x ^ 2 / 4) (2 * n) (fun i => (bb i : ℂ))) (𝓝 0) (𝓝 (∏ i ∈ Finset.range (2 * n), (bb i : ℂ))) := by
      have h := ((cont_continuous (2 * n) fun i => (bb i : ℂ)).tendsto 0).comp hw
      rwa [cont_zero] at h
    have hB : (∏ i ∈ Finset.range (2 * n), (bb i : ℂ)) ≠ 0 := Finset.prod_ne_zero_iff.2 fun i _ => by exact Complex.ofReal_ne_zero.2 (bb_pos i).ne'
    have hq : Tendsto (fun x : ℂ => (gs 0 (x ^ 2 / 4) * cont (x ^ 2 / 4) (2 * n) (fun i => (bb i : ℂ)))⁻¹) (𝓝 0) (𝓝 (1 * ∏ i ∈ Finset.range (2 * n), (bb i : ℂ))⁻¹) :=
      (gs_zero_tendsto.mul hD).inv₀ (by rwa [one_mul])
    have hb : (fun x : ℂ => gs (2 * n + 1) (x ^ 2 / 4)) =O[𝓝 0] (fun _ => (1 : ℂ)) := by
      have he : Tendsto (fun x : ℂ => Real.exp ‖x ^ 2 / 4‖) (𝓝 0) (𝓝 (Real.exp 0)) := by
        have : Continuous fun x : ℂ => Real.exp ‖x ^ 2 / 4‖ := by fun_prop
        simpa using this.tendsto 0
      refine (Asymptotics.IsBigO.of_bound 1 (Eventually.of_forall fun x => ?_)).trans (he.isBigO_one ℂ)
      rw [one_mul, Real.norm_eq_abs, abs_of_pos (Real.exp_pos _)]
      exact gs_bound _ _
    have hO := (((Asymptotics.isBigO_refl (fun x : ℂ => x ^ (4 * n + 1)) (𝓝 0)).mul hb).mul (hq.isBigO_one ℂ)).const_mul_left ((1 / 4 : ℂ) ^ (2 * n + 1))
    simp only [mul_one] at hO
    refine (hO.mono nhdsWithin_le_nhds).congr' ?_ EventuallyEq.rfl
    have h1 : ∀ᶠ x : ℂ in 𝓝[≠] 0, gs 0 (x ^ 2 / 4) ≠ 0 := nhdsWithin_le_nhds (gs_zero_tendsto.eventually_ne one_ne_zero)
    have h2 : ∀ᶠ x : ℂ in 𝓝[≠] 0, cont (x ^ 2 / 4) (2 * n) (fun i => (bb i : ℂ)) ≠ 0 := nhdsWithin_le_nhds (hD.eventually_ne hB)
    filter_upwards [h1, h2, self_mem_nhdsWithin] with x h1 h2 h3
    have e : (x ^ 2 / 4) ^ (2 * n) = x ^ (4 * n) / 4 ^ (2 * n) := by rw [div_pow, ← pow_mul]; congr 2; ring
    rw [herr x h3 h1 h2, e, pow_succ x, pow_succ (1 / 4 : ℂ), div_pow, one_pow]
    ring
  · have hw : 0 ≤ x ^ 2 / 4 := by positivity
    have hcast : ((x : ℂ) ^ 2 / 4) = ((x ^ 2 / 4 : ℝ) : ℂ) := by push_cast; rfl
    have hg0 := gr_pos 0 hw
    have hg1 := gr_pos (2 * n + 1) hw
    have hc := cont_ge hw (2 * n) bb_pos
    have hprod : ∏ i ∈ Finset.range (2 * n), bb i = (4 * n + 1)‼ := by
      have := odd_prod (2 * n)
      rwa [show 2 * (2 * n) + 1 = 4 * n + 1 by ring] at this
    have hdf1 : (0 : ℝ) < (4 * n + 1)‼ := by exact_mod_cast Nat.doubleFactorial_pos _
    have hdf3 : (0 : ℝ) < (4 * n + 3)‼ := by exact_mod_cast Nat.doubleFactorial_pos _
    rw [hprod] at hc
    have hcp : 0 < cont (x ^ 2 / 4) (2 * n) bb := hdf1.trans_le hc
    have hle := gr_le (2 * n + 1) hw
    rw [show 2 * (2 * n + 1) + 1 = 4 * n + 3 by ring] at hle
    rw [herr x (Complex.ofReal_ne_zero.2 hx) (by rw [hcast, gr_eq]; exact Complex.ofReal_ne_zero.2 hg0.ne')
      (by rw [hcast, ← cont_cast]; exact Complex.ofReal_ne_zero.2 hcp.ne')]
    rw [hcast, gr_eq, gr_eq, ← cont_cast]
    have e : (x : ℂ) / 4 * (((x ^ 2 / 4 : ℝ) : ℂ) ^ (2 * n) * (gr (2 * n + 1) (x ^ 2 / 4) : ℂ) / ((gr 0 (x ^ 2 / 4) : ℂ) * (cont (x ^ 2 / 4) (2 * n) bb : ℝ))) =
        ((x / 4 * ((x ^ 2 / 4) ^ (2 * n) * gr (2 * n + 1) (x ^ 2 / 4) / (gr 0 (x ^ 2 / 4) * cont (x ^ 2 / 4) (2 * n) bb)) : ℝ) : ℂ) := by
      push_cast; rfl
    rw [e, Complex.norm_real, Real.norm_eq_abs, abs_mul, abs_div, abs_of_pos (four_pos : (0 : ℝ) < 4), mul_div_assoc (|x| / 4)]
    refine mul_le_mul_of_nonneg_left ?_ (by positivity : 0 ≤ |x| / 4)
    have hnn : 0 ≤ (x ^ 2 / 4) ^ (2 * n) * gr (2 * n + 1) (x ^ 2 / 4) / (gr 0 (x ^ 2 / 4) * cont (x ^ 2 / 4) (2 * n) bb) := by positivity
    rw [abs_of_nonneg hnn, mul_div_assoc, div_eq_mul_one_div ((x ^ 2 / 4) ^ (2 * n))]
    refine mul_le_mul_of_nonneg_left ?_ (pow_nonneg hw _)
    rw [div_le_div_iff₀ (by positivity) (by positivity)]
    calc gr (2 * n + 1) (x ^ 2 / 4) * ((4 * n + 1)‼ * (4 * n + 3)‼) = (gr (2 * n + 1) (x ^ 2 / 4) * (4 * n + 3)‼) * (4 * n + 1)‼ := by ring
      _ ≤ gr 0 (x ^ 2 / 4) * cont (x ^ 2 / 4) (2 * n) bb := by gcongr
      _ = 1 * (gr 0 (x ^ 2 / 4) * cont (x ^ 2 / 4) (2 * n) bb) := by ring

/-- With more poles the approximation converges to the Bose function at every real point. -/
theorem C71_convergence {eigvals : List ℝ → List ℝ → List ℝ} (hS : PadeSpec.Solver eigvals) {x : ℝ} (hx : x ≠ 0) {ε : ℝ} (hε : 0 < ε) :
    ∃ n₀, ∀ n ≥ n₀, ∃ poles residues, Corr.pade eigvals n = .ok (poles, residues) ∧ ‖PadeSpec.bose x - PadeSpec.approx poles residues x‖ < ε := by
  have h1 := (FloorSemiring.tendsto_pow_div_factorial_atTop (x ^ 2 / 4)).const_mul (|x| / 4)
  rw [mul_zero] at h1
  obtain ⟨n₀, hn⟩ := (h1.eventually (gt_mem_nhds hε)).exists_forall_of_atTop
  refine ⟨n₀, fun n hn' => ?_⟩
  obtain ⟨poles, residues, hok, -, -, -, -, -, -, hb⟩ := C71_pade hS n
  refine ⟨_, _, hok, (hb x hx).trans_lt (lt_of_le_of_lt ?_ (hn (2 * n) (by omega)))⟩
  rw [mul_div_assoc]
  refine mul_le_mul_of_nonneg_left ?_ (by positivity)
  refine div_le_div_of_nonneg_left (by positivity) (by exact_mod_cast Nat.factorial_pos _) ?_
  have h2 : (2 * n)! ≤ (4 * n + 1)‼ := by
    have h : ∀ m, m ! ≤ (2 * m + 1)‼ := by
      intro m
      induction m with
      | zero => simp [Nat.doubleFactorial]
      | succ m ih =>
        rw [show 2 * (m + 1) + 1 = (2 * m + 1) + 2 by ring, Nat.doubleFactorial_add_two, Nat.factorial_succ]
        exact Nat.mul_le_mul (by omega) ih
    have := h (2 * n)
    rwa [show 2 * (2 * n) + 1 = 4 * n + 1 by ring] at this
  exact_mod_cast h2.trans (Nat.le_mul_of_pos_right _ (Nat.doubleFactorial_pos _))

/-! There is such a solver: the eigenvalues of a symmetric matrix, sorted. -/

theorem tridiag_hermitian (diag sub : List ℝ) : (PadeSpec.tridiag diag sub).IsHermitian := by
  ext i j
  simp only [Matrix.conjTranspose_apply, PadeSpec.tridiag, star_trivial]
  by_cases h : j = i
  · subst h; rfl
  · rw [if_neg h, if_neg (Ne.symm h)]
    by_cases h1 : (j : ℕ) + 1 = i
    · rw [if_pos h1, if_neg (by omega), if_pos h1]
    · rw [if_neg h1]
      by_cases h2 : (i : ℕ) + 1 = j
      · rw [if_pos h2, if_pos h2]
      · rw [if_neg h2, if_neg h2, if_neg h1]

noncomputable def exactSolver (diag sub : List ℝ) : List ℝ := (PadeSpec.tridiag diag sub).charpoly.roots.sort (· ≥ ·)

theorem exactSolver_ok : PadeSpec.Solver exactSolver where
  sorted diag sub := Multiset.pairwise_sort _ _
  all diag sub := by
    have h := (tridiag_hermitian diag sub).charpoly_eq
    unfold exactSolver
    rw [← Multiset.prod_coe, ← Multiset.map_coe, Multiset.sort_eq]
    simp only [RCLike.ofReal_real_eq_id, id_eq] at h
    rw [h, roots_prod _ _ (Finset.prod_ne_zero_iff.2 fun i _ => X_sub_C_ne_zero _)]
    simp only [roots_X_sub_C, Multiset.bind_singleton, Multiset.map_map]
    rfl

example (n : ℕ) : ∃ poles residues : List ℝ, Corr.pade exactSolver n = .ok (poles.map (fun x : ℝ => (x : ℂ)), residues.map (fun x : ℝ => (x : ℂ))) ∧
    poles.length = n := by
  obtain ⟨p, r, h, hp, -⟩ := C71_pade exactSolver_ok n
  exact ⟨p, r, h, hp⟩

end Pade
