import Verif.Props.C116
import Verif.Lemmas.GridProp2
import Verif.Lemmas.Splitting
import Mathlib.Analysis.Normed.Module.FiniteDimension
import Mathlib.Analysis.Calculus.MeanValue
import Mathlib.Analysis.SpecialFunctions.Exponential
import Mathlib.Analysis.Normed.Operator.Mul
import Mathlib.Analysis.Calculus.Deriv.Pi
import Mathlib.Analysis.Calculus.Deriv.Prod
import Mathlib.Topology.UniformSpace.HeineCantor

/-! C116: for smaller and smaller steps the propagation on a grid tends to the solution of the Schrödinger equation on the grid. -/

open Py
open scoped BigOperators

namespace Grids

/-- `ψ` solves the Schrödinger equation on the grid, `iħ ψ' = V(t) ψ + F⁻¹ (T(t) · F ψ)`, where `F` is the transformation to the conjugate grid and
`F⁻¹` the one back (C41). -/
def Schrodinger (P : Propagator) (ψ : ℝ → List ℂ) : Prop :=
  ∃ c, P.basis.getConj = .ok c ∧ ∀ t, (ψ t).length = P.basis.basis.xs.length ∧ ∃ φ χ, P.basis.ft (ψ t) = .ok φ ∧
    c.ft (List.zipWith (fun p y => P.conjFunc t p * y) c.basis.xs φ) = .ok χ ∧
    ∀ i < P.basis.basis.xs.length, HasDerivAt (fun s => (ψ s).getD i 0)
      (-Complex.I / P.basis.basis.hbar * (P.func t (P.basis.basis.xs.getD i 0) * (ψ t).getD i 0 + χ.getD i 0)) t

private theorem ofFn_getD {n : ℕ} {l : List ℂ} (h : l.length = n) : List.ofFn (fun i : Fin n => l.getD i 0) = l := by
  refine List.ext_getElem (by simp [h]) fun i h1 h2 => ?_
  rw [List.getElem_ofFn]
  exact List.getD_eq_getElem _ _ h2

private theorem getD_ofFn {n : ℕ} (x : Fin n → ℂ) (i : Fin n) : (List.ofFn x).getD i 0 = x i := by
  rw [List.getD_eq_getElem _ _ (by simp), List.getElem_ofFn]

open Splitting

/-- One step as a splitting. -/
private theorem step_split {P : Propagator} {b : Basis} (hP : P.basis = .new b) (hb : b.Fine) : ∃ c, P.basis.getConj = .ok c ∧
    c.basis.xs.length = b.xs.length ∧ ∃ F G : (Fin b.xs.length → ℂ) →L[ℂ] (Fin b.xs.length → ℂ), (∀ x, G (F x) = x) ∧
    (∀ x, P.basis.ft (List.ofFn x) = .ok (List.ofFn (F x))) ∧ (∀ x, c.ft (List.ofFn x) = .ok (List.ofFn (G x))) ∧
    ∀ (h t : ℝ) x, P.step h t (List.ofFn x) = .ok (List.ofFn (split F G (h • fun i : Fin b.xs.length => -Complex.I / b.hbar * P.func t (b.xs.getD i 0))
      (h • fun i : Fin b.xs.length => -Complex.I / b.hbar * P.conjFunc t (c.basis.xs.getD i 0)) x)) := by
  obtain ⟨v, hv, h0⟩ := hb.width
  obtain ⟨c, c1, c2, c3, c4⟩ := dual_new b hv h0 hb.two hb.hbar
  obtain ⟨⟨F, hF⟩, ⟨G, hG⟩⟩ := lin_new b hv h0 hb.two hb.hbar c1
  obtain ⟨κ, -, d⟩ := c3.rescale
  refine ⟨c, by rw [hP]; exact c1, c2, LinearMap.toContinuousLinearMap F, LinearMap.toContinuousLinearMap G, ?_, ?_, hG, ?_⟩
  · intro x
    obtain ⟨f, f1, -, -, f2, -⟩ := d (List.ofFn x) (by simp)
    rw [hF] at f1
    injection f1 with f1
    rw [← f1, hG] at f2
    injection f2 with f2
    exact List.ofFn_injective f2
  · intro x; rw [hP]; exact hF x
  · intro h t x
    unfold Propagator.step
    dsimp only
    rw [hP, c1, ok_bind]
    have e1 : (Obj.new b).basis = b := rfl
    rw [e1]
    have ev : ∀ (v : ℂ → ℂ) (xs : List ℂ) (i : ℕ), Complex.exp (-1 * Complex.I * h / 2 / b.hbar * v (xs.getD i 0)) =
        Complex.exp ((1 / 2 : ℂ) * (h * (-Complex.I / b.hbar * v (xs.getD i 0)))) := by
      intro v xs i; congr 1; ring
    have et : ∀ (v : ℂ → ℂ) (xs : List ℂ) (i : ℕ), Complex.exp (-1 * Complex.I * h / b.hbar * v (xs.getD i 0)) =
        Complex.exp (h * (-Complex.I / b.hbar * v (xs.getD i 0))) := by
      intro v xs i; congr 1; ring
    rw [mulExp_ofFn _ _ rfl, hF, ok_bind, mulExp_ofFn _ _ c2, hG, ok_bind, mulExp_ofFn _ _ rfl]
    simp only [ev, et]
    rfl

/-- The wave functions that are yielded, by the steps. -/
private theorem loop_iter {P : Propagator} {n : ℕ} {S : ℝ → ℝ → (Fin n → ℂ) → (Fin n → ℂ)} (hS : ∀ h t x, P.step h t (List.ofFn x) = .ok (List.ofFn (S h t x)))
    (t0 h : ℝ) {y : ℕ → Fin n → ℂ} (hy : ∀ j, y (j + 1) = S h (t0 + j * h) (y j)) (k i : ℕ) (q : ℂ) :
    ∃ ys, P.loop t0 h false k i ⟨List.ofFn (y i), q⟩ = .ok ys ∧ ys.length = k ∧ ∀ j (hj : j < ys.length), ys[j].2.wfn = List.ofFn (y (i + j + 1)) := by
  induction k generalizing i with
  | zero => exact ⟨[], rfl, rfl, fun j hj => by simp at hj⟩
  | succ k ih =>
    obtain ⟨ys, y1, y2, y3⟩ := ih (i + 1)
    refine ⟨(t0 + i * h + h, ⟨List.ofFn (y (i + 1)), q⟩) :: ys, ?_, by simp [y2], ?_⟩
    · unfold Propagator.loop
      dsimp only
      rw [hS, ok_bind, ← hy]
      simp only [Bool.false_eq_true, if_false]
      rw [y1]; rfl
    · intro j hj
      cases j with
      | zero => rfl
      | succ j =>
        rw [List.getElem_cons_succ, y3 j (by simpa using hj), show i + 1 + j + 1 = i + (j + 1) + 1 by omega]

private theorem remainder {n : ℕ} {z D : ℝ → Fin n → ℂ} (hd : ∀ t, HasDerivAt z (D t) t) {t h ε : ℝ} (hh : 0 ≤ h)
    (hε : ∀ s ∈ Set.Icc t (t + h), ‖D s - D t‖ ≤ ε) : ‖z (t + h) - z t - h • D t‖ ≤ ε * h := by
  have h1 : ∀ s ∈ Set.Icc t (t + h), HasDerivWithinAt (fun s => z s - s • D t) (D s - D t) (Set.Icc t (t + h)) s := by
    intro s _
    have h2 : HasDerivAt (fun s : ℝ => s • D t) ((1 : ℝ) • D t) s := (hasDerivAt_id s).smul_const (D t)
    have h3 := (hd s).sub h2
    rw [one_smul] at h3
    exact h3.hasDerivWithinAt
  have h4 := (convex_Icc t (t + h)).norm_image_sub_le_of_norm_hasDerivWithin_le h1 hε (Set.left_mem_Icc.2 (by linarith)) (Set.right_mem_Icc.2 (by linarith))
  rw [add_sub_cancel_left, Real.norm_eq_abs, abs_of_nonneg hh] at h4
  have e : z (t + h) - z t - h • D t = z (t + h) - (t + h) • D t - (z t - t • D t) := by rw [add_smul]; abel
  rw [e]
  exact h4

/-- On every grid with at least two points and non-zero width, for functions that are continuous in time at the points of the grids: if `ψ` solves the
Schrödinger equation on the grid, the propagation from `ψ(t0)` with `N` steps of length `T / N` is as close to `ψ` as wanted at all times and all
points, for `N` large enough. -/
theorem C116_converges {P : Propagator} {b : Basis} (hP : P.basis = .new b) (hb : b.Fine) (hV : ∀ x, Continuous fun t => P.func t x)
    (hK : ∀ x, Continuous fun t => P.conjFunc t x) {ψ : ℝ → List ℂ} (hψ : Schrodinger P ψ) (t0 : ℝ) {T : ℝ} (hT : 0 < T) {ε : ℝ} (hε : 0 < ε) :
    ∃ N0 : ℕ, ∀ N : ℕ, N0 ≤ N → ∃ ys, P.call t0 (T / N) N false (.new (ψ t0)) = .ok ys ∧ ys.length = N + 1 ∧
      ∀ j (hj : j < ys.length), ∀ i < b.xs.length, ‖ys[j].2.wfn.getD i 0 - (ψ (t0 + j * (T / N))).getD i 0‖ < ε := by
  obtain ⟨c, c1, c2, F, G, hGF, hF, hG, hstep⟩ := step_split hP hb
  obtain ⟨c', c1', hψ⟩ := hψ
  rw [c1] at c1'
  injection c1' with c1'
  subst c1'
  have hbas : P.basis.basis = b := by rw [hP]; rfl
  rw [hbas] at hψ
  set V : ℝ → Fin b.xs.length → ℂ := fun t i => -Complex.I / b.hbar * P.func t (b.xs.getD i 0) with hVdef
  set K : ℝ → Fin b.xs.length → ℂ := fun t i => -Complex.I / b.hbar * P.conjFunc t (c.basis.xs.getD i 0) with hKdef
  set z : ℝ → Fin b.xs.length → ℂ := fun t i => (ψ t).getD i 0 with hzdef
  set D : ℝ → Fin b.xs.length → ℂ := fun t => V t * z t + G (K t * F (z t)) with hDdef
  have hz : ∀ t, List.ofFn (z t) = ψ t := fun t => ofFn_getD (hψ t).1
  have hd : ∀ t, HasDerivAt z (D t) t := by
    intro t
    obtain ⟨-, φ, χ, e1, e2, e3⟩ := hψ t
    rw [← hz t, hF] at e1
    injection e1 with e1
    subst e1
    have e4 : List.zipWith (fun p y => P.conjFunc t p * y) c.basis.xs (List.ofFn (F (z t))) =
        List.ofFn (fun i : Fin b.xs.length => P.conjFunc t (c.basis.xs.getD i 0) * F (z t) i) := by
      refine List.ext_getElem (by simp [c2]) fun i h1 h2 => ?_
      rw [List.getElem_zipWith, List.getElem_ofFn, List.getElem_ofFn]
      dsimp only
      rw [List.getD_eq_getElem]
    rw [e4, hG] at e2
    injection e2 with e2
    subst e2
    refine hasDerivAt_pi.2 fun i => (e3 i i.2).congr_deriv ?_
    have e5 : K t * F (z t) = (-Complex.I / b.hbar : ℂ) • (fun i : Fin b.xs.length => P.conjFunc t (c.basis.xs.getD i 0) * F (z t) i) := by
      funext i
      simp only [hKdef, Pi.mul_apply, Pi.smul_apply, smul_eq_mul]
      ring
    rw [getD_ofFn]
    simp only [hDdef, Pi.add_apply, Pi.mul_apply]
    rw [e5, map_smul]
    simp only [Pi.smul_apply, smul_eq_mul, hVdef, hzdef]
    ring
  have hzc : Continuous z := continuous_iff_continuousAt.2 fun t => (hd t).continuousAt
  have hVc : Continuous V := continuous_pi fun i => continuous_const.mul (hV _)
  have hKc : Continuous K := continuous_pi fun i => continuous_const.mul (hK _)
  have hDc : Continuous D := (hVc.mul hzc).add (G.continuous.comp (hKc.mul (F.continuous.comp hzc)))
  have hI : IsCompact (Set.Icc t0 (t0 + T)) := isCompact_Icc
  obtain ⟨M1, hM1⟩ := hI.exists_bound_of_continuousOn hVc.continuousOn
  obtain ⟨M2, hM2⟩ := hI.exists_bound_of_continuousOn hKc.continuousOn
  obtain ⟨Z, hZ⟩ := hI.exists_bound_of_continuousOn hzc.continuousOn
  have hmem0 : t0 ∈ Set.Icc t0 (t0 + T) := ⟨le_rfl, by linarith⟩
  have hZ0 : 0 ≤ Z := (norm_nonneg _).trans (hZ t0 hmem0)
  set M := max M1 M2 with hM
  have hM0 : 0 ≤ M := ((norm_nonneg _).trans (hM1 t0 hmem0)).trans (le_max_left _ _)
  set g := ‖G‖ * ‖F‖ with hg
  have g0 : 0 ≤ g := mul_nonneg (norm_nonneg _) (norm_nonneg _)
  set C2 := (2 + 7 * g) * M ^ 2 * Z with hC2
  have hC20 : 0 ≤ C2 := by positivity
  set Q := T * Real.exp (T * M * (2 + 2 * g)) with hQ
  have hQ0 : 0 < Q := by positivity
  set e := ε / (4 * Q) with he
  have he0 : 0 < e := by positivity
  have hu := hI.uniformContinuousOn_of_continuous hDc.continuousOn
  obtain ⟨δ, hδ, hu⟩ := Metric.uniformContinuousOn_iff.1 hu e he0
  set d := min δ (min (1 / (M + 1)) (e / (C2 + 1))) with hdd
  have hd0 : 0 < d := by
    have : 0 < M + 1 := by linarith
    have : 0 < C2 + 1 := by linarith
    rw [hdd]
    refine lt_min hδ (lt_min (by positivity) (by positivity))
  obtain ⟨N0, hN0⟩ := exists_nat_gt (T / d)
  refine ⟨N0, fun N hN => ?_⟩
  have hNpos : (0 : ℝ) < N := by
    have h1 : 0 < T / d := by positivity
    have h2 : (N0 : ℝ) ≤ N := by exact_mod_cast hN
    linarith
  set h := T / (N : ℝ) with hh
  have hh0 : 0 < h := by positivity
  have hNh : (N : ℝ) * h = T := by rw [hh]; field_simp
  have hhd : h < d := by
    have h2 : (N0 : ℝ) ≤ N := by exact_mod_cast hN
    rw [hh, div_lt_iff₀ hNpos]
    rw [div_lt_iff₀ hd0] at hN0
    nlinarith
  have hhδ : h < δ := hhd.trans_le (min_le_left _ _)
  have hhM : h * M ≤ 1 := by
    have h1 : h < 1 / (M + 1) := hhd.trans_le ((min_le_right _ _).trans (min_le_left _ _))
    rw [lt_div_iff₀ (by linarith)] at h1
    nlinarith
  have hhC : C2 * h ≤ e := by
    have h1 : h < e / (C2 + 1) := hhd.trans_le ((min_le_right _ _).trans (min_le_right _ _))
    rw [lt_div_iff₀ (by linarith)] at h1
    nlinarith
  have hjh : ∀ j : ℕ, j ≤ N → (j : ℝ) * h ≤ T := by
    intro j hj
    have : (j : ℝ) ≤ N := by exact_mod_cast hj
    nlinarith
  have hmem : ∀ j : ℕ, j ≤ N → t0 + j * h ∈ Set.Icc t0 (t0 + T) := by
    intro j hj
    have := hjh j hj
    have : 0 ≤ (j : ℝ) * h := by positivity
    exact ⟨by linarith, by linarith⟩
  have bV : ∀ j : ℕ, j ≤ N → ‖h • V (t0 + j * h)‖ ≤ h * M := by
    intro j hj
    rw [norm_smul, Real.norm_eq_abs, abs_of_pos hh0]
    exact mul_le_mul_of_nonneg_left ((hM1 _ (hmem j hj)).trans (le_max_left _ _)) hh0.le
  have bK : ∀ j : ℕ, j ≤ N → ‖h • K (t0 + j * h)‖ ≤ h * M := by
    intro j hj
    rw [norm_smul, Real.norm_eq_abs, abs_of_pos hh0]
    exact mul_le_mul_of_nonneg_left ((hM2 _ (hmem j hj)).trans (le_max_right _ _)) hh0.le
  set S : ℝ → ℝ → (Fin b.xs.length → ℂ) → (Fin b.xs.length → ℂ) := fun h t x => split F G (h • V t) (h • K t) x with hSdef
  set y : ℕ → Fin b.xs.length → ℂ := fun j => Nat.rec (z t0) (fun j x => S h (t0 + j * h) x) j with hydef
  have hy : ∀ j, y (j + 1) = S h (t0 + j * h) (y j) := fun j => rfl
  have loc : ∀ j : ℕ, j < N → ‖z (t0 + (j + 1 : ℕ) * h) - S h (t0 + j * h) (z (t0 + j * h))‖ ≤ 2 * e * h := by
    intro j hj
    set t := t0 + (j : ℝ) * h with ht
    have h1 : t0 + ((j + 1 : ℕ) : ℝ) * h = t + h := by rw [ht]; push_cast; ring
    rw [h1]
    have m1 := hmem j hj.le
    have m2 := hmem (j + 1) hj
    rw [h1] at m2
    have r1 : ‖z (t + h) - z t - h • D t‖ ≤ e * h := by
      refine remainder hd hh0.le fun s hs => ?_
      have h2 := hu s ⟨m1.1.trans hs.1, hs.2.trans m2.2⟩ t m1 (by
        rw [Real.dist_eq, abs_of_nonneg (by linarith [hs.1])]
        linarith [hs.2])
      rw [dist_eq_norm] at h2
      exact h2.le
    have r2 := split_error hGF (bV j hj.le) (bK j hj.le) hhM (z t)
    rw [← ht, ← hg] at r2
    have e6 : (h • V t) * z t + G ((h • K t) * F (z t)) = h • D t := by
      rw [hDdef]
      dsimp only
      rw [smul_add, smul_mul_assoc, smul_mul_assoc]
      congr 1
      exact (G.restrictScalars ℝ).map_smul h _
    rw [e6] at r2
    have r3 : (2 + 7 * g) * (h * M) ^ 2 * ‖z t‖ ≤ e * h := by
      have : (2 + 7 * g) * (h * M) ^ 2 * ‖z t‖ ≤ (2 + 7 * g) * (h * M) ^ 2 * Z := mul_le_mul_of_nonneg_left (hZ t m1) (by positivity)
      have h3 : (2 + 7 * g) * (h * M) ^ 2 * Z = C2 * h * h := by rw [hC2]; ring
      rw [h3] at this
      exact this.trans (mul_le_mul_of_nonneg_right hhC hh0.le)
    have e7 : z (t + h) - S h t (z t) = (z (t + h) - z t - h • D t) - (split F G (h • V t) (h • K t) (z t) - z t - h • D t) := by
      rw [hSdef]; dsimp only; abel
    rw [e7]
    refine (norm_sub_le _ _).trans ?_
    linarith
  have stab : ∀ j : ℕ, j < N → ‖S h (t0 + j * h) (y j) - S h (t0 + j * h) (z (t0 + j * h))‖ ≤ Real.exp (h * M * (2 + 2 * g)) * ‖y j - z (t0 + j * h)‖ := by
    intro j hj
    rw [hSdef]
    dsimp only
    rw [split_sub]
    exact split_bound hGF (bV j hj.le) (bK j hj.le) hhM _
  have tel := telescope (S := fun j => S h (t0 + j * h)) (y := y) (z := fun j => z (t0 + j * h)) (c := h * M * (2 + 2 * g)) (η := 2 * e * h) (N := N)
    (by positivity) (by positivity) loc (fun j _ => hy j) stab (by simp [hydef])
  have close : ∀ j : ℕ, j ≤ N → ∀ i : Fin b.xs.length, ‖y j i - z (t0 + j * h) i‖ < ε := by
    intro j hj i
    have h1 := tel j hj
    have h2 := hjh j hj
    have h3 : Real.exp (h * M * (2 + 2 * g) * j) ≤ Real.exp (T * M * (2 + 2 * g)) := by
      refine Real.exp_le_exp.2 ?_
      have : h * M * (2 + 2 * g) * j = (j * h) * (M * (2 + 2 * g)) := by ring
      rw [this, mul_assoc T]
      exact mul_le_mul_of_nonneg_right h2 (by positivity)
    have h4 : (j : ℝ) * (2 * e * h) * Real.exp (h * M * (2 + 2 * g) * j) ≤ 2 * e * Q := by
      have : (j : ℝ) * (2 * e * h) = 2 * e * (j * h) := by ring
      rw [this, mul_assoc, hQ]
      refine mul_le_mul_of_nonneg_left (mul_le_mul h2 h3 (Real.exp_pos _).le hT.le) (by positivity)
    have h5 : 2 * e * Q = ε / 2 := by rw [he]; field_simp; norm_num
    have h6 := norm_le_pi_norm (y j - z (t0 + j * h)) i
    rw [Pi.sub_apply] at h6
    linarith
  obtain ⟨ys, y1, y2, y3⟩ := loop_iter (S := S) (fun h t x => hstep h t x) t0 h hy N 0 1
  refine ⟨(t0, .new (ψ t0)) :: ys, ?_, by simp [y2], ?_⟩
  · unfold Propagator.call
    have : PState.new (ψ t0) = ⟨List.ofFn (y 0), 1⟩ := by
      unfold PState.new
      rw [← hz t0]
      rfl
    rw [this, y1]; rfl
  · intro j hj i hi
    have hj' : j ≤ N := by
      rw [List.length_cons, y2] at hj
      omega
    have key : (((t0, PState.new (ψ t0)) :: ys)[j]).2.wfn = List.ofFn (y j) := by
      cases j with
      | zero => exact (hz t0).symm
      | succ j =>
        rw [List.getElem_cons_succ, y3 j (by simpa using hj)]
        rw [Nat.zero_add]
    rw [key]
    have := close j hj' ⟨i, hi⟩
    rw [← getD_ofFn (y j) ⟨i, hi⟩] at this
    exact this

/-- For functions that do not depend on the time, the Schrödinger equation on the grid has a solution for every initial wave function. -/
theorem C116_solution {P : Propagator} {b : Basis} (hP : P.basis = .new b) (hb : b.Fine) (hf : ∀ t t', P.func t = P.func t')
    (hc : ∀ t t', P.conjFunc t = P.conjFunc t') {init : List ℂ} (hw : init.length = b.xs.length) (t0 : ℝ) : ∃ ψ, Schrodinger P ψ ∧ ψ t0 = init := by
  obtain ⟨c, c1, c2, F, G, hGF, hF, hG, -⟩ := step_split hP hb
  have hbas : P.basis.basis = b := by rw [hP]; rfl
  set a : ℂ := -Complex.I / b.hbar with ha
  set V : Fin b.xs.length → ℂ := fun i => a * P.func 0 (b.xs.getD i 0) with hVdef
  set K : Fin b.xs.length → ℂ := fun i => P.conjFunc 0 (c.basis.xs.getD i 0) with hKdef
  set A : (Fin b.xs.length → ℂ) →L[ℂ] (Fin b.xs.length → ℂ) :=
    ContinuousLinearMap.mul ℂ _ V + a • (G.comp ((ContinuousLinearMap.mul ℂ _ K).comp F)) with hA
  set x0 : Fin b.xs.length → ℂ := fun i => init.getD i 0 with hx0
  set z : ℝ → Fin b.xs.length → ℂ := fun t => NormedSpace.exp ((t - t0) • A) x0 with hz
  have hd : ∀ t, HasDerivAt z (A (z t)) t := by
    intro t
    have h1 : HasDerivAt (fun u : ℝ => NormedSpace.exp (u • A)) (A * NormedSpace.exp ((t - t0) • A)) (t - t0) := hasDerivAt_exp_smul_const' A (t - t0)
    have h2 : HasDerivAt (fun t : ℝ => t - t0) 1 t := (hasDerivAt_id t).sub_const t0
    have h3 := h1.scomp t h2
    rw [one_smul] at h3
    have h4 := ((ContinuousLinearMap.apply ℂ (Fin b.xs.length → ℂ) x0).restrictScalars ℝ).hasFDerivAt.comp_hasDerivAt t h3
    exact h4
  refine ⟨fun t => List.ofFn (z t), ⟨c, c1, fun t => ⟨by simp [hbas], List.ofFn (F (z t)), List.ofFn (G (K * F (z t))), hF _, ?_, ?_⟩⟩, ?_⟩
  · rw [← hG, hc t 0]
    congr 1
    refine List.ext_getElem (by simp [c2]) fun i h1 h2 => ?_
    rw [List.getElem_zipWith, List.getElem_ofFn, List.getElem_ofFn]
    simp only [hKdef, Pi.mul_apply]
    rw [List.getD_eq_getElem]
  · rw [hbas]
    intro i hi
    have h1 := hasDerivAt_pi.1 (hd t) ⟨i, hi⟩
    have e : ∀ y : Fin b.xs.length → ℂ, (List.ofFn y).getD i 0 = y ⟨i, hi⟩ := fun y => getD_ofFn y ⟨i, hi⟩
    simp only [e]
    refine h1.congr_deriv ?_
    rw [hA, hf t 0]
    simp only [ContinuousLinearMap.add_apply, ContinuousLinearMap.smul_apply, ContinuousLinearMap.comp_apply, ContinuousLinearMap.mul_apply', Pi.add_apply,
      Pi.smul_apply, Pi.mul_apply, smul_eq_mul, hVdef]
    ring
  · have : z t0 = x0 := by
      simp only [hz, sub_self]
      have e0 : (0 : ℝ) • A = 0 := zero_smul ℝ A
      rw [e0, NormedSpace.exp_zero]
      rfl
    dsimp only
    rw [this]
    exact ofFn_getD hw

/-- So for every grid, every initial wave function and functions without time, the propagation tends to a solution with this initial value. -/
example : ∃ ψ, Schrodinger exProp ψ ∧ ψ 0 = [0, 1, Complex.I, 0] ∧ ∃ N0 : ℕ, ∀ N : ℕ, N0 ≤ N → ∃ ys, exProp.call 0 (3 / N) N false (.new (ψ 0)) = .ok ys ∧
    ys.length = N + 1 ∧ ∀ j (hj : j < ys.length), ∀ i < (Basis.new .coordinate (-20) 20 4 1).xs.length,
      ‖ys[j].2.wfn.getD i 0 - (ψ (0 + j * (3 / N))).getD i 0‖ < 1 / 1000 := by
  obtain ⟨ψ, h1, h2⟩ := C116_solution (P := exProp) rfl exProp_fine (fun _ _ => rfl) (fun _ _ => rfl) (init := [0, 1, Complex.I, 0])
    (by rw [length_new]; rfl) 0
  exact ⟨ψ, h1, h2, C116_converges rfl exProp_fine (fun _ => continuous_const) (fun _ => continuous_const) h1 0 (by norm_num) (by norm_num)⟩

end Grids
