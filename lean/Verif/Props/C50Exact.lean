import Verif.Lemmas.DavidsonExact
import Verif.Props.C50

/-! C50: the Davidson iteration started with an eigenvector. -/

open Py

namespace Davidson

/-- **C50.** If the only start vector is a normalised eigenvector of a symmetric operator, `kernel()` returns it, up to its sign, with its
eigenvalue, for all settings with at least one cycle. -/
theorem C50_exact_start {N : ℕ} {cfg : Config} {lib : Lib N} {A : Vec N → Vec N} (h1 : OrthOk lib.orth) (h2 : EighOk lib.eigh) (hA : Symmetric A)
    (hl : 0 ≤ cfg.linDepLim) (hm : 0 < cfg.maxCycle) {v : Vec N} {E : ℝ} (hv : dot v v = 1) (hAv : ∀ c, A (scale c v) = scale (c * E) v)
    (ho : lib.orth [v] ≠ []) (he : ∀ a, ∃ r, lib.eigh 1 a 1 = .ok r) :
    ∃ c, c * c = 1 ∧ kernel cfg lib (init cfg A [v] 1 none) = .ok ([E], [scale c v]) :=
  exact_kernel h1 h2 hA hl hm hv hAv ho he

/-- A diagonal operator and one of its eigenvectors. -/
noncomputable def exDiag (x : Vec 2) : Vec 2 := fun i => (if i = 1 then 2 else 1) * x i
noncomputable def exUnit : Vec 2 := fun i => if i = 1 then 1 else 0
example : Symmetric exDiag ∧ dot exUnit exUnit = 1 ∧ ∀ c, exDiag (scale c exUnit) = scale (c * 2) exUnit := by
  refine ⟨fun x y => ?_, ?_, fun c => ?_⟩
  · unfold dot exDiag
    exact Finset.sum_congr rfl fun i _ => by ring
  · simp [dot, exUnit]
  · funext i
    fin_cases i
    · simp [exDiag, exUnit, scale]
    · simp [exDiag, exUnit, scale]
      ring

/-- The convergence test itself, for a state that has the Ritz values of the cycle before: it answers yes exactly if there are as many values
as before, and for every value the squared residual norm and the change are both below `tol`. (No run reaches this: `C50_never_stops`.) -/
theorem C50_convergence_test {N : ℕ} (cfg : Config) (s : State N) {last vals : List ℝ} (hl : s.lastRitz = some last) (hv : s.ritzVals = some vals)
    (hr : s.residualNorms.length = vals.length) :
    ∃ s' b, isConverged cfg s = .ok (s', b) ∧ s'.convergence.length = vals.length ∧
      (b = true ↔ last.length = vals.length ∧
        ∀ i < vals.length, (s.residualNorms.getD i 0) ^ 2 < cfg.tol ∧ |last.getD i 0 - vals.getD i 0| < cfg.tol) ∧
      (last.length = vals.length → ∀ i < vals.length,
        s'.convergence[i]? = some (decide ((s.residualNorms.getD i 0) ^ 2 < cfg.tol ∧ |last.getD i 0 - vals.getD i 0| < cfg.tol))) := by
  unfold isConverged
  rw [hv, hl]
  by_cases h : last.length = vals.length
  · have e : ∀ i < vals.length, (List.zipWith (fun nrm d : ℝ => decide (nrm ^ 2 < cfg.tol ∧ d < cfg.tol)) s.residualNorms
        (List.zipWith (fun a b : ℝ => |a - b|) last vals))[i]? =
        some (decide ((s.residualNorms.getD i 0) ^ 2 < cfg.tol ∧ |last.getD i 0 - vals.getD i 0| < cfg.tol)) := by
      intro i hi
      rw [List.getD_eq_getElem _ _ (by omega), List.getD_eq_getElem _ _ (by omega), List.getD_eq_getElem _ _ hi]
      rw [List.getElem?_eq_getElem (by simp; omega)]
      simp
    have l : (List.zipWith (fun nrm d : ℝ => decide (nrm ^ 2 < cfg.tol ∧ d < cfg.tol)) s.residualNorms
        (List.zipWith (fun a b : ℝ => |a - b|) last vals)).length = vals.length := by simp; omega
    refine ⟨_, _, by simp only [ok_bind]; rw [if_neg (not_not.2 h)]; rfl, l, ?_, fun _ => e⟩
    rw [List.all_eq_true]
    constructor
    · intro hall
      refine ⟨h, fun i hi => ?_⟩
      have := hall _ (List.mem_of_getElem? (e i hi))
      simpa using this
    · rintro ⟨-, hall⟩ x hx
      obtain ⟨i, hi⟩ := List.mem_iff_getElem?.1 hx
      have hi' : i < vals.length := by
        rw [← l]; exact (List.getElem?_eq_some_iff.1 hi).1
      rw [e i hi'] at hi
      rw [← Option.some.inj hi]
      simpa using hall i hi'
  · refine ⟨_, _, by simp only [ok_bind]; rw [if_pos h]; rfl, by simp, ?_, fun hc => absurd hc h⟩
    simp [h]

/-- A restart begins anew with the Ritz vectors as trial vectors: it keeps the operator, the number of values and the Ritz values. -/
theorem C50_restart_state {N : ℕ} {cfg : Config} {s s' : State N} (h : restart cfg s = .ok s') :
    ∃ vecs, ritzVecs s = .ok vecs ∧ s'.trial = vecs ∧ s'.search = [] ∧ s'.column = [] ∧ s'.matvec = s.matvec ∧ s'.nVals = s.nVals ∧
      s'.ritzVals = s.ritzVals ∧ s'.coefs = none ∧ s'.maxSpace = cfg.maxSpace + 3 * s.nVals := by
  unfold restart at h
  obtain ⟨vecs, hv, h⟩ := bind_eq_ok.mp h
  cases h
  exact ⟨vecs, hv, rfl, rfl, rfl, rfl, rfl, rfl, rfl, rfl⟩

end Davidson
