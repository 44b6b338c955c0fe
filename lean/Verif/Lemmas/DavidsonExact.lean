import Verif.Lemmas.Davidson2
import Mathlib.Tactic.LinearCombination

/-! The Davidson iteration started with an eigenvector. -/

open Py
open scoped BigOperators

namespace Davidson

variable {N : ℕ} {cfg : Config} {lib : Lib N} {A : Vec N → Vec N}

theorem scale_one (v : Vec N) : scale 1 v = v := by funext i; simp [scale]

theorem scale_scale (a b : ℝ) (v : Vec N) : scale a (scale b v) = scale (a * b) v := by funext i; simp [scale, mul_assoc]

/-- The only vectors `orth` can return for one vector of norm 1. -/
theorem orth_one (h : OrthOk lib.orth) {v : Vec N} (hv : dot v v = 1) : lib.orth [v] = [] ∨ ∃ c, c * c = 1 ∧ lib.orth [v] = [scale c v] := by
  have hl := h.length [v]
  cases ho : lib.orth [v] with
  | nil => exact Or.inl rfl
  | cons w l =>
    rw [ho] at hl
    obtain rfl : l = [] := by
      cases l with
      | nil => rfl
      | cons _ _ => simp at hl
    right
    have hw : dot w w = 1 := (h.orthonormal [v]).1 w (by rw [ho]; simp)
    have key : ∀ b, dot b v = 0 → dot b w = 0 := by
      intro b hb
      exact h.span [v] b (fun x hx => by rw [List.mem_singleton.1 hx]; exact hb) w (by rw [ho]; simp)
    set d : Vec N := fun i => w i - dot v w * v i with hd
    have hdv : dot d v = 0 := by
      rw [dot_comm, hd, dot_sub_scale, hv]
      ring
    have hdw := key d hdv
    have hdd : dot d d = 0 := by
      have : dot d d = dot d w - dot v w * dot d v := by
        conv_lhs => rw [show dot d d = dot d (fun i => w i - dot v w * v i) from rfl]
        rw [dot_sub_scale]
      rw [this, hdw, hdv]
      ring
    have hz : ∀ i, d i = 0 := by
      intro i
      have := (Finset.sum_eq_zero_iff_of_nonneg (fun j _ => mul_self_nonneg (d j))).1 hdd i (Finset.mem_univ _)
      exact mul_self_eq_zero.1 this
    have hw' : w = scale (dot v w) v := by
      funext i
      have := hz i
      simp only [hd] at this
      simp only [scale]
      linarith
    refine ⟨dot v w, ?_, by rw [← hw']⟩
    have e1 : dot w w = dot v w * dot w v := by
      conv_lhs => rw [show dot w w = dot w (scale (dot v w) v) by rw [← hw']]
      rw [dot_scale]
    rw [hw, dot_comm w v] at e1
    exact e1.symm

/-- One cycle. -/
theorem exact_cycle (h1 : OrthOk lib.orth) (h2 : EighOk lib.eigh) (hA : Symmetric A) (hl : 0 ≤ cfg.linDepLim) {v : Vec N} {E : ℝ}
    (hv : dot v v = 1) (hAv : ∀ c, A (scale c v) = scale (c * E) v) (ho : lib.orth [v] ≠ []) (he : ∀ a, ∃ r, lib.eigh 1 a 1 = .ok r)
    {s : State N} (h : Ready cfg A 1 s)
    (hs : (s.search = [] ∧ s.trial = [v]) ∨ ((∃ c, c * c = 1 ∧ s.search = [scale c v]) ∧ s.trial = [])) :
    ∃ s', cycle cfg lib false s = .ok (s', false) ∧ (∃ c, c * c = 1 ∧ s'.search = [scale c v]) ∧ s'.trial = [] ∧ s'.ritzVals = some [E] ∧
      ∃ c, c * c = 1 ∧ s'.coefs = some [[c]] := by
  obtain ⟨s1, hs1, hg, -, -, -, hsearch⟩ := grow_ok h1 false h
  have hcases : ∃ c, c * c = 1 ∧ s1.search = [scale c v] := by
    rw [hsearch]
    rcases hs with ⟨ha, hb⟩ | ⟨⟨c, hc1, ha⟩, hb⟩
    · rw [ha]
      unfold orthonormalize
      rw [hb]
      exact (orth_one h1 hv).resolve_left ho
    · refine ⟨c, hc1, ?_⟩
      rw [ha]
      unfold orthonormalize
      rw [hb]
      simp [hb]
  obtain ⟨c, hcc, h0⟩ := hcases
  have hww : dot (scale c v) (scale c v) = 1 := by
    rw [dot_scale, dot_comm, dot_scale, hv]
    linear_combination hcc
  have hlen : s1.search.length = 1 := by rw [h0]; rfl
  have hsub : s1.sub 0 0 = E := by
    rw [hg.proj hA 0 (by rw [hlen]; decide) 0 (by rw [hlen]; decide), h0]
    simp only [List.getD_cons_zero]
    rw [hAv, dot_scale, dot_comm, dot_scale, hv]
    linear_combination E * hcc
  have hcol : s1.column = [scale (c * E) v] := by rw [hg.col, h0, List.map_singleton, hAv]
  obtain ⟨r, he⟩ := he s1.sub
  obtain ⟨vals, vv⟩ := r
  obtain ⟨l1, l2, l3⟩ := h2.length (by decide) (le_refl _) he
  have hsym : ∀ i < 1, ∀ j < 1, s1.sub i j = s1.sub j i := by
    intro i hi j hj
    obtain rfl : i = 0 := by omega
    obtain rfl : j = 0 := by omega
    rfl
  obtain ⟨val, rfl⟩ := List.length_eq_one_iff.1 l1
  obtain ⟨x, rfl⟩ := List.length_eq_one_iff.1 l2
  obtain ⟨g, rfl⟩ := List.length_eq_one_iff.1 (l3 x (by simp))
  have ho := h2.orthonormal (by decide) (le_refl _) hsym he 0 (by decide) 0 (by decide)
  have hv1 := h2.eigen (by decide) (le_refl _) hsym he 0 (by decide) 0 (by decide)
  simp only [Finset.sum_range_one, List.getD_cons_zero, if_true] at ho hv1
  rw [hsub] at hv1
  obtain rfl : E = val := by
    have : (E - val) * (g * g) = 0 := by linear_combination g * hv1
    rw [ho, mul_one] at this
    linarith
  have hr : calcRitzPairs lib s1 = .ok { s1 with ritzVals := some [E], coefs := some [[g]] } := by
    unfold calcRitzPairs
    dsimp only
    rw [hg.vals, hlen, if_neg (by simp), Nat.min_self, he]
    rfl
  have hn : calcResidualNorms { s1 with ritzVals := some [E], coefs := some [[g]] } =
      .ok { s1 with ritzVals := some [E], coefs := some [[g]], residuals := [fun _ => 0], residualNorms := [0] } := by
    have e : (fun i => scale g (scale (c * E) v) i - E * scale g (scale c v) i : Vec N) = fun _ => 0 := by
      funext i
      simp only [scale]
      ring
    have e' : (fun i => 0 + scale g (scale (c * E) v) i - E * (0 + scale g (scale c v) i) : Vec N) = fun _ => 0 := by
      rw [← e]
      funext i
      ring
    unfold calcResidualNorms ritzVecs colRitzVecs
    simp only [h0, hcol, transVec, List.map_cons, List.map_nil, List.zipWith_cons_cons, List.zipWith_nil_left, List.foldl_cons,
      List.foldl_nil, List.zip_cons_cons, List.zip_nil_left, ok_bind]
    rw [e', if_neg (by simp)]
    have hn0 : norm (fun _ => 0 : Vec N) = 0 := by unfold norm; rw [dot_zero, Real.sqrt_zero]
    rw [hn0]
    rfl
  have ht : calcTrialVecs cfg { s1 with
        ritzVals := some [E], coefs := some [[g]], residuals := [fun _ => 0], residualNorms := [0], convergence := [false] } =
      .ok { s1 with
        ritzVals := some [E], coefs := some [[g]], residuals := [fun _ => 0], residualNorms := [0], convergence := [false], trial := [],
        precond := some (s1.precond.getD (davidsonPrecondition cfg s1.matvec)) } := by
    unfold calcTrialVecs ritzVecs trialVec
    have : ¬ (cfg.linDepLim < 0) := not_lt.mpr hl
    simp [h0, this]
  refine ⟨{ s1 with
      ritzVals := some [E], coefs := some [[g]], residuals := [fun _ => 0], residualNorms := [0], convergence := [false], trial := [],
      precond := some (s1.precond.getD (davidsonPrecondition cfg s1.matvec)) }, ?_, ⟨c, hcc, h0⟩, rfl, rfl, g, ho, rfl⟩
  unfold cycle
  rw [hs1, ok_bind]
  simp only [Bool.false_and, Bool.false_eq_true, if_false]
  rw [hr, ok_bind, hn, ok_bind, isConverged_ok (s := { s1 with
    ritzVals := some [E], coefs := some [[g]], residuals := [fun _ => 0], residualNorms := [0] }) (vals := [E]) rfl hg.last, ok_bind]
  dsimp only
  rw [if_neg (by decide), if_neg (by show ¬ (1 + s1.search.length > s1.maxSpace); rw [hg.max, hlen]; omega)]
  exact congrArg (fun r => r >>= fun t => (pure (t, false) : Res (State N × Bool))) ht

theorem exact_loop (h1 : OrthOk lib.orth) (h2 : EighOk lib.eigh) (hA : Symmetric A) (hl : 0 ≤ cfg.linDepLim) {v : Vec N} {E : ℝ}
    (hv : dot v v = 1) (hAv : ∀ c, A (scale c v) = scale (c * E) v) (ho : lib.orth [v] ≠ []) (he : ∀ a, ∃ r, lib.eigh 1 a 1 = .ok r) :
    ∀ (k : ℕ) (s : State N), Ready cfg A 1 s →
    ((s.search = [] ∧ s.trial = [v]) ∨ ((∃ c, c * c = 1 ∧ s.search = [scale c v]) ∧ s.trial = [])) →
    ∃ s', loop cfg lib false (k + 1) s = .ok (s', false, k + 1) ∧
      (∃ c, c * c = 1 ∧ s'.search = [scale c v]) ∧ s'.ritzVals = some [E] ∧ ∃ c, c * c = 1 ∧ s'.coefs = some [[c]] := by
  intro k
  induction k with
  | zero =>
    intro s h hs
    obtain ⟨t, ht, k1, k2, k3, k4⟩ := exact_cycle h1 h2 hA hl hv hAv ho he h hs
    refine ⟨t, ?_, k1, k3, k4⟩
    unfold loop
    rw [ht, ok_bind]
    rfl
  | succ k ih =>
    intro s h hs
    obtain ⟨t, ht, k1, k2, k3, k4⟩ := exact_cycle h1 h2 hA hl hv hAv ho he h hs
    obtain ⟨t', ht', hr⟩ := ih t ((cycle_ok h1 h2 false h).2.1 _ ht) (Or.inr ⟨k1, k2⟩)
    refine ⟨t', ?_, hr⟩
    rw [loop, ht, ok_bind]
    dsimp only
    rw [if_neg (by decide), ht', ok_bind]
    rfl

/-- If the start vector is a normalised eigenvector, `kernel()` returns it, up to its sign, and its eigenvalue. -/
theorem exact_kernel (h1 : OrthOk lib.orth) (h2 : EighOk lib.eigh) (hA : Symmetric A) (hl : 0 ≤ cfg.linDepLim) (hm : 0 < cfg.maxCycle)
    {v : Vec N} {E : ℝ} (hv : dot v v = 1) (hAv : ∀ c, A (scale c v) = scale (c * E) v) (ho : lib.orth [v] ≠ [])
    (he : ∀ a, ∃ r, lib.eigh 1 a 1 = .ok r) : ∃ c, c * c = 1 ∧ kernel cfg lib (init cfg A [v] 1 none) = .ok ([E], [scale c v]) := by
  obtain ⟨k, hk⟩ : ∃ k, cfg.maxCycle = k + 1 := ⟨cfg.maxCycle - 1, by omega⟩
  obtain ⟨s, hl', ⟨a, ha, k1⟩, k2, g, hg, k3⟩ := exact_loop h1 h2 hA hl hv hAv ho he k _
    (init_ready (cfg := cfg) (A := A) (L := [v]) (n := 1) (p := none) (by simp) (fun _ h => by cases h)) (Or.inl ⟨rfl, rfl⟩)
  refine ⟨g * a, by linear_combination ha * (g * g) + hg, ?_⟩
  unfold kernel
  rw [hk, hl', ok_bind]
  dsimp only [ritzVecs]
  rw [k3]
  dsimp only
  rw [ok_bind, k2, k1, ← scale_scale]
  have : transVec [g] [scale a v] = scale g (scale a v) := by
    simp only [transVec, List.zipWith_cons_cons, List.zipWith_nil_left, List.foldl_cons, List.foldl_nil]
    funext i
    ring
  simp only [List.map_cons, List.map_nil, this]
  rfl

end Davidson
