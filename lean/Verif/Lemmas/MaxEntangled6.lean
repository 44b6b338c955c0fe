import Verif.Lemmas.MaxEntangled5
import Verif.Lemmas.MaxEntangled2
import Mathlib.Tactic.FieldSimp

/-!
Lemmas for C108: the search for three vectors with `σ_z ⊗ 1`, from the maximally entangled vector, finds two.
-/

open Py
open scoped BigOperators

namespace Davidson

variable {cfg : Config} {lib : Lib 4} {A : Vec 4 → Vec 4}

/-- `σ_z ⊗ 1` -/
structure SigmaZ (A : Vec 4 → Vec 4) : Prop where
  c0 : ∀ v, A v 0 = v 0
  c1 : ∀ v, A v 1 = v 1
  c2 : ∀ v, A v 2 = -v 2
  c3 : ∀ v, A v 3 = -v 3

theorem dot4 (u v : Vec 4) : dot u v = u 0 * v 0 + u 1 * v 1 + u 2 * v 2 + u 3 * v 3 := by
  unfold dot
  rw [Fin.sum_univ_four]

theorem SigmaZ.symmetric (hA : SigmaZ A) : Symmetric A := by
  intro x y
  rw [dot4, dot4, hA.c0, hA.c1, hA.c2, hA.c3, hA.c0, hA.c1, hA.c2, hA.c3]
  ring

/-- The trial vector of the first cycle. -/
theorem first_trial (hA : SigmaZ A) {v : Vec 4} {c x nr : ℝ} (v0 : v 0 = c) (v1 : v 1 = 0) (v2 : v 2 = 0) (v3 : v 3 = c) (hc : c * c = 1 / 2)
    (hx : x * x = 1) (he0 : 0 < Real.sqrt cfg.tol) (he1 : Real.sqrt cfg.tol < 1)
    (hl : cfg.linDepLim < Real.sqrt cfg.tol ^ 2 / (1 + Real.sqrt cfg.tol ^ 2)) (hn : cfg.linDepLim < nr ^ 2)
    {s : State 4} (hs : s.search = [v]) {r : Vec 4} (hr : ∀ i, r i = x * A v i) (u : Vec 4) :
    ∃ t, trialVec cfg s (davidsonPrecondition cfg A) 0 r nr u false = .ok (some t) := by
  generalize hε : Real.sqrt cfg.tol = ε at he0 he1 hl
  have n0 : -1 + ε ≠ 0 := by intro q; linarith
  have n3 : 1 + ε ≠ 0 := by intro q; linarith
  have m0 : 1 - ε ≠ 0 := by intro q; linarith
  obtain ⟨w, hw⟩ : ∃ w, w = (fun i => r i / (0 - A (fun j => if j = i then 1 else 0) i + ε) : Vec 4) := ⟨_, rfl⟩
  have hpre : davidsonPrecondition cfg A r 0 u = .ok w := by
    unfold davidsonPrecondition
    dsimp only
    rw [hε, if_pos, hw]
    intro i
    fin_cases i
    · show 0 - A _ 0 + ε ≠ 0; rw [hA.c0]; simpa using n0
    · show 0 - A _ 1 + ε ≠ 0; rw [hA.c1]; simpa using n0
    · show 0 - A _ 2 + ε ≠ 0; rw [hA.c2]; simpa using n3
    · show 0 - A _ 3 + ε ≠ 0; rw [hA.c3]; simpa using n3
  have w0 : w 0 = x * c / (-1 + ε) := by
    rw [hw]; show r 0 / (0 - A _ 0 + ε) = _; rw [hr, hA.c0, hA.c0, v0]; simp
  have w1 : w 1 = 0 := by rw [hw]; show r 1 / _ = _; rw [hr, hA.c1, v1]; simp
  have w2 : w 2 = 0 := by rw [hw]; show r 2 / _ = _; rw [hr, hA.c2, v2]; simp
  have w3 : w 3 = -(x * c) / (1 + ε) := by
    rw [hw]; show r 3 / (0 - A _ 3 + ε) = _; rw [hr, hA.c3, hA.c3, v3]; simp
  have hvv : dot v v = 1 := by rw [dot4, v0, v1, v2, v3]; linarith
  have hww : dot w w = (1 + ε ^ 2) / ((1 - ε) * (1 + ε)) ^ 2 := by
    rw [dot4, w0, w1, w2, w3]
    have : x * c / (-1 + ε) * (x * c / (-1 + ε)) + 0 * 0 + 0 * 0 + -(x * c) / (1 + ε) * (-(x * c) / (1 + ε)) =
        (x * x) * (c * c) * (1 / (-1 + ε) ^ 2 + 1 / (1 + ε) ^ 2) := by
      field_simp
      ring
    rw [this, hx, hc]
    have hm : (-1 + ε) ^ 2 = (1 - ε) ^ 2 := by ring
    rw [hm]
    field_simp
    ring
  have hvw : dot v w = -x / ((1 - ε) * (1 + ε)) := by
    rw [dot4, w0, w1, w2, w3, v0, v1, v2, v3]
    have : c * (x * c / (-1 + ε)) + 0 * 0 + 0 * 0 + c * (-(x * c) / (1 + ε)) = x * (c * c) * (1 / (-1 + ε) - 1 / (1 + ε)) := by
      field_simp
      ring
    rw [this, hc]
    have hm : (-1 + ε) = -(1 - ε) := by ring
    rw [hm]
    field_simp
    ring
  have hwpos : 0 < dot w w := by
    rw [hww]
    have : ((1 - ε) * (1 + ε)) ^ 2 > 0 := by positivity
    positivity
  have hsq : norm w ^ 2 = dot w w := by unfold norm; exact Real.sq_sqrt hwpos.le
  have hnw : norm w ≠ 0 := by unfold norm; exact (Real.sqrt_pos.2 hwpos).ne'
  obtain ⟨z, hz⟩ : ∃ z, z = (fun i => scale (1 / norm w) w i - dot v (scale (1 / norm w) w) * v i : Vec 4) := ⟨_, rfl⟩
  have hzz : dot z z = ε ^ 2 / (1 + ε ^ 2) := by
    have e1 : dot v (scale (1 / norm w) w) = dot v w / norm w := by
      rw [dot4, dot4]; unfold scale; field_simp
    have e2 : dot z z = dot w w / norm w ^ 2 - (dot v w / norm w) ^ 2 * (2 - dot v v) := by
      rw [hz, e1]
      simp only [dot4, scale]
      field_simp
      ring
    rw [e2, hvv, div_pow, hsq, div_self hwpos.ne', hvw, hww]
    have : (-x / ((1 - ε) * (1 + ε))) ^ 2 = 1 / ((1 - ε) * (1 + ε)) ^ 2 := by
      rw [div_pow]; congr 1; linear_combination hx
    rw [this]
    field_simp
    ring
  have hzpos : 0 < dot z z := by rw [hzz]; positivity
  have hzsq : norm z ^ 2 = dot z z := by unfold norm; exact Real.sq_sqrt hzpos.le
  have hnz : norm z ≠ 0 := by unfold norm; exact (Real.sqrt_pos.2 hzpos).ne'
  refine ⟨scale (1 / norm z) z, ?_⟩
  unfold trialVec
  rw [if_pos ⟨hn, rfl⟩, hpre, ok_bind, if_neg hnw, hs]
  dsimp only
  have hfold : [v].foldl (fun v (base : Vec 4) i => v i - dot base v * base i) (scale (1 / norm w) w) = z := hz.symm
  rw [hfold, if_pos (by rw [hzsq, hzz]; exact hl), if_neg hnz]
  rfl

/-- The first cycle of the search for three vectors. -/
theorem first_cycle (h1 : OrthOk lib.orth) (h2 : EighOk lib.eigh) (hA : SigmaZ A) {v : Vec 4} {c : ℝ} (v0 : v 0 = c) (v1 : v 1 = 0)
    (v2 : v 2 = 0) (v3 : v 3 = c) (hc : c * c = 1 / 2) (he0 : 0 < Real.sqrt cfg.tol) (he1 : Real.sqrt cfg.tol < 1)
    (hl : cfg.linDepLim < Real.sqrt cfg.tol ^ 2 / (1 + Real.sqrt cfg.tol ^ 2)) {s' : State 4} {b : Bool}
    (hk : cycle cfg lib true (init cfg A [v] 3 none) = .ok (s', b)) :
    b = false ∧ s'.search = [v] ∧ ∃ t, s'.trial = [t] ∧ dot t t = 1 ∧ dot v t = 0 := by
  have hvv : dot v v = 1 := by rw [dot4, v0, v1, v2, v3]; linarith
  have hready : Ready cfg A 3 (init cfg A [v] 3 none) := init_ready (by simp only [List.length_singleton]; omega) (fun q hq => by cases hq)
  obtain ⟨s1, hs1, hg, -, -, -, he⟩ := grow_ok h1 true hready
  have hsv : s1.search = [v] := by
    rw [he]
    unfold orthonormalize
    show [] ++ _ = _
    have hfirst : [v].foldl keep [] = [v] := by
      rw [keepAll_self [v] [] ⟨by simpa using hvv, by simp⟩]; rfl
    simpa [init] using hfirst
  have hpre1 : s1.precond = none := by
    unfold grow extendSpace at hs1
    dsimp only at hs1
    obtain ⟨a, -, hs1⟩ := bind_eq_ok.mp hs1
    obtain ⟨a2, -, hs1⟩ := bind_eq_ok.mp hs1
    cases hs1
    rfl
  have hsub : s1.sub 0 0 = 0 := by
    rw [hg.proj hA.symmetric 0 (by rw [hsv]; simp) 0 (by rw [hsv]; simp), hsv]
    show dot v (A v) = 0
    rw [dot4, hA.c0, hA.c1, hA.c2, hA.c3, v0, v1, v2, v3]
    ring
  unfold cycle at hk
  rw [hs1, ok_bind, if_neg (by rw [hsv, hg.vals]; simp)] at hk
  obtain ⟨s2, hr, hk⟩ := bind_eq_ok.mp hk
  unfold calcRitzPairs at hr
  dsimp only at hr
  have hlen : s1.search.length = 1 := by rw [hsv]; rfl
  have hmin : min s1.search.length s1.nVals = 1 := by rw [hlen, hg.vals]; rfl
  rw [hmin, if_neg (by decide)] at hr
  obtain ⟨⟨vals, w⟩, heig, hr⟩ := bind_eq_ok.mp hr
  cases hr
  rw [hlen] at heig
  obtain ⟨l1, l2, l3⟩ := h2.length (by decide) (by decide) heig
  have hsym : ∀ i < 1, ∀ j < 1, s1.sub i j = s1.sub j i := by
    intro i hi j hj
    rw [show i = 0 by omega, show j = 0 by omega]
  have ho := h2.orthonormal (by decide) (by decide) hsym heig 0 (by decide) 0 (by decide)
  have hei := h2.eigen (by decide) (by decide) hsym heig 0 (by decide) 0 (by decide)
  obtain ⟨θ, rfl⟩ : ∃ θ, vals = [θ] := List.length_eq_one_iff.1 l1
  obtain ⟨w', rfl⟩ : ∃ w', w = [w'] := List.length_eq_one_iff.1 l2
  obtain ⟨x, rfl⟩ : ∃ x, w' = [x] := List.length_eq_one_iff.1 (l3 w' (by simp))
  simp only [Finset.sum_range_one, List.getD_cons_zero, if_true] at ho hei
  rw [hsub, zero_mul] at hei
  have hθ : θ = 0 := by
    rcases mul_eq_zero.1 hei.symm with q | q
    · exact q
    · rw [q] at ho; norm_num at ho
  subst hθ
  obtain ⟨s3, hn, hk⟩ := bind_eq_ok.mp hk
  unfold calcResidualNorms ritzVecs colRitzVecs at hn
  dsimp only [ok_bind] at hn
  rw [if_neg (by simp)] at hn
  obtain ⟨r, hrd⟩ : ∃ r, r = (fun i => transVec [x] s1.column i - 0 * transVec [x] s1.search i : Vec 4) := ⟨_, rfl⟩
  have hrr : ∀ i, r i = x * A v i := by
    intro i
    rw [hrd, hg.col, hsv]
    simp [transVec, scale]
  have hs3 : s3 = { s1 with ritzVals := some [0], coefs := some [[x]], residuals := [r], residualNorms := [norm r] } := by
    rw [hrd]
    cases hn
    rfl
  subst hs3
  rw [isConverged_ok (s := { s1 with ritzVals := some [0], coefs := some [[x]], residuals := [r], residualNorms := [norm r] })
    (vals := [0]) rfl hg.last, ok_bind] at hk
  dsimp only at hk
  rw [if_neg (by decide), if_neg (by show ¬ (1 + s1.search.length > s1.maxSpace); rw [hg.max, hsv]; simp)] at hk
  obtain ⟨s5, h5, hk⟩ := bind_eq_ok.mp hk
  cases hk
  unfold calcTrialVecs at h5
  dsimp only at h5
  rw [if_neg (by rw [hsv]; simp)] at h5
  unfold ritzVecs at h5
  dsimp only [ok_bind] at h5
  obtain ⟨T, hT, h5⟩ := bind_eq_ok.mp h5
  cases h5
  have hnr : norm r ^ 2 = 1 := by
    have hd : dot r r = 1 := by
      rw [dot4, hrr, hrr, hrr, hrr, hA.c0, hA.c1, hA.c2, hA.c3, v0, v1, v2, v3]
      linear_combination 2 * (c * c) * ho + 2 * hc
    unfold norm
    rw [hd, Real.sqrt_one, one_pow]
  have hlt : cfg.linDepLim < norm r ^ 2 := by
    rw [hnr]
    refine hl.trans ?_
    rw [div_lt_one (by positivity)]
    linarith
  obtain ⟨t, ht⟩ := first_trial (nr := norm r) (s := { s1 with ritzVals := some [0], coefs := some [[x]], residuals := [r], residualNorms := [norm r], convergence := List.replicate ([0] : List ℝ).length false }) hA v0 v1 v2 v3 hc ho he0 he1 hl hlt hsv hrr (transVec [x] s1.search)
  have hTt : T = [t] := by
    rw [hpre1, hg.op] at hT
    simp only [List.map_cons, List.map_nil, List.length_cons, List.length_nil, List.replicate_succ, List.replicate_zero, List.zip_cons_cons,
      List.zip_nil_right, Option.getD_none, List.foldlM_cons, List.foldlM_nil, ok_bind, zero_add] at hT
    obtain ⟨y, hy, hT⟩ := bind_eq_ok.mp hT
    cases hT
    obtain ⟨o, hoo, hy⟩ := bind_eq_ok.mp hy
    cases hy
    have : (Except.ok o : Res (Option (Vec 4))) = .ok (some t) := by
      rw [← hoo, ← ht]
      rfl
    cases this
    rfl
  have htt := (trialVec_ok (davidsonPrecondition_ok A) (s := { s1 with ritzVals := some [0], coefs := some [[x]], residuals := [r], residualNorms := [norm r], convergence := List.replicate ([0] : List ℝ).length false }) hg.orth 0 r (norm r) (transVec [x] s1.search) false).2 _ ht t rfl
  exact ⟨rfl, hsv, t, hTt, htt.1, htt.2 v (by rw [hsv]; simp)⟩

/-- The search for three vectors finds the start vector and one more; their coordinates 1 and 2 vanish. -/
theorem search_two (h1 : OrthOk lib.orth) (h2 : EighOk lib.eigh) (hA : SigmaZ A) {v : Vec 4} {c : ℝ} (v0 : v 0 = c) (v1 : v 1 = 0)
    (v2 : v 2 = 0) (v3 : v 3 = c) (hc : c * c = 1 / 2) (he0 : 0 < Real.sqrt cfg.tol) (he1 : Real.sqrt cfg.tol < 1)
    (hl : cfg.linDepLim < Real.sqrt cfg.tol ^ 2 / (1 + Real.sqrt cfg.tol ^ 2)) (hm : 1 < cfg.maxCycle) {vecs : List (Vec 4)}
    (hk : kernelSearch cfg lib (init cfg A [v] 3 none) = .ok vecs) :
    ∃ w, vecs = [v, w] ∧ w 1 = 0 ∧ w 2 = 0 := by
  have hready : Ready cfg A 3 (init cfg A [v] 3 none) := init_ready (by simp only [List.length_singleton]; omega) (fun q hq => by cases hq)
  have hnull : ∀ i : Fin 4, v i = 0 → Null i (init cfg A [v] 3 none) := fun i hi =>
    ⟨fun u hu => (List.not_mem_nil hu).elim, fun u hu => by rw [List.mem_singleton.1 hu, hi], fun p hp => by cases hp⟩
  obtain ⟨o1, -, -⟩ := C50_search_mode h1 h2 A [v] 3 none (by simp only [List.length_singleton]; omega) (fun q hq => by cases hq) hk
  unfold kernelSearch at hk
  obtain ⟨⟨s, b, k⟩, hloop, hk⟩ := bind_eq_ok.mp hk
  cases hk
  have z1 := search_null h1 h2 (i := 1) (fun u hu => by rw [hA.c1, hu]) _ _ _ _ _ hready (hnull 1 v1) hloop
  have z2 := search_null h1 h2 (i := 2) (fun u hu => by rw [hA.c2, hu, neg_zero]) _ _ _ _ _ hready (hnull 2 v2) hloop
  have hlong : ∃ w rest, s.search = v :: w :: rest := by
    obtain ⟨m, hm'⟩ : ∃ m, cfg.maxCycle = m + 2 := ⟨cfg.maxCycle - 2, by omega⟩
    rw [hm'] at hloop
    unfold loop at hloop
    obtain ⟨⟨s1, stop⟩, hcy, hloop⟩ := bind_eq_ok.mp hloop
    obtain ⟨rfl, g1, t, g2, g3, g4⟩ := first_cycle h1 h2 hA v0 v1 v2 v3 hc he0 he1 hl hcy
    dsimp only at hloop
    rw [if_neg (by decide)] at hloop
    obtain ⟨⟨s2, stop2, c2⟩, hl2, hloop⟩ := bind_eq_ok.mp hloop
    cases hloop
    have hr1 := (cycle_ok h1 h2 true hready).2.1 _ hcy
    unfold loop at hl2
    obtain ⟨⟨s3, stop3⟩, hcy3, hl2⟩ := bind_eq_ok.mp hl2
    have hs3 : s3.search = [v, t] := by
      rw [cycle_search h1 h2 hr1 hcy3, g1, g2, keepAll_self [t] [] ⟨by simpa using g3, by simp⟩]
      rfl
    have grow : ∀ (k : ℕ) (s s' : State 4) (b : Bool) (c : ℕ), Ready cfg A 3 s → (∃ w rest, s.search = v :: w :: rest) →
        loop cfg lib true k s = .ok (s', b, c) → ∃ w rest, s'.search = v :: w :: rest := by
      intro k
      induction k with
      | zero => intro s s' b c _ hs hl; cases hl; exact hs
      | succ k ih =>
        intro s s' b c hr ⟨w, rest, hs⟩ hl
        unfold loop at hl
        obtain ⟨⟨s1, stop⟩, hcy, hl⟩ := bind_eq_ok.mp hl
        have h3 : ∃ w rest, s1.search = v :: w :: rest := ⟨w, _, by rw [cycle_search h1 h2 hr hcy, hs]; rfl⟩
        dsimp only at hl
        cases stop with
        | true => cases hl; exact h3
        | false =>
          rw [if_neg (by decide)] at hl
          obtain ⟨⟨s2, stop2, c2⟩, hl2, hl⟩ := bind_eq_ok.mp hl
          cases hl
          exact ih s1 _ _ _ ((cycle_ok h1 h2 true hr).2.1 _ hcy) h3 hl2
    dsimp only at hl2
    cases stop3 with
    | true => cases hl2; exact ⟨t, [], hs3⟩
    | false =>
      rw [if_neg (by decide)] at hl2
      obtain ⟨⟨s4, stop4, c4⟩, hl4, hl2⟩ := bind_eq_ok.mp hl2
      cases hl2
      exact grow _ _ _ _ _ ((cycle_ok h1 h2 true hr1).2.1 _ hcy3) ⟨t, [], hs3⟩ hl4
  obtain ⟨w, rest, hs⟩ := hlong
  change Orthonormal s.search at o1
  rw [hs] at o1 z1 z2
  refine ⟨w, ?_, z1 w (by simp), z2 w (by simp)⟩
  rw [hs]
  cases rest with
  | nil => rfl
  | cons y rest =>
    exfalso
    obtain ⟨p1, p2⟩ := o1
    simp only [List.pairwise_cons, List.mem_cons, forall_eq_or_imp] at p1 p2 z1 z2
    obtain ⟨a1, a2, a3, -⟩ := p1
    obtain ⟨⟨b1, b2, -⟩, ⟨b3, -⟩, -⟩ := p2
    obtain ⟨-, c1, c2, -⟩ := z1
    obtain ⟨-, d1, d2, -⟩ := z2
    rw [dot4] at a1 a2 a3 b1 b2 b3
    rw [v1, v2] at a1 b1 b2
    rw [c1, d1] at a2 b1 b3
    rw [c2, d2] at a3 b2 b3
    rw [v0, v3] at b1 b2
    have hcne : c ≠ 0 := by rintro rfl; norm_num at hc
    have e1 : w 3 = -w 0 := by
      have : c * (w 0 + w 3) = 0 := by linarith
      linarith [(mul_eq_zero.1 this).resolve_left hcne]
    have e2 : y 3 = -y 0 := by
      have : c * (y 0 + y 3) = 0 := by linarith
      linarith [(mul_eq_zero.1 this).resolve_left hcne]
    rw [e1] at a2 b3
    rw [e2] at a3 b3
    have e3 : w 0 * y 0 = 0 := by linarith
    rcases mul_eq_zero.1 e3 with q | q
    · rw [q] at a2; norm_num at a2
    · rw [q] at a3; norm_num at a3

end Davidson
