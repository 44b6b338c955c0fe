import Verif.Lemmas.Davidson2
import Mathlib.Analysis.Matrix.Spectrum
import Mathlib.Tactic.NormNum

/-! C50: the Davidson iteration. -/

open Py
open scoped BigOperators

namespace Davidson

variable {N : ℕ}

section runs

variable {cfg : Config} {lib : Lib N} (h1 : OrthOk lib.orth) (h2 : EighOk lib.eigh) (A : Vec N → Vec N) (L : List (Vec N)) (n : ℕ)
  (p : Option (Precond N)) (hL : L.length ≤ cfg.maxSpace + 3 * n) (hp : ∀ q, p = some q → PrecondOk q)

include h1 h2 hL hp

/-- The search space never exceeds the projected matrix: started with at most `max_space + 3 n_vals` vectors, neither `kernel()` nor
`kernel(search_mode=True)` raises an `IndexError`, and before and after every extension of the search space, in every cycle, it has at most
`max_space + 3 n_vals` vectors. -/
theorem C50_bounds_partial :
    kernel cfg lib (init cfg A L n p) ≠ .error .indexError ∧ kernelSearch cfg lib (init cfg A L n p) ≠ .error .indexError ∧
    ∀ mode k s c, loop cfg lib mode k (init cfg A L n p) = .ok (s, false, c) → s.search.length ≤ cfg.maxSpace + 3 * n ∧
      ∃ s', grow lib mode s = .ok s' ∧ s'.search.length ≤ cfg.maxSpace + 3 * n := by
  have hr := init_ready (cfg := cfg) (A := A) hL hp
  refine ⟨?_, ?_, ?_⟩
  · unfold kernel ritzVecs
    obtain ⟨l1, l2⟩ := loop_ok h1 h2 false cfg.maxCycle hr
    cases hl : loop cfg lib false cfg.maxCycle (init cfg A L n p) with
    | error e => intro h; cases h; exact l1 _ hl rfl
    | ok r =>
      rw [ok_bind]
      dsimp only
      cases r.1.coefs with
      | none => intro h; cases h
      | some v =>
        rw [ok_bind]
        cases r.1.ritzVals with
        | none => intro h; cases h
        | some vals => intro h; cases h
  · unfold kernelSearch
    obtain ⟨l1, l2⟩ := loop_ok h1 h2 true cfg.maxCycle hr
    cases hl : loop cfg lib true cfg.maxCycle (init cfg A L n p) with
    | error e => intro h; cases h; exact l1 _ hl rfl
    | ok r => intro h; cases h
  · intro mode k s c hs
    have hs' := ((loop_ok h1 h2 mode k hr).2 _ _ _ hs).1 rfl
    obtain ⟨s', e, g, -⟩ := grow_ok h1 mode hs'.1
    exact ⟨by rw [← hs'.1.max]; exact hs'.1.bound, s', e, by rw [← g.max]; exact g.bound⟩

/-- For a Hermitian operator the projected matrix holds, after every extension of the search space in every cycle, the matrix elements of the
operator in the search basis; and the column space holds the images of the search vectors. -/
theorem C50_projected_partial (hA : Symmetric A) {mode : Bool} {k : ℕ} {s s' : State N} {c : ℕ}
    (hs : loop cfg lib mode k (init cfg A L n p) = .ok (s, false, c)) (hs' : grow lib mode s = .ok s') :
    s'.column = s'.search.map A ∧
    ∀ i < s'.search.length, ∀ j < s'.search.length, s'.sub i j = dot (s'.search.getD i 0) (A (s'.search.getD j 0)) := by
  have hr := ((loop_ok h1 h2 mode k (init_ready (cfg := cfg) (A := A) hL hp)).2 _ _ _ hs).1 rfl
  obtain ⟨s'', e, g, -⟩ := grow_ok h1 mode hr.1
  rw [hs'] at e
  cases e
  exact ⟨g.col, g.proj hA⟩

/-- The search space is orthonormal after every extension, in every cycle; the vectors of the cycles before stay in it up to a restart. -/
theorem C50_orthonormal_partial {mode : Bool} {k : ℕ} {s s' : State N} {c : ℕ}
    (hs : loop cfg lib mode k (init cfg A L n p) = .ok (s, false, c)) (hs' : grow lib mode s = .ok s') :
    Orthonormal s'.search ∧ s.search <+: s'.search := by
  have hr := ((loop_ok h1 h2 mode k (init_ready (cfg := cfg) (A := A) hL hp)).2 _ _ _ hs).1 rfl
  obtain ⟨s'', e, g, -, -, g', -⟩ := grow_ok h1 mode hr.1
  rw [hs'] at e
  cases e
  exact ⟨g.orth, g'⟩

/-- What `kernel()` returns for a Hermitian operator: at least one and at most `n_vals` values and as many vectors, the vectors are
orthonormal, and the operator is diagonal in them with the returned values on the diagonal. -/
theorem C50_eigenpairs_partial (hA : Symmetric A) (hn : 0 < n) {vals : List ℝ} {vecs : List (Vec N)}
    (hk : kernel cfg lib (init cfg A L n p) = .ok (vals, vecs)) :
    vals.length = vecs.length ∧ 0 < vecs.length ∧ vecs.length ≤ n ∧ Orthonormal vecs ∧
      ∀ i < vecs.length, ∀ j < vecs.length, dot (vecs.getD i 0) (A (vecs.getD j 0)) = if i = j then vals.getD i 0 else 0 := by
  unfold kernel ritzVecs at hk
  obtain ⟨⟨s, stop, c⟩, hl, hk⟩ := bind_eq_ok.mp hk
  obtain ⟨l1, l2⟩ := (loop_ok h1 h2 false cfg.maxCycle (init_ready (cfg := cfg) (A := A) hL hp)).2 _ _ _ hl
  have hstop : stop = false := by
    cases stop with
    | false => rfl
    | true => cases (l2 rfl).1
  have hr := (l1 hstop).1
  dsimp only at hk
  cases hc : s.coefs with
  | none => rw [hc] at hk; cases hk
  | some v =>
    obtain ⟨hne, vals', hv, hlen, hmin, hx⟩ := hr.ritz v hc
    rw [hc, hv] at hk
    obtain ⟨ho, he⟩ := hx hA
    obtain ⟨rfl, rfl⟩ : vals' = vals ∧ (v.map fun x => transVec x s.search) = vecs := by
      have := Except.ok.inj hk
      exact ⟨congrArg Prod.fst this, congrArg Prod.snd this⟩
    have hpos : 0 < s.search.length := List.length_pos_of_ne_nil hne
    rw [List.length_map]
    exact ⟨hlen, by omega, by omega, ho, he⟩

/-- `kernel(search_mode=True)` returns orthonormal vectors; and if the loop was left by `break` there are at least `n_vals` of them. -/
theorem C50_search_mode {vecs : List (Vec N)} (hk : kernelSearch cfg lib (init cfg A L n p) = .ok vecs) :
    Orthonormal vecs ∧ vecs.length ≤ cfg.maxSpace + 3 * n ∧
      ∀ s c, loop cfg lib true cfg.maxCycle (init cfg A L n p) = .ok (s, true, c) → n ≤ vecs.length := by
  unfold kernelSearch at hk
  obtain ⟨⟨s, stop, c⟩, hl, hk⟩ := bind_eq_ok.mp hk
  cases hk
  obtain ⟨l1, l2⟩ := (loop_ok h1 h2 true cfg.maxCycle (init_ready (cfg := cfg) (A := A) hL hp)).2 _ _ _ hl
  have hg : Grown cfg A n s := by
    cases stop with
    | false => exact (l1 rfl).1.toGrown
    | true => exact (l2 rfl).2.1
  refine ⟨hg.orth, by rw [← hg.max]; exact hg.bound, fun s' c' h => ?_⟩
  rw [hl] at h
  cases h
  exact (l2 rfl).2.2

/-- The iteration does not stop when the Ritz values have converged: whatever the operator and the start vectors, a run of `kernel()` that
ends without an exception has gone through all `max_cycle` cycles. (`_last_ritz_vals` is never assigned.) -/
theorem C50_never_stops {s : State N} {stop : Bool} {c : ℕ}
    (hk : loop cfg lib false cfg.maxCycle (init cfg A L n p) = .ok (s, stop, c)) : stop = false ∧ c = cfg.maxCycle := by
  obtain ⟨l1, l2⟩ := (loop_ok h1 h2 false cfg.maxCycle (init_ready (cfg := cfg) (A := A) hL hp)).2 _ _ _ hk
  cases stop with
  | false => exact ⟨rfl, (l1 rfl).2⟩
  | true => cases (l2 rfl).1

/-- If the search space is full in the last cycle, `kernel()` raises a `TypeError` instead of returning the eigenpairs: the restart has
thrown the Ritz vectors away. -/
theorem C50_restart_in_last_cycle {k : ℕ} (hk : cfg.maxCycle = k + 1) {s s' : State N} {c : ℕ}
    (hs : loop cfg lib false k (init cfg A L n p) = .ok (s, false, c)) (hs' : grow lib false s = .ok s')
    (hfull : cfg.maxSpace + 3 * n < min s'.search.length n + s'.search.length) {vals : List ℝ} {v : List (List ℝ)}
    (he : lib.eigh s'.search.length s'.sub (min s'.search.length n) = .ok (vals, v)) :
    kernel cfg lib (init cfg A L n p) = .error .typeError := by
  have hr := ((loop_ok h1 h2 false k (init_ready (cfg := cfg) (A := A) hL hp)).2 _ _ _ hs).1 rfl
  obtain ⟨s'', e, g, -⟩ := grow_ok h1 false hr.1
  rw [hs'] at e
  cases e
  have hb := g.bound
  rw [g.max] at hb
  obtain ⟨t, ht, hc⟩ := cycle_restart g (hs' := hs') (by omega) h2 he hfull
  unfold kernel
  rw [hk, loop_snoc hs, ht]
  show (do let vecs ← ritzVecs t; _) = _
  rw [ritzVecs, hc]
  rfl

end runs

/-- With more independent start vectors than the projected matrix has rows, `kernel()` raises an `IndexError`. -/
theorem C50_too_many_start_vectors {cfg : Config} {lib : Lib N} (A : Vec N → Vec N) (L : List (Vec N)) (n : ℕ) (p : Option (Precond N))
    (hL : cfg.maxSpace + 3 * n < (lib.orth L).length) (hne : L ≠ []) (hk : 0 < cfg.maxCycle) :
    kernel cfg lib (init cfg A L n p) = .error .indexError := by
  obtain ⟨k, hk⟩ : ∃ k, cfg.maxCycle = k + 1 := ⟨cfg.maxCycle - 1, by omega⟩
  have hg : grow lib false (init cfg A L n p) = .error .indexError := by
    unfold grow orthonormalize
    have : ((!false) && !(init cfg A L n p).trial.isEmpty) = true := by
      show (true && !L.isEmpty) = true
      cases L with
      | nil => exact absurd rfl hne
      | cons _ _ => rfl
    rw [if_pos this]
    have hrow : ∀ av, (List.range' 0 (lib.orth L).length).foldlM (fun a i => setRow (cfg.maxSpace + 3 * n) (lib.orth L) av 0 a i)
        (fun _ _ => 0) = .error .indexError := fun av => rows_error _ _ _ hL
    unfold extendSpace init
    simp only [List.nil_append, List.length_nil, List.range_zero, List.foldlM_nil, pure_bind, Nat.sub_zero]
    rw [hrow]
    rfl
  unfold kernel
  rw [hk, loop, cycle, hg]
  rfl

/-- A restart forgets the caller's preconditioner. -/
theorem C50_restart_drops_preconditioner {cfg : Config} {s s' : State N} (h : restart cfg s = .ok s') : s'.precond = none := by
  unfold restart at h
  obtain ⟨vecs, -, h⟩ := bind_eq_ok.mp h
  cases h
  rfl

/-! ### The assumptions about `scipy.linalg` can be met, and concrete runs -/

theorem ofFn_getD {α : Type} {m : ℕ} (f : Fin m → α) (d : α) {i : ℕ} (h : i < m) : (List.ofFn f).getD i d = f ⟨i, h⟩ := by
  rw [List.getD_eq_getElem _ _ (by simpa using h), List.getElem_ofFn]

open Classical in
/-- An eigensolver, from the spectral theorem. -/
noncomputable def spectral (m : ℕ) (a : ℕ → ℕ → ℝ) (k : ℕ) : Res (List ℝ × List (List ℝ)) :=
  if h : (Matrix.of fun i j : Fin m => a i j).IsHermitian ∧ k ≤ m then
    .ok (List.ofFn fun i : Fin k => h.1.eigenvalues ⟨i, by omega⟩,
      List.ofFn fun i : Fin k => List.ofFn fun j : Fin m => h.1.eigenvectorBasis ⟨i, by omega⟩ j)
  else .error .valueError

theorem spectral_ok : EighOk spectral where
  error := by
    intro m a k _ _ e h
    unfold spectral at h
    split at h
    · cases h
    · cases h; decide
  length := by
    intro m a k vals v _ _ h
    unfold spectral at h
    split at h
    · cases h
      refine ⟨by simp, by simp, fun x hx => ?_⟩
      obtain ⟨i, rfl⟩ := List.mem_ofFn.mp hx
      simp
    · cases h
  orthonormal := by
    intro m a k vals v _ hkm _ h i hi j hj
    unfold spectral at h
    split at h
    · rename_i hh
      cases h
      have key := hh.1.eigenvectorBasis.inner_eq_ite (⟨i, by omega⟩ : Fin m) ⟨j, by omega⟩
      rw [PiLp.inner_apply] at key
      rw [Finset.sum_range]
      simp only [ofFn_getD _ _ hi, ofFn_getD _ _ hj, ofFn_getD _ _ (Fin.is_lt _), Fin.eta]
      simp only [Fin.mk.injEq] at key
      rw [← key]
      refine Finset.sum_congr rfl fun q _ => ?_
      simp [mul_comm]
    · cases h
  eigen := by
    intro m a k vals v _ hkm _ h i hi p hp
    unfold spectral at h
    split at h
    · rename_i hh
      cases h
      have key := congrFun (hh.1.mulVec_eigenvectorBasis (⟨i, by omega⟩ : Fin m)) ⟨p, hp⟩
      rw [Finset.sum_range]
      simp only [ofFn_getD _ _ hi, ofFn_getD _ _ hp, ofFn_getD _ _ (Fin.is_lt _), Fin.eta]
      exact key
    · cases h

/-- The Gram-Schmidt loop in the place of `orth`, and the eigensolver of the spectral theorem. -/
noncomputable def exLib : Lib N := ⟨fun L => L.foldl keep [], spectral⟩

theorem exLib_orth : OrthOk (exLib (N := N)).orth := gramSchmidt_orthOk
theorem exLib_eigh : EighOk (exLib (N := N)).eigh := spectral_ok

/-- The default configuration, lines 142-145. -/
noncomputable def exCfg : Config := ⟨1 / 10 ^ 12, 99, 10, 1 / 10 ^ 14⟩

/-- Two unit vectors of length 3, and an operator with a nonzero matrix element between them. -/
def exOp : Vec 3 → Vec 3 := fun v => ![v 0 + v 1, v 0 + 2 * v 1, 3 * v 2]

theorem exOp_symmetric : Symmetric exOp := by
  intro x y
  simp [dot, exOp, Fin.sum_univ_three]
  ring

/-- The hypotheses of the theorems on runs are met by this operator and these start vectors, with the default configuration. -/
example : OrthOk (exLib (N := 3)).orth ∧ EighOk (exLib (N := 3)).eigh ∧ Symmetric exOp ∧
    ([![1, 0, 0], ![1, 1, 0]] : List (Vec 3)).length ≤ exCfg.maxSpace + 3 * 2 ∧
    ∃ s c, loop exCfg exLib false 0 (init exCfg exOp [![1, 0, 0], ![1, 1, 0]] 2 none) = .ok (s, false, c) :=
  ⟨exLib_orth, exLib_eigh, exOp_symmetric, by decide, _, _, rfl⟩

/-- An eigensolver for `1 × 1` matrices only. -/
noncomputable def eigh1 (m : ℕ) (a : ℕ → ℕ → ℝ) (k : ℕ) : Res (List ℝ × List (List ℝ)) :=
  if m = 1 ∧ k = 1 then .ok ([a 0 0], [[1]]) else .error .valueError

theorem eigh1_ok : EighOk eigh1 where
  error := by
    intro m a k _ _ e h
    unfold eigh1 at h
    split at h
    · cases h
    · cases h; decide
  length := by
    intro m a k vals v _ _ h
    unfold eigh1 at h
    split at h
    · rename_i hh; obtain ⟨rfl, rfl⟩ := hh; cases h; simp
    · cases h
  orthonormal := by
    intro m a k vals v _ _ _ h i hi j hj
    unfold eigh1 at h
    split at h
    · rename_i hh; obtain ⟨rfl, rfl⟩ := hh; cases h
      obtain rfl : i = 0 := by omega
      obtain rfl : j = 0 := by omega
      simp
    · cases h
  eigen := by
    intro m a k vals v _ _ _ h i hi p hp
    unfold eigh1 at h
    split at h
    · rename_i hh; obtain ⟨rfl, rfl⟩ := hh; cases h
      obtain rfl : i = 0 := by omega
      obtain rfl : p = 0 := by omega
      simp
    · cases h

/-- `orth` by Gram-Schmidt, and the eigensolver for `1 × 1` matrices. -/
noncomputable def exLib1 : Lib 1 := ⟨fun L => L.foldl keep [], eigh1⟩

theorem unit_cycle {cfg : Config} (hl : 0 ≤ cfg.linDepLim) {s : State 1} (h : Ready cfg (fun v => v) 1 s)
    (hs : (s.search = [] ∧ s.trial = [fun _ => 1]) ∨ (s.search = [fun _ => 1] ∧ s.trial = [])) :
    ∃ s', cycle cfg exLib1 false s = .ok (s', false) ∧ Ready cfg (fun v => v) 1 s' ∧ s'.search = [fun _ => 1] ∧ s'.trial = [] ∧
      s'.ritzVals = some [1] ∧ s'.residualNorms = [0] ∧ s'.coefs = some [[1]] := by
  have ho1 : Orthonormal ([] ++ [fun _ => 1] : List (Vec 1)) := ⟨by simp [dot], by simp⟩
  have hlib : OrthOk exLib1.orth := gramSchmidt_orthOk
  obtain ⟨s1, hs1, hg, -, -, -, hsearch⟩ := grow_ok hlib false h
  have h1 : s1.search = [fun _ => 1] := by
    rw [hsearch]
    rcases hs with ⟨ha, hb⟩ | ⟨ha, hb⟩
    · rw [ha]
      unfold orthonormalize
      rw [hb]
      exact keepAll_self _ [] ho1
    · rw [ha]
      unfold orthonormalize
      rw [hb]
      simp [hb]
  have hsub : s1.sub 0 0 = 1 := by
    rw [hg.proj (fun x y => rfl) 0 (by rw [h1]; decide) 0 (by rw [h1]; decide), h1]
    simp [dot]
  have hcol : s1.column = [fun _ => 1] := by rw [hg.col, h1]; rfl
  have hr : calcRitzPairs exLib1 s1 = .ok { s1 with ritzVals := some [1], coefs := some [[1]] } := by
    unfold calcRitzPairs
    dsimp only
    rw [hg.vals, h1]
    show (do let r ← eigh1 1 s1.sub 1; _) = _
    rw [eigh1, if_pos ⟨rfl, rfl⟩, hsub]
    rfl
  have hn : calcResidualNorms { s1 with ritzVals := some [1], coefs := some [[1]] } =
      .ok { s1 with ritzVals := some [1], coefs := some [[1]], residuals := [fun _ => 0], residualNorms := [0] } := by
    unfold calcResidualNorms ritzVecs colRitzVecs
    simp [h1, hcol, transVec, scale, norm, dot]
  have ht : calcTrialVecs cfg { s1 with
        ritzVals := some [1], coefs := some [[1]], residuals := [fun _ => 0], residualNorms := [0], convergence := [false] } =
      .ok { s1 with
        ritzVals := some [1], coefs := some [[1]], residuals := [fun _ => 0], residualNorms := [0], convergence := [false], trial := [],
        precond := some (s1.precond.getD (davidsonPrecondition cfg s1.matvec)) } := by
    unfold calcTrialVecs ritzVecs trialVec
    have : ¬ (cfg.linDepLim < 0) := not_lt.mpr hl
    simp [h1, this]
  have hc : cycle cfg exLib1 false s = .ok ({ s1 with
        ritzVals := some [1], coefs := some [[1]], residuals := [fun _ => 0], residualNorms := [0], convergence := [false], trial := [],
        precond := some (s1.precond.getD (davidsonPrecondition cfg s1.matvec)) }, false) := by
    unfold cycle
    rw [hs1, ok_bind]
    simp only [Bool.false_and, Bool.false_eq_true, if_false]
    rw [hr, ok_bind, hn, ok_bind, isConverged_ok (s := { s1 with
      ritzVals := some [1], coefs := some [[1]], residuals := [fun _ => 0], residualNorms := [0] }) (vals := [1]) rfl hg.last, ok_bind]
    dsimp only
    rw [if_neg (by decide), if_neg (by show ¬ (1 + s1.search.length > s1.maxSpace); rw [hg.max, h1]; simp)]
    exact congrArg (fun r => r >>= fun t => pure (t, false)) ht
  exact ⟨_, hc, (cycle_ok hlib eigh1_ok false h).2.1 _ hc, h1, rfl, rfl, rfl, rfl⟩

theorem unit_runs (k : ℕ) : ∃ s, loop exCfg exLib1 false (k + 1) (init exCfg (fun v => v) [fun _ => 1] 1 none) = .ok (s, false, k + 1) ∧
    Ready exCfg (fun v => v) 1 s ∧ s.search = [fun _ => 1] ∧ s.trial = [] ∧ s.ritzVals = some [1] ∧ s.residualNorms = [0] ∧
      s.coefs = some [[1]] := by
  have hl : (0 : ℝ) ≤ exCfg.linDepLim := by unfold exCfg; positivity
  induction k with
  | zero =>
    obtain ⟨s, hs, hrest⟩ := unit_cycle hl (s := init exCfg (fun v => v) [fun _ => 1] 1 none)
      (init_ready (by decide) (fun _ h => by cases h)) (Or.inl ⟨rfl, rfl⟩)
    refine ⟨s, ?_, hrest⟩
    rw [loop_snoc (c := 0) rfl, hs]
    rfl
  | succ k ih =>
    obtain ⟨s, hs, hr, h1, h2, -⟩ := ih
    obtain ⟨s', hs', hrest⟩ := unit_cycle hl hr (Or.inr ⟨h1, h2⟩)
    refine ⟨s', ?_, hrest⟩
    rw [loop_snoc hs, hs']
    rfl

/-- The iteration does not stop when the Ritz values have converged: for the identity and one start vector the Ritz value is 1 and its
residual is 0 after the first cycle and after every later one, and the loop goes on for as many cycles as it is given. -/
theorem C50_stops_violated : ∃ (lib : Lib 1) (A : Vec 1 → Vec 1) (L : List (Vec 1)), OrthOk lib.orth ∧ EighOk lib.eigh ∧ Symmetric A ∧
    ∀ k, ∃ s, loop exCfg lib false (k + 1) (init exCfg A L 1 none) = .ok (s, false, k + 1) ∧ s.ritzVals = some [1] ∧
      s.residualNorms = [0] := by
  refine ⟨exLib1, fun v => v, [fun _ => 1], gramSchmidt_orthOk, eigh1_ok, fun _ _ => rfl, fun k => ?_⟩
  obtain ⟨s, h1, -, -, -, h2, h3, -⟩ := unit_runs k
  exact ⟨s, h1, h2, h3⟩

/-- A run that meets the hypotheses of the theorems on the results and returns an eigenpair. -/
example : kernel exCfg exLib1 (init exCfg (fun v => v) [fun _ => 1] 1 none) = .ok ([1], [fun _ => 1]) := by
  obtain ⟨s, h1, -, h2, -, h3, -, h4⟩ := unit_runs 98
  unfold kernel
  rw [show exCfg.maxCycle = 98 + 1 from rfl, h1]
  simp [ritzVecs, h2, h3, h4, transVec, scale]

/-- With the default sizes, one cycle and 13 start vectors, all of what is assumed holds and `kernel()` raises a `TypeError`. -/
theorem C50_restart_violated : ∃ (cfg : Config) (lib : Lib 13) (A : Vec 13 → Vec 13) (L : List (Vec 13)),
    OrthOk lib.orth ∧ EighOk lib.eigh ∧ Symmetric A ∧ L.length ≤ cfg.maxSpace + 3 * 1 ∧
    kernel cfg lib (init cfg A L 1 none) = .error .typeError := by
  have hL : Orthonormal (List.ofFn fun i : Fin 13 => (fun j => if j = i then 1 else 0 : Vec 13)) := by
    refine orthonormal_of_getD fun i hi j hj => ?_
    rw [List.length_ofFn] at hi hj
    rw [ofFn_getD _ _ hi, ofFn_getD _ _ hj]
    simp [dot, eq_comm]
  have hlen : (List.ofFn fun i : Fin 13 => (fun j => if j = i then 1 else 0 : Vec 13)).length = 13 := List.length_ofFn
  generalize (List.ofFn fun i : Fin 13 => (fun j => if j = i then 1 else 0 : Vec 13)) = L at hL hlen
  have hA : Symmetric (fun v : Vec 13 => v) := fun _ _ => rfl
  have hin : L.length ≤ 10 + 3 * 1 := by rw [hlen]
  refine ⟨⟨1 / 10 ^ 12, 1, 10, 1 / 10 ^ 14⟩, exLib, fun v => v, L, exLib_orth, exLib_eigh, hA, hin, ?_⟩
  obtain ⟨s', hg, g, -, -, -, hsearch⟩ := grow_ok exLib_orth false
    (init_ready (cfg := ⟨1 / 10 ^ 12, 1, 10, 1 / 10 ^ 14⟩) (A := fun v : Vec 13 => v) (L := L) (n := 1) (p := none) hin
      (fun _ h => by cases h))
  have hs : s'.search = L := by
    rw [hsearch]
    have hne : L.isEmpty = false := by
      cases L with
      | nil => cases hlen
      | cons _ _ => rfl
    unfold orthonormalize
    have h0 : ((!false) && !L.isEmpty) = true := by rw [hne]; rfl
    refine (congrArg (fun x => [] ++ State.trial x) (if_pos h0)).trans ?_
    exact keepAll_self L [] hL
  have hh : (Matrix.of fun i j : Fin s'.search.length => s'.sub i j).IsHermitian := by
    ext i j
    simp only [Matrix.conjTranspose_apply, Matrix.of_apply, star_trivial]
    rw [g.proj hA j j.2 i i.2, g.proj hA i i.2 j j.2, dot_comm]
  have he : ∃ r, spectral s'.search.length s'.sub (min s'.search.length 1) = .ok r := by
    unfold spectral
    rw [dif_pos ⟨hh, Nat.min_le_left _ _⟩]
    exact ⟨_, rfl⟩
  obtain ⟨⟨vals, v⟩, he⟩ := he
  exact C50_restart_in_last_cycle exLib_orth exLib_eigh _ L 1 none hin (fun _ h => by cases h) (k := 0) rfl (c := 0) rfl hg
    (by rw [hs, hlen]; decide) he

/-- The hypotheses of `C50_too_many_start_vectors`: three unit vectors and room for none. -/
example : ∃ (cfg : Config) (L : List (Vec 3)), cfg.maxSpace + 3 * 0 < ((exLib (N := 3)).orth L).length ∧ L ≠ [] ∧ 0 < cfg.maxCycle := by
  refine ⟨⟨0, 1, 0, 0⟩, [fun j => if j = 0 then 1 else 0], ?_, by simp, by decide⟩
  show 0 < (List.foldl keep [] _).length
  rw [keepAll_self _ [] ⟨by simp [dot], by simp⟩]
  decide

end Davidson
