import Verif.Lemmas.Davidson

open Py
open scoped BigOperators

namespace Davidson

variable {N : ℕ}

/-- What holds after `_extend_space`. -/
structure Grown (cfg : Config) (A : Vec N → Vec N) (n : ℕ) (s : State N) : Prop where
  op : s.matvec = A
  vals : s.nVals = n
  max : s.maxSpace = cfg.maxSpace + 3 * n
  bound : s.search.length ≤ s.maxSpace
  col : s.column = s.search.map A
  proj : Symmetric A → ∀ i < s.search.length, ∀ j < s.search.length, s.sub i j = dot (s.search.getD i 0) (A (s.search.getD j 0))
  orth : Orthonormal s.search
  last : s.lastRitz = none
  pre : ∀ p, s.precond = some p → PrecondOk p

/-- The Ritz values and vectors belong to the search space. -/
def RitzOk (A : Vec N → Vec N) (n : ℕ) (s : State N) : Prop :=
  ∀ v, s.coefs = some v → s.search ≠ [] ∧ ∃ vals, s.ritzVals = some vals ∧ vals.length = v.length ∧ v.length = min s.search.length n ∧
    (Symmetric A → Orthonormal (v.map fun x => transVec x s.search) ∧
      ∀ i < v.length, ∀ j < v.length, dot ((v.map fun x => transVec x s.search).getD i 0) (A ((v.map fun x => transVec x s.search).getD j 0))
        = if i = j then vals.getD i 0 else 0)

/-- What holds at the start of a cycle. -/
structure Ready (cfg : Config) (A : Vec N → Vec N) (n : ℕ) (s : State N) : Prop extends Grown cfg A n s where
  room : s.search.length + s.trial.length ≤ s.maxSpace
  perp : ∀ t ∈ s.trial, ∀ b ∈ s.search, dot b t = 0
  ritz : RitzOk A n s

variable {cfg : Config} {lib : Lib N} {A : Vec N → Vec N} {n : ℕ}

theorem orthonormalize_ok (hlib : OrthOk lib.orth) (u : Bool) (s : State N) : ∃ t,
    orthonormalize lib u s = { s with trial := t } ∧ t.length ≤ s.trial.length ∧ Orthonormal t ∧
      ∀ b, (∀ x ∈ s.trial, dot b x = 0) → ∀ q ∈ t, dot b q = 0 := by
  unfold orthonormalize
  by_cases h1 : (u && !s.trial.isEmpty) = true
  · rw [if_pos h1]
    exact ⟨_, rfl, hlib.length _, hlib.orthonormal _, hlib.span _⟩
  · rw [if_neg h1]
    by_cases h2 : (!s.trial.isEmpty) = true
    · rw [if_pos h2]
      exact ⟨_, rfl, gramSchmidt_orthOk.length _, gramSchmidt_orthOk.orthonormal _, gramSchmidt_orthOk.span _⟩
    · rw [if_neg h2]
      have h3 : s.trial = [] := by simpa using h2
      refine ⟨s.trial, rfl, le_refl _, by rw [h3]; exact orthonormal_nil, fun b hb => hb⟩

/-- `_orthonormalize` and `_extend_space` succeed, and keep the search space in order. -/
theorem grow_ok (hlib : OrthOk lib.orth) (m : Bool) {s : State N} (h : Ready cfg A n s) :
    ∃ s', grow lib m s = .ok s' ∧ Grown cfg A n s' ∧ s'.ritzVals = s.ritzVals ∧
      s'.search.length ≤ s.search.length + s.trial.length ∧ s.search <+: s'.search ∧ s'.search = s.search ++ (orthonormalize lib (!m) s).trial := by
  obtain ⟨t, ht, hlen, ho, hspan⟩ := orthonormalize_ok hlib (!m) s
  have hcol : ∀ j < (s.search ++ t).length, (s.column ++ t.map s.matvec).getD j 0 = A ((s.search ++ t).getD j 0) := by
    intro j hj
    rw [h.col, h.op, ← List.map_append]
    exact getD_map _ _ _ _ hj
  have hroom := h.room
  obtain ⟨a, ha, hg⟩ := extendSpace_ok
    (fun i j x => Symmetric A → x = dot ((s.search ++ t).getD i 0) (A ((s.search ++ t).getD j 0))) { s with trial := t }
    (by simp only [List.length_append]; omega)
    (fun i j _ hj _ => by simp only; rw [hcol j hj])
    (fun i j x _ _ hx hA => by rw [hx hA, hA, dot_comm])
    (fun i hi j hj hA => by
      simp only at hi hj
      show s.sub i j = _
      rw [h.proj hA i hi j hj, List.getD_append _ _ _ _ hi, List.getD_append _ _ _ _ hj])
  simp only at ha hg
  refine ⟨{ s with trial := t, search := s.search ++ t, column := s.column ++ t.map s.matvec, sub := a },
    by unfold grow; rw [ht]; exact ha, ⟨h.op, h.vals, h.max, ?_, ?_, ?_, ?_, h.last, h.pre⟩, rfl, ?_, ?_, by rw [ht]⟩
  · show (s.search ++ t).length ≤ s.maxSpace
    rw [List.length_append]; omega
  · show s.column ++ t.map s.matvec = (s.search ++ t).map A
    rw [h.col, h.op, List.map_append]
  · exact fun hA i hi j hj => hg i hi j hj hA
  · refine orthonormal_append.mpr ⟨h.orth, ho, fun u hu v hv => ?_⟩
    exact hspan u (fun x hx => h.perp x hx u hu) v hv
  · show (s.search ++ t).length ≤ _
    rw [List.length_append]; omega
  · exact List.prefix_append _ _

theorem calcRitzPairs_ok (hlib : EighOk lib.eigh) {s : State N} (h : Grown cfg A n s) :
    (∀ e, calcRitzPairs lib s = .error e → e ≠ .indexError) ∧
    ∀ s', calcRitzPairs lib s = .ok s' → ∃ vals v, s' = { s with ritzVals := some vals, coefs := some v } ∧ 0 < v.length ∧
      (∀ x ∈ v, x.length = s.search.length) ∧ RitzOk A n s' := by
  unfold calcRitzPairs
  dsimp only
  by_cases h0 : min s.search.length s.nVals = 0
  · simp only [h0, if_true]
    exact ⟨fun e he => by cases he; decide, fun s' hs => by cases hs⟩
  · have hk : 0 < min s.search.length s.nVals := Nat.pos_of_ne_zero h0
    have hm : min s.search.length s.nVals ≤ s.search.length := Nat.min_le_left _ _
    simp only [h0, if_false]
    cases hr : lib.eigh s.search.length s.sub (min s.search.length s.nVals) with
    | error e0 => exact ⟨fun e he => by cases he; exact hlib.error hk hm hr, fun s' hs => by cases hs⟩
    | ok r =>
      obtain ⟨vals, v⟩ := r
      refine ⟨fun e he => (by cases he), fun s' hs => ?_⟩
      obtain ⟨l1, l2, l3⟩ := hlib.length hk hm hr
      obtain rfl : { s with ritzVals := some vals, coefs := some v } = s' := Except.ok.inj hs
      refine ⟨vals, v, rfl, by omega, l3, fun v' hv' => ?_⟩
      cases hv'
      refine ⟨?_, vals, rfl, by omega, by rw [l2, h.vals], fun hA => ?_⟩
      · intro h1
        simp only at h1
        rw [h1] at hk; simp at hk
      have hsym : ∀ i < s.search.length, ∀ j < s.search.length, s.sub i j = s.sub j i := fun i hi j hj => by
        rw [h.proj hA i hi j hj, h.proj hA j hj i hi, hA, dot_comm]
      have ho := hlib.orthonormal hk hm hsym hr
      have he := hlib.eigen hk hm hsym hr
      have hlen : ∀ i < v.length, (v.getD i []).length = s.search.length := fun i hi => by
        rw [List.getD_eq_getElem _ _ hi]; exact l3 _ (List.getElem_mem _)
      constructor
      · refine orthonormal_of_getD fun i hi j hj => ?_
        rw [List.length_map] at hi hj
        rw [getD_map _ _ [] _ hi, getD_map _ _ [] _ hj, transVec_dot h.orth (hlen i hi) (hlen j hj)]
        exact ho i (by omega) j (by omega)
      · intro i hi j hj
        rw [getD_map _ _ [] _ hi, getD_map _ _ [] _ hj, transVec_op hA (hlen i hi) (hlen j hj)]
        have h1 : ∀ p ∈ Finset.range s.search.length, (v.getD i []).getD p 0 * ∑ q ∈ Finset.range s.search.length,
            dot (s.search.getD p 0) (A (s.search.getD q 0)) * (v.getD j []).getD q 0
            = vals.getD j 0 * ((v.getD i []).getD p 0 * (v.getD j []).getD p 0) := by
          intro p hp
          have hp := Finset.mem_range.mp hp
          have h2 := he j (by omega) p hp
          rw [Finset.sum_congr rfl fun q hq => by rw [h.proj hA p hp q (Finset.mem_range.mp hq)]] at h2
          rw [h2]; ring
        rw [Finset.sum_congr rfl h1, ← Finset.mul_sum, ho i (by omega) j (by omega)]
        split
        · rename_i hij; rw [hij, mul_one]
        · rw [mul_zero]

theorem calcResidualNorms_ok {s : State N} {vals : List ℝ} {v : List (List ℝ)} (h1 : s.ritzVals = some vals) (h2 : s.coefs = some v) :
    (∀ e, calcResidualNorms s = .error e → e ≠ .indexError) ∧
    ∀ s', calcResidualNorms s = .ok s' → ∃ r nr, s' = { s with residuals := r, residualNorms := nr } := by
  unfold calcResidualNorms ritzVecs colRitzVecs
  rw [h1, h2]
  dsimp only [ok_bind]
  split
  · exact ⟨fun e he => by cases he; decide, fun s' hs => by cases hs⟩
  · exact ⟨fun e he => (by cases he), fun s' hs => by cases hs; exact ⟨_, _, rfl⟩⟩

theorem isConverged_ok {s : State N} {vals : List ℝ} (h1 : s.ritzVals = some vals) (h2 : s.lastRitz = none) :
    isConverged cfg s = .ok ({ s with convergence := List.replicate vals.length false }, false) := by
  unfold isConverged
  rw [h1, h2]
  rfl

theorem trialVec_ok {s : State N} {p : Precond N} (hp : PrecondOk p) (hs : Orthonormal s.search) (x : ℝ) (r : Vec N) (nr : ℝ) (u : Vec N)
    (c : Bool) :
    (∀ e, trialVec cfg s p x r nr u c = .error e → e ≠ .indexError) ∧
    ∀ o, trialVec cfg s p x r nr u c = .ok o → ∀ t ∈ o, dot t t = 1 ∧ ∀ b ∈ s.search, dot b t = 0 := by
  unfold trialVec
  split
  · cases hr : p r x u with
    | error e0 => exact ⟨fun e he => by cases he; exact hp _ _ _ _ hr, fun o ho => by cases ho⟩
    | ok w =>
      simp only [ok_bind]
      split
      · exact ⟨fun e he => by cases he; decide, fun o ho => by cases ho⟩
      · split
        · split
          · exact ⟨fun e he => by cases he; decide, fun o ho => by cases ho⟩
          · rename_i hn
            refine ⟨fun e he => (by cases he), fun o ho t ht => ?_⟩
            cases ho
            cases ht
            refine ⟨normalised hn, fun b hb => ?_⟩
            rw [dot_scale, fold_orth _ hs _ b hb, mul_zero]
        · exact ⟨fun e he => (by cases he), fun o ho => by cases ho; intro t ht; cases ht⟩
  · exact ⟨fun e he => (by cases he), fun o ho => by cases ho; intro t ht; cases ht⟩

theorem davidsonPrecondition_ok (A : Vec N → Vec N) : PrecondOk (davidsonPrecondition cfg A) := by
  intro r x u e h
  unfold davidsonPrecondition at h
  dsimp only at h
  split at h
  · cases h
  · cases h; decide

/-- The loop of `_calc_trial_vecs`. -/
theorem trialFold_ok {ι : Type} {s : State N} (f : ι → Res (Option (Vec N)))
    (hf : ∀ i, (∀ e, f i = .error e → e ≠ .indexError) ∧ ∀ o, f i = .ok o → ∀ t ∈ o, ∀ b ∈ s.search, dot b t = 0)
    (l : List ι) (acc : List (Vec N)) (hacc : ∀ t ∈ acc, ∀ b ∈ s.search, dot b t = 0) :
    (∀ e, l.foldlM (fun acc p => do let v ← f p; pure (acc ++ v.toList)) acc = Except.error e → e ≠ Err.indexError) ∧
    ∀ t, l.foldlM (fun acc p => do let v ← f p; pure (acc ++ v.toList)) acc = Except.ok t →
      t.length ≤ acc.length + l.length ∧ ∀ x ∈ t, ∀ b ∈ s.search, dot b x = 0 := by
  induction l generalizing acc with
  | nil => exact ⟨fun e he => (by cases he), fun t ht => by cases ht; exact ⟨by simp, hacc⟩⟩
  | cons i l ih =>
    rw [List.foldlM_cons]
    cases hr : f i with
    | error e0 => exact ⟨fun e he => by cases he; exact (hf i).1 _ hr, fun t ht => by cases ht⟩
    | ok o =>
      have hacc' : ∀ t ∈ acc ++ o.toList, ∀ b ∈ s.search, dot b t = 0 := by
        intro t ht
        rcases List.mem_append.mp ht with ht | ht
        · exact hacc t ht
        · exact (hf i).2 o hr t (by simpa using ht)
      obtain ⟨h1, h2⟩ := ih _ hacc'
      refine ⟨h1, fun t ht => ?_⟩
      obtain ⟨h3, h4⟩ := h2 t ht
      refine ⟨?_, h4⟩
      have : o.toList.length ≤ 1 := by cases o <;> simp
      rw [List.length_append] at h3
      rw [List.length_cons]
      omega

theorem calcTrialVecs_ok {s : State N} (hs : Grown cfg A n s) (hr : RitzOk A n s) {vals : List ℝ} {v : List (List ℝ)}
    (h1 : s.ritzVals = some vals) (h2 : s.coefs = some v) (hv : 0 < v.length) (hroom : vals.length + s.search.length ≤ s.maxSpace) :
    (∀ e, calcTrialVecs cfg s = .error e → e ≠ .indexError) ∧ ∀ s', calcTrialVecs cfg s = .ok s' → Ready cfg A n s' := by
  obtain ⟨hne, vals', hv', hl, -⟩ := hr v h2
  rw [h1] at hv'
  cases hv'
  have hp : PrecondOk (s.precond.getD (davidsonPrecondition cfg s.matvec)) := by
    cases h : s.precond with
    | none => exact davidsonPrecondition_ok _
    | some p => exact hs.pre p h
  cases vals with
  | nil => simp at hl; omega
  | cons val vals =>
    have hf : ∀ i : (Vec N × ℝ) × (Vec N × Bool),
        (∀ e, trialVec cfg s (s.precond.getD (davidsonPrecondition cfg s.matvec)) val i.1.1 i.1.2 i.2.1 i.2.2 = .error e → e ≠ .indexError) ∧
        ∀ o, trialVec cfg s (s.precond.getD (davidsonPrecondition cfg s.matvec)) val i.1.1 i.1.2 i.2.1 i.2.2 = .ok o →
          ∀ t ∈ o, ∀ b ∈ s.search, dot b t = 0 := fun i =>
      ⟨(trialVec_ok hp hs.orth _ _ _ _ _).1, fun o ho t ht => ((trialVec_ok hp hs.orth _ _ _ _ _).2 o ho t ht).2⟩
    obtain ⟨g1, g2⟩ := trialFold_ok (s := s) _ hf
      ((s.residuals.zip s.residualNorms).zip ((v.map fun x => transVec x s.search).zip s.convergence)) [] (fun _ h => by cases h)
    unfold calcTrialVecs ritzVecs
    simp only [h1, h2, hne, if_false, ok_bind]
    cases hq : ((s.residuals.zip s.residualNorms).zip ((v.map fun x => transVec x s.search).zip s.convergence)).foldlM
      (fun acc p => do let v ← trialVec cfg s (s.precond.getD (davidsonPrecondition cfg s.matvec)) val p.1.1 p.1.2 p.2.1 p.2.2;
                       pure (acc ++ v.toList)) [] with
    | error e0 => exact ⟨fun e he => by cases he; exact g1 _ hq, fun t ht => by cases ht⟩
    | ok t =>
      refine ⟨fun e he => (by cases he), fun s' hs' => ?_⟩
      cases hs'
      obtain ⟨g3, g4⟩ := g2 t hq
      refine ⟨⟨hs.op, hs.vals, hs.max, hs.bound, hs.col, hs.proj, hs.orth, hs.last, ?_⟩, ?_, g4, ?_⟩
      · intro p h; cases h; exact hp
      · show s.search.length + t.length ≤ s.maxSpace
        have : t.length ≤ v.length := by
          refine g3.trans ?_
          simp only [List.length_zip, List.length_map, List.length_nil]
          omega
        omega
      · intro v' hv'
        obtain ⟨a, vals', b, c⟩ := hr v' (h2.trans hv')
        exact ⟨a, vals', h1.symm.trans b, c⟩

theorem restart_ok {s : State N} (hs : Grown cfg A n s) {v : List (List ℝ)} (h2 : s.coefs = some v) (hv : v.length ≤ n) :
    ∃ s', restart cfg s = .ok s' ∧ Ready cfg A n s' ∧ s'.coefs = none ∧ s'.precond = none := by
  unfold restart ritzVecs
  rw [h2]
  refine ⟨_, rfl, ⟨⟨hs.op, hs.vals, ?_, by simp [init], by simp [init], ?_, orthonormal_nil, rfl, ?_⟩, ?_, ?_, ?_⟩, rfl, rfl⟩
  · show cfg.maxSpace + 3 * s.nVals = _
    rw [hs.vals]
  · intro _ i hi; simp [init] at hi
  · intro p h; cases h
  · show 0 + (v.map _).length ≤ cfg.maxSpace + 3 * s.nVals
    rw [List.length_map, hs.vals]
    omega
  · intro t _ b hb; cases hb
  · intro v' h; cases h

/-- One cycle: it raises no `IndexError`, keeps the invariant, and is left by `break` only in search mode. -/
theorem cycle_ok (h1 : OrthOk lib.orth) (h2 : EighOk lib.eigh) (m : Bool) {s : State N} (h : Ready cfg A n s) :
    (∀ e, cycle cfg lib m s = .error e → e ≠ .indexError) ∧
    (∀ s', cycle cfg lib m s = .ok (s', false) → Ready cfg A n s') ∧
    ∀ s', cycle cfg lib m s = .ok (s', true) → m = true ∧ Grown cfg A n s' ∧ n ≤ s'.search.length := by
  obtain ⟨s1, hs1, hg, -⟩ := grow_ok h1 m h
  unfold cycle
  rw [hs1, ok_bind]
  by_cases hb : (m && decide (s1.search.length ≥ s1.nVals)) = true
  · rw [if_pos hb]
    refine ⟨fun e he => (by cases he), fun s' hs' => (by cases hs'), fun s' hs' => ?_⟩
    cases hs'
    simp only [Bool.and_eq_true, decide_eq_true_eq] at hb
    exact ⟨hb.1, hg, by rw [← hg.vals]; exact hb.2⟩
  rw [if_neg hb]
  obtain ⟨r1, r2⟩ := calcRitzPairs_ok h2 hg
  cases hr : calcRitzPairs lib s1 with
  | error e0 => exact ⟨fun e he => by cases he; exact r1 _ hr, fun s' hs' => (by cases hs'), fun s' hs' => by cases hs'⟩
  | ok s2 =>
    rw [ok_bind]
    obtain ⟨vals, v, rfl, hv0, hvl, hrz⟩ := r2 s2 hr
    obtain ⟨n1, n2⟩ := calcResidualNorms_ok (s := { s1 with ritzVals := some vals, coefs := some v }) rfl rfl
    cases hn : calcResidualNorms { s1 with ritzVals := some vals, coefs := some v } with
    | error e0 => exact ⟨fun e he => by cases he; exact n1 _ hn, fun s' hs' => (by cases hs'), fun s' hs' => by cases hs'⟩
    | ok s3 =>
      obtain ⟨r, nr, rfl⟩ := n2 s3 hn
      rw [ok_bind, isConverged_ok (s := { s1 with ritzVals := some vals, coefs := some v, residuals := r, residualNorms := nr })
        (vals := vals) rfl hg.last, ok_bind]
      dsimp only
      rw [if_neg (by decide)]
      obtain ⟨hne, vals', hv', hl, hmin, -⟩ := hrz v rfl
      cases hv'
      have hg4 : Grown cfg A n { s1 with
          ritzVals := some vals, coefs := some v, residuals := r, residualNorms := nr, convergence := List.replicate vals.length false } :=
        ⟨hg.op, hg.vals, hg.max, hg.bound, hg.col, hg.proj, hg.orth, hg.last, hg.pre⟩
      split
      · obtain ⟨s5, hs5, hr5, -⟩ := restart_ok hg4 (v := v) rfl (by rw [hmin]; exact Nat.min_le_right _ _)
        rw [hs5]
        exact ⟨fun e he => (by cases he), fun s' hs' => by cases hs'; exact hr5, fun s' hs' => by cases hs'⟩
      · rename_i hroom
        obtain ⟨t1, t2⟩ := calcTrialVecs_ok hg4 (by exact hrz) (vals := vals) (v := v) rfl rfl hv0
          (by simpa using hroom)
        cases ht : calcTrialVecs cfg { s1 with
          ritzVals := some vals, coefs := some v, residuals := r, residualNorms := nr, convergence := List.replicate vals.length false } with
        | error e0 => exact ⟨fun e he => by cases he; exact t1 _ ht, fun s' hs' => (by cases hs'), fun s' hs' => by cases hs'⟩
        | ok s5 => exact ⟨fun e he => (by cases he), fun s' hs' => by cases hs'; exact t2 _ ht, fun s' hs' => by cases hs'⟩

theorem loop_ok (h1 : OrthOk lib.orth) (h2 : EighOk lib.eigh) (m : Bool) (k : ℕ) {s : State N} (h : Ready cfg A n s) :
    (∀ e, loop cfg lib m k s = .error e → e ≠ .indexError) ∧
    ∀ s' stop c, loop cfg lib m k s = .ok (s', stop, c) →
      (stop = false → Ready cfg A n s' ∧ c = k) ∧ (stop = true → m = true ∧ Grown cfg A n s' ∧ n ≤ s'.search.length) := by
  induction k generalizing s with
  | zero => exact ⟨fun e he => (by cases he), fun s' stop c hs' => by cases hs'; exact ⟨fun _ => ⟨h, rfl⟩, fun h => by cases h⟩⟩
  | succ k ih =>
    unfold loop
    obtain ⟨c1, c2, c3⟩ := cycle_ok h1 h2 m h
    cases hc : cycle cfg lib m s with
    | error e0 => exact ⟨fun e he => by cases he; exact c1 _ hc, fun s' stop c hs' => by cases hs'⟩
    | ok r =>
      obtain ⟨s1, stop⟩ := r
      cases stop with
      | true =>
        refine ⟨fun e he => (by cases he), fun s' stop c hs' => ?_⟩
        cases hs'
        exact ⟨fun h => (by cases h), fun _ => c3 _ hc⟩
      | false =>
        obtain ⟨l1, l2⟩ := ih (c2 _ hc)
        rw [ok_bind]
        dsimp only
        rw [if_neg (by decide)]
        cases hl : loop cfg lib m k s1 with
        | error e0 => exact ⟨fun e he => by cases he; exact l1 _ hl, fun s' stop c hs' => by cases hs'⟩
        | ok r =>
          obtain ⟨s2, stop, c⟩ := r
          refine ⟨fun e he => (by cases he), fun s' stop' c' hs' => ?_⟩
          cases hs'
          obtain ⟨l3, l4⟩ := l2 _ _ _ hl
          exact ⟨fun h => ⟨(l3 h).1, by rw [(l3 h).2]⟩, l4⟩

theorem init_ready {A : Vec N → Vec N} {L : List (Vec N)} {n : ℕ} {p : Option (Precond N)} (hL : L.length ≤ cfg.maxSpace + 3 * n)
    (hp : ∀ q, p = some q → PrecondOk q) : Ready cfg A n (init cfg A L n p) where
  op := rfl
  vals := rfl
  max := rfl
  bound := Nat.zero_le _
  col := rfl
  proj := fun _ i hi => by simp [init] at hi
  orth := orthonormal_nil
  last := rfl
  pre := hp
  room := by simpa [init] using hL
  perp := fun t _ b hb => by cases hb
  ritz := fun v hv => by cases hv

theorem loop_snoc {m : Bool} {k : ℕ} {s s' : State N} {c : ℕ} (h : loop cfg lib m k s = .ok (s', false, c)) :
    loop cfg lib m (k + 1) s = (do let r ← cycle cfg lib m s'; pure (r.1, r.2, c + 1)) := by
  induction k generalizing s c with
  | zero =>
    cases h
    unfold loop
    cases cycle cfg lib m s' with
    | error e => rfl
    | ok r => obtain ⟨t, b⟩ := r; cases b <;> rfl
  | succ k ih =>
    unfold loop at h
    obtain ⟨⟨t, b⟩, ht, h⟩ := bind_eq_ok.mp h
    cases b with
    | true => cases h
    | false =>
      dsimp only at h
      rw [if_neg (by decide)] at h
      obtain ⟨⟨t', b', c'⟩, ht', h⟩ := bind_eq_ok.mp h
      cases h
      rw [loop, ht, ok_bind]
      dsimp only
      rw [if_neg (by decide), ih ht']
      dsimp only
      cases cycle cfg lib m t' with
      | error e => rfl
      | ok r => rfl

theorem cycle_restart {s s1 : State N} (hg : Grown cfg A n s1) {hs' : grow lib false s = .ok s1} (hk : 0 < min s1.search.length n)
    (h2 : EighOk lib.eigh) {vals : List ℝ} {v : List (List ℝ)} (he : lib.eigh s1.search.length s1.sub (min s1.search.length n) = .ok (vals, v))
    (hfull : cfg.maxSpace + 3 * n < min s1.search.length n + s1.search.length) :
    ∃ t, cycle cfg lib false s = .ok (t, false) ∧ t.coefs = none := by
  obtain ⟨l1, l2, l3⟩ := h2.length hk (Nat.min_le_left _ _) he
  have hr : calcRitzPairs lib s1 = .ok { s1 with ritzVals := some vals, coefs := some v } := by
    unfold calcRitzPairs
    dsimp only
    rw [hg.vals, if_neg (by omega), he]
    rfl
  have hn : ∃ r nr, calcResidualNorms { s1 with ritzVals := some vals, coefs := some v } =
      .ok { s1 with ritzVals := some vals, coefs := some v, residuals := r, residualNorms := nr } := by
    unfold calcResidualNorms ritzVecs colRitzVecs
    dsimp only [ok_bind]
    split
    · rename_i h
      have := congrArg List.length h
      simp only [List.length_zipWith, List.length_zip, List.length_map, List.length_nil] at this
      omega
    · exact ⟨_, _, rfl⟩
  obtain ⟨r, nr, hn⟩ := hn
  unfold cycle
  rw [hs', ok_bind]
  simp only [Bool.false_and, Bool.false_eq_true, if_false]
  rw [hr, ok_bind, hn, ok_bind, isConverged_ok (s := { s1 with ritzVals := some vals, coefs := some v, residuals := r, residualNorms := nr })
        (vals := vals) rfl hg.last, ok_bind]
  dsimp only
  rw [if_neg (by decide), if_pos (by show vals.length + s1.search.length > s1.maxSpace; rw [hg.max]; omega)]
  exact ⟨_, rfl, rfl⟩

/-! ### A search space that is too large -/

/-- Raises nothing but an `IndexError`. -/
def OnlyIndex {α : Type} (r : Res α) : Prop := ∀ e, r = .error e → e = .indexError

theorem OnlyIndex.bind {α β : Type} {r : Res α} {f : α → Res β} (h : OnlyIndex r) (k : ∀ a, OnlyIndex (f a)) : OnlyIndex (r >>= f) := by
  cases r with
  | error e0 => intro e he; cases he; exact h _ rfl
  | ok a => exact k a

theorem onlyIndex_setItem (m : ℕ) (a : ℕ → ℕ → ℝ) (i j : ℕ) (x : ℝ) : OnlyIndex (setItem m a i j x) := by
  unfold setItem
  split
  · intro e he; cases he
  · intro e he; cases he; rfl

theorem onlyIndex_getItem (m : ℕ) (a : ℕ → ℕ → ℝ) (i j : ℕ) : OnlyIndex (getItem m a i j) := by
  unfold getItem
  split
  · intro e he; cases he
  · intro e he; cases he; rfl

theorem onlyIndex_foldlM {α ι : Type} (f : α → ι → Res α) (l : List ι) (h : ∀ a i, OnlyIndex (f a i)) (a : α) : OnlyIndex (l.foldlM f a) := by
  induction l generalizing a with
  | nil => intro e he; cases he
  | cons i l ih => rw [List.foldlM_cons]; exact (h a i).bind ih

theorem onlyIndex_setPair (m : ℕ) (v av : List (Vec N)) (a : ℕ → ℕ → ℝ) (i j : ℕ) : OnlyIndex (setPair m v av a i j) :=
  (onlyIndex_setItem _ _ _ _ _).bind fun _ => (onlyIndex_getItem _ _ _ _).bind fun _ => onlyIndex_setItem _ _ _ _ _

theorem onlyIndex_setRow (m : ℕ) (v av : List (Vec N)) (head : ℕ) (a : ℕ → ℕ → ℝ) (i : ℕ) : OnlyIndex (setRow m v av head a i) :=
  (onlyIndex_foldlM _ _ (fun _ _ => onlyIndex_setPair _ _ _ _ _ _) _).bind fun _ => onlyIndex_setItem _ _ _ _ _

theorem setRow_error (m : ℕ) (v av : List (Vec N)) (a : ℕ → ℕ → ℝ) : setRow m v av 0 a m = .error .indexError := by
  unfold setRow
  cases h : (List.range' 0 (m - 0)).foldlM (fun a j => setPair m v av a m j) a with
  | error e => rw [onlyIndex_foldlM _ _ (fun _ _ => onlyIndex_setPair _ _ _ _ _ _) _ e h]; rfl
  | ok b => exact if_neg (by omega)

theorem rows_error {m : ℕ} (v av : List (Vec N)) (a : ℕ → ℕ → ℝ) {k : ℕ} (h : m < k) :
    (List.range' 0 k).foldlM (fun a i => setRow m v av 0 a i) a = .error .indexError := by
  obtain ⟨d, rfl⟩ : ∃ d, k = m + (d + 1) := ⟨k - m - 1, by omega⟩
  rw [← List.range'_append (s := 0) (m := m) (n := d + 1) (step := 1), List.foldlM_append]
  cases h : (List.range' 0 m).foldlM (fun a i => setRow m v av 0 a i) a with
  | error e => rw [onlyIndex_foldlM _ _ (fun _ _ => onlyIndex_setRow _ _ _ _ _ _) _ e h]; rfl
  | ok b =>
    rw [ok_bind, List.range'_succ, List.foldlM_cons]
    rw [show 0 + 1 * m = m by omega, setRow_error]
    rfl

theorem keepAll_self (L vecs : List (Vec N)) (h : Orthonormal (vecs ++ L)) : L.foldl keep vecs = vecs ++ L := by
  induction L generalizing vecs with
  | nil => simp
  | cons u L ih =>
    have hu : ∀ w ∈ vecs, dot w u = 0 := fun w hw => (orthonormal_append.mp h).2.2 w hw u List.mem_cons_self
    have h1 : dot u u = 1 := h.1 u (by simp)
    have hf : ∀ M : List (Vec N), (∀ w ∈ M, dot w u = 0) → M.foldl (fun v (w : Vec N) i => v i - w i * dot w v) u = u := by
      intro M
      induction M with
      | nil => intro _; rfl
      | cons w M ihM =>
        intro hM
        rw [List.foldl_cons]
        have : (fun i => u i - w i * dot w u) = u := by
          funext i; rw [hM w List.mem_cons_self]; ring
        rw [this]
        exact ihM fun w hw => hM w (List.mem_cons_of_mem _ hw)
    have hk : keep vecs u = vecs ++ [u] := by
      unfold keep
      rw [hf vecs hu]
      have hn : norm u = 1 := by unfold norm; rw [h1]; exact Real.sqrt_one
      dsimp only
      rw [hn, if_pos (by norm_num)]
      congr 2
      funext i
      simp [scale]
    rw [List.foldl_cons, hk, ih _ (by simpa using h)]
    simp

end Davidson
