import Verif.Lemmas.Davidson2

/-!
Lemmas for C108: in search mode, the vectors of the search space stay in it, and there is no restart.
-/

open Py
open scoped BigOperators

namespace Davidson

variable {N : ℕ} {cfg : Config} {lib : Lib N} {A : Vec N → Vec N} {n : ℕ}

theorem calcTrialVecs_search {s s' : State N} (h : calcTrialVecs cfg s = .ok s') : s'.search = s.search := by
  unfold calcTrialVecs at h
  dsimp only at h
  split at h
  · cases h
  · cases hv : s.ritzVals with
    | none => rw [hv] at h; cases h
    | some vals =>
      rw [hv] at h
      dsimp only [ok_bind] at h
      obtain ⟨us, -, h⟩ := bind_eq_ok.mp h
      obtain ⟨t, -, h⟩ := bind_eq_ok.mp h
      cases h
      rfl

/-- A cycle in search mode: what it does to the search space. -/
theorem cycle_search (h1 : OrthOk lib.orth) (h2 : EighOk lib.eigh) {s s' : State N} {b : Bool} (h : Ready cfg A n s)
    (hc : cycle cfg lib true s = .ok (s', b)) : s'.search = s.search ++ s.trial.foldl keep [] := by
  obtain ⟨s1, hs1, hg, -, -, -, he⟩ := grow_ok h1 true h
  have ho : (orthonormalize lib (!true) s).trial = s.trial.foldl keep [] := by
    unfold orthonormalize
    cases ht : s.trial with
    | nil => simp [ht]
    | cons _ _ => simp
  rw [ho] at he
  rw [← he]
  unfold cycle at hc
  rw [hs1, ok_bind] at hc
  by_cases hb : (true && decide (s1.search.length ≥ s1.nVals)) = true
  · rw [if_pos hb] at hc
    cases hc
    rfl
  rw [if_neg hb] at hc
  simp only [Bool.true_and, decide_eq_true_eq, not_le, ge_iff_le] at hb
  obtain ⟨r1, r2⟩ := calcRitzPairs_ok h2 hg
  obtain ⟨s2, hr, hc⟩ := bind_eq_ok.mp hc
  obtain ⟨vals, v, rfl, hv0, hvl, hrz⟩ := r2 s2 hr
  obtain ⟨n1, n2⟩ := calcResidualNorms_ok (s := { s1 with ritzVals := some vals, coefs := some v }) rfl rfl
  obtain ⟨s3, hn, hc⟩ := bind_eq_ok.mp hc
  obtain ⟨r, nr, rfl⟩ := n2 s3 hn
  rw [isConverged_ok (s := { s1 with ritzVals := some vals, coefs := some v, residuals := r, residualNorms := nr })
    (vals := vals) rfl hg.last, ok_bind] at hc
  dsimp only at hc
  rw [if_neg (by decide)] at hc
  obtain ⟨hne, vals', hv', hl, hmin, -⟩ := hrz v rfl
  cases hv'
  split at hc
  · rename_i hroom
    exfalso
    have e1 : s1.maxSpace = cfg.maxSpace + 3 * n := hg.max
    have e2 : s1.nVals = n := hg.vals
    have e3 : v.length = min s1.search.length n := hmin
    simp only [Option.getD_some] at hroom
    omega
  · obtain ⟨s5, h5, hc⟩ := bind_eq_ok.mp hc
    cases hc
    have := calcTrialVecs_search h5
    exact this

/-- The start vector, if it is normalised, is the first vector of the search space. -/
theorem search_head (h1 : OrthOk lib.orth) (h2 : EighOk lib.eigh) {v : Vec N} (hv : dot v v = 1) (hm : 1 ≤ cfg.maxSpace + 3 * n)
    (hc : 0 < cfg.maxCycle) {vecs : List (Vec N)} (hk : kernelSearch cfg lib (init cfg A [v] n none) = .ok vecs) :
    ∃ rest, vecs = v :: rest := by
  have hfirst : [v].foldl keep [] = [v] := by
    rw [keepAll_self [v] [] ⟨by simpa using hv, by simp⟩]; rfl
  have step : ∀ (s s' : State N) (b : Bool), Ready cfg A n s → ((s.search = [] ∧ s.trial = [v]) ∨ ∃ rest, s.search = v :: rest) →
      cycle cfg lib true s = .ok (s', b) → ∃ rest, s'.search = v :: rest := by
    intro s s' b hr hs hcy
    have := cycle_search h1 h2 hr hcy
    rcases hs with ⟨a1, a2⟩ | ⟨rest, a1⟩
    · rw [a1, a2, hfirst] at this
      exact ⟨[], this⟩
    · rw [a1] at this
      exact ⟨_, this⟩
  have run : ∀ (k : ℕ) (s s' : State N) (b : Bool) (c : ℕ), 0 < k → Ready cfg A n s →
      ((s.search = [] ∧ s.trial = [v]) ∨ ∃ rest, s.search = v :: rest) →
      loop cfg lib true k s = .ok (s', b, c) → ∃ rest, s'.search = v :: rest := by
    intro k
    induction k with
    | zero => intro s s' b c h0; omega
    | succ k ih =>
      intro s s' b c _ hr hs hl
      unfold loop at hl
      obtain ⟨⟨s1, stop⟩, hcy, hl⟩ := bind_eq_ok.mp hl
      have h3 := step s s1 stop hr hs hcy
      dsimp only at hl
      cases stop with
      | true => cases hl; exact h3
      | false =>
        rw [if_neg (by decide)] at hl
        obtain ⟨⟨s2, stop2, c2⟩, hl2, hl⟩ := bind_eq_ok.mp hl
        cases hl
        cases k with
        | zero =>
          cases hl2
          exact h3
        | succ k => exact ih s1 _ _ _ (by omega) ((cycle_ok h1 h2 true hr).2.1 _ hcy) (.inr h3) hl2
  unfold kernelSearch at hk
  obtain ⟨⟨s, b, c⟩, hl, hk⟩ := bind_eq_ok.mp hk
  cases hk
  exact run _ _ _ _ _ hc (init_ready (by simpa using hm) (fun q hq => by cases hq)) (.inl ⟨rfl, rfl⟩) hl

/-- With one vector to find, the search returns the start vector. -/
theorem search_one (h1 : OrthOk lib.orth) {v : Vec N} (hv : dot v v = 1) (hc : 0 < cfg.maxCycle) :
    kernelSearch cfg lib (init cfg A [v] 1 none) = .ok [v] := by
  have hfirst : [v].foldl keep [] = [v] := by
    rw [keepAll_self [v] [] ⟨by simpa using hv, by simp⟩]; rfl
  obtain ⟨s1, hs1, hg, -, -, -, he⟩ := grow_ok (cfg := cfg) (A := A) (n := 1) h1 true
    (init_ready (L := [v]) (p := none) (by simp) (fun q hq => by cases hq))
  have he' : s1.search = [v] := by
    rw [he]
    unfold orthonormalize
    show [] ++ _ = _
    simpa [init] using hfirst
  obtain ⟨k, hk⟩ : ∃ k, cfg.maxCycle = k + 1 := ⟨cfg.maxCycle - 1, by omega⟩
  unfold kernelSearch
  rw [hk]
  unfold loop cycle
  rw [hs1, ok_bind, if_pos (by simp [he', hg.vals])]
  show Except.ok s1.search = _
  rw [he']

end Davidson
