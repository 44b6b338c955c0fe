import Verif.Lemmas.MaxEntangled
import Verif.Props.C50
import Mathlib.Tactic.LinearCombination

/-!
Lemmas for C108: a search with a diagonal operator does not leave the coordinates of its start vectors.
-/

open Py
open scoped BigOperators

namespace Davidson

variable {N : ℕ} {cfg : Config} {lib : Lib N} {A : Vec N → Vec N} {n : ℕ}

/-- The coordinate `i` of all vectors vanishes. -/
structure Null (i : Fin N) (s : State N) : Prop where
  search : ∀ v ∈ s.search, v i = 0
  trial : ∀ v ∈ s.trial, v i = 0
  pre : ∀ p, s.precond = some p → ∀ r x u w, p r x u = .ok w → r i = 0 → w i = 0

theorem fold_null {i : Fin N} (f : Vec N → Vec N → ℝ) (L : List (Vec N)) : (∀ u ∈ L, u i = 0) → ∀ v : Vec N, v i = 0 →
    (L.foldl (fun v (u : Vec N) j => v j - u j * f u v) v) i = 0 := by
  induction L with
  | nil => exact fun _ v hv => hv
  | cons u L ih =>
    intro hL v hv
    rw [List.foldl_cons]
    refine ih (fun q hq => hL q (by simp [hq])) _ ?_
    rw [hv, hL u (by simp)]
    ring

theorem keep_null {i : Fin N} {vecs : List (Vec N)} {v : Vec N} (h1 : ∀ u ∈ vecs, u i = 0) (h2 : v i = 0) : ∀ u ∈ keep vecs v, u i = 0 := by
  unfold keep
  dsimp only
  split
  · intro u hu
    rcases List.mem_append.1 hu with q | q
    · exact h1 u q
    · rw [List.mem_singleton.1 q]
      unfold scale
      rw [fold_null _ _ h1 v h2, mul_zero]
  · exact h1

theorem keepAll_null {i : Fin N} (L : List (Vec N)) : ∀ {vecs : List (Vec N)}, (∀ u ∈ vecs, u i = 0) → (∀ v ∈ L, v i = 0) →
    ∀ u ∈ L.foldl keep vecs, u i = 0 := by
  induction L with
  | nil => exact fun h _ => h
  | cons v L ih => exact fun h1 h2 => ih (keep_null h1 (h2 v (by simp))) fun q hq => h2 q (by simp [hq])

theorem transVec_null {i : Fin N} (x : List ℝ) {L : List (Vec N)} (h : ∀ v ∈ L, v i = 0) : transVec x L i = 0 := by
  have key : ∀ (M : List (Vec N)) (a : Vec N), a i = 0 → (∀ v ∈ M, v i = 0) → (M.foldl (fun a b j => a j + b j) a) i = 0 := by
    intro M
    induction M with
    | nil => exact fun a ha _ => ha
    | cons u M ih =>
      intro a ha hM
      rw [List.foldl_cons]
      refine ih _ ?_ fun q hq => hM q (by simp [hq])
      rw [ha, hM u (by simp), add_zero]
  refine key _ _ rfl fun v hv => ?_
  obtain ⟨k, hk, rfl⟩ := List.getElem_of_mem hv
  rw [List.getElem_zipWith]
  unfold scale
  rw [h _ (List.getElem_mem _), mul_zero]

theorem precond_null {i : Fin N} {r u w : Vec N} {x : ℝ} (h : davidsonPrecondition cfg A r x u = .ok w) (hr : r i = 0) : w i = 0 := by
  unfold davidsonPrecondition at h
  dsimp only at h
  split at h
  · cases h
    simp only
    rw [hr, zero_div]
  · cases h

theorem trialVec_null {i : Fin N} {s : State N} {p : Precond N} {x nr : ℝ} {r u : Vec N} {c : Bool} (h1 : ∀ v ∈ s.search, v i = 0)
    (hp : ∀ r x u w, p r x u = .ok w → r i = 0 → w i = 0) (hr : r i = 0) {o : Option (Vec N)} (h : trialVec cfg s p x r nr u c = .ok o) :
    ∀ t ∈ o, t i = 0 := by
  unfold trialVec at h
  split at h
  · obtain ⟨w, hw, h⟩ := bind_eq_ok.mp h
    have hw0 := hp _ _ _ _ hw hr
    by_cases hz : norm w = 0
    · rw [if_pos hz] at h; cases h
    rw [if_neg hz] at h
    dsimp only at h
    have hfold : ∀ (L : List (Vec N)) (v : Vec N), (∀ u ∈ L, u i = 0) → v i = 0 →
        (L.foldl (fun v (base : Vec N) j => v j - dot base v * base j) v) i = 0 := by
      intro L
      induction L with
      | nil => exact fun v _ hv => hv
      | cons u L ih =>
        intro v hL hv
        rw [List.foldl_cons]
        refine ih _ (fun q hq => hL q (by simp [hq])) ?_
        rw [hv, hL u (by simp)]
        ring
    have h0 := hfold s.search (scale (1 / norm w) w) h1 (by unfold scale; rw [hw0, mul_zero])
    split at h
    · split at h
      · cases h
      · cases h
        intro t ht
        cases ht
        unfold scale at h0 ⊢
        rw [h0, mul_zero]
    · cases h
      intro t ht; cases ht
  · cases h
    intro t ht; cases ht

theorem trialFold_null {ι : Type} {i : Fin N} (f : ι → Res (Option (Vec N))) (l : List ι) (hf : ∀ p ∈ l, ∀ o, f p = .ok o → ∀ t ∈ o, t i = 0) :
    ∀ acc : List (Vec N), (∀ t ∈ acc, t i = 0) → ∀ T, l.foldlM (fun acc p => do let v ← f p; pure (acc ++ v.toList)) acc = Except.ok T →
      ∀ t ∈ T, t i = 0 := by
  induction l with
  | nil => intro acc ha T hT; cases hT; exact ha
  | cons p l ih =>
    intro acc ha T hT
    rw [List.foldlM_cons] at hT
    obtain ⟨acc', h1, hT⟩ := bind_eq_ok.mp hT
    obtain ⟨o, ho, h1⟩ := bind_eq_ok.mp h1
    cases h1
    refine ih (fun q hq => hf q (by simp [hq])) _ (fun t ht => ?_) T hT
    rcases List.mem_append.1 ht with q | q
    · exact ha t q
    · exact hf p (by simp) o ho t (by simpa using q)

/-- One cycle of the search keeps the coordinate zero, if the operator does. -/
theorem cycle_null (h1 : OrthOk lib.orth) (h2 : EighOk lib.eigh) {i : Fin N} (hA : ∀ v : Vec N, v i = 0 → A v i = 0) {s s' : State N} {b : Bool}
    (h : Ready cfg A n s) (hn : Null i s) (hc : cycle cfg lib true s = .ok (s', b)) :
    (∀ v ∈ s'.search, v i = 0) ∧ (b = false → Null i s') := by
  have hsearch : ∀ v ∈ s'.search, v i = 0 := by
    rw [cycle_search h1 h2 h hc]
    intro v hv
    rcases List.mem_append.1 hv with q | q
    · exact hn.search v q
    · exact keepAll_null _ (fun u hu => (List.not_mem_nil hu).elim) hn.trial v q
  refine ⟨hsearch, fun hb0 => ?_⟩
  subst hb0
  obtain ⟨s1, hs1, hg, -, -, -, he⟩ := grow_ok h1 true h
  have hpre1 : s1.precond = s.precond := by
    unfold grow at hs1
    unfold extendSpace at hs1
    dsimp only at hs1
    obtain ⟨a, -, hs1⟩ := bind_eq_ok.mp hs1
    obtain ⟨a2, -, hs1⟩ := bind_eq_ok.mp hs1
    cases hs1
    unfold orthonormalize
    dsimp only
    split
    · rfl
    · split <;> rfl
  have hs1s : ∀ v ∈ s1.search, v i = 0 := by
    rw [he]
    intro v hv
    rcases List.mem_append.1 hv with q | q
    · exact hn.search v q
    · unfold orthonormalize at q
      by_cases hemp : s.trial.isEmpty = true
      · simp only [hemp, Bool.not_true, Bool.and_self, Bool.false_eq_true, if_false] at q
        exact hn.trial v q
      · simp only [hemp, Bool.not_true, Bool.false_and, Bool.false_eq_true, if_false, Bool.not_false, if_true] at q
        exact keepAll_null _ (fun u hu => (List.not_mem_nil hu).elim) hn.trial v q
  unfold cycle at hc
  rw [hs1, ok_bind] at hc
  by_cases hb : (true && decide (s1.search.length ≥ s1.nVals)) = true
  · rw [if_pos hb] at hc
    cases hc
  rw [if_neg hb] at hc
  obtain ⟨-, r2⟩ := calcRitzPairs_ok h2 hg
  obtain ⟨s2, hr, hc⟩ := bind_eq_ok.mp hc
  obtain ⟨vals, v, rfl, hv0, hvl, hrz⟩ := r2 s2 hr
  obtain ⟨s3, hn3, hc⟩ := bind_eq_ok.mp hc
  have hres : ∃ nr r, s3 = { s1 with ritzVals := some vals, coefs := some v, residuals := r, residualNorms := nr } ∧
      ∀ q ∈ r, q i = 0 := by
    unfold calcResidualNorms ritzVecs colRitzVecs at hn3
    dsimp only [ok_bind] at hn3
    split at hn3
    · cases hn3
    · cases hn3
      refine ⟨_, _, rfl, fun q hq => ?_⟩
      obtain ⟨k, hk, rfl⟩ := List.getElem_of_mem hq
      rw [List.getElem_zipWith]
      simp only [List.getElem_zip, List.getElem_map]
      rw [transVec_null _ hs1s, transVec_null]
      · ring
      · intro w hw
        rw [hg.col] at hw
        obtain ⟨u, hu, rfl⟩ := List.mem_map.1 hw
        exact hA u (hs1s u hu)
  obtain ⟨nr, r, rfl, hr0⟩ := hres
  rw [isConverged_ok (s := { s1 with ritzVals := some vals, coefs := some v, residuals := r, residualNorms := nr })
    (vals := vals) rfl hg.last, ok_bind] at hc
  dsimp only at hc
  rw [if_neg (by decide)] at hc
  have hpn : ∀ r x u w, (s1.precond.getD (davidsonPrecondition cfg s1.matvec)) r x u = .ok w → r i = 0 → w i = 0 := by
    cases hq : s1.precond with
    | none => exact fun r x u w hw => precond_null (u := u) hw
    | some p => exact hn.pre p (by rw [← hpre1, hq])
  split at hc
  · unfold restart ritzVecs at hc
    dsimp only at hc
    cases hc
    refine ⟨fun v hv => (List.not_mem_nil hv).elim, fun w hw => ?_, fun p hp => by cases hp⟩
    obtain ⟨u, -, rfl⟩ := List.mem_map.1 hw
    exact transVec_null _ hs1s
  · obtain ⟨s5, h5, hc⟩ := bind_eq_ok.mp hc
    cases hc
    unfold calcTrialVecs at h5
    dsimp only at h5
    split at h5
    · cases h5
    unfold ritzVecs at h5
    dsimp only [ok_bind] at h5
    obtain ⟨T, hT, h5⟩ := bind_eq_ok.mp h5
    cases h5
    refine ⟨hs1s, ?_, fun p hp => ?_⟩
    · have hT' := hT
      cases vals with
      | nil =>
        refine trialFold_null (fun p => (Except.error Err.indexError : Res (Option (Vec N)))) _ (fun p _ o ho => by cases ho) []
          (fun t ht => (List.not_mem_nil ht).elim) T hT
      | cons val vs =>
        refine trialFold_null (fun p : (Vec N × ℝ) × (Vec N × Bool) => trialVec cfg { s1 with ritzVals := some (val :: vs), coefs := some v, residuals := r, residualNorms := nr, convergence := List.replicate (val :: vs).length false } (s1.precond.getD (davidsonPrecondition cfg s1.matvec)) val p.1.1 p.1.2 p.2.1 p.2.2)
          _ (fun p hp o ho => ?_) [] (fun t ht => (List.not_mem_nil ht).elim) T hT
        exact trialVec_null hs1s hpn (hr0 _ (List.of_mem_zip (List.of_mem_zip hp).1).1) ho
    · cases hp
      exact hpn

/-- The whole search keeps the coordinate zero. -/
theorem search_null (h1 : OrthOk lib.orth) (h2 : EighOk lib.eigh) {i : Fin N} (hA : ∀ v : Vec N, v i = 0 → A v i = 0) :
    ∀ (k : ℕ) (s s' : State N) (b : Bool) (c : ℕ), Ready cfg A n s → Null i s → loop cfg lib true k s = .ok (s', b, c) → ∀ v ∈ s'.search, v i = 0 := by
  intro k
  induction k with
  | zero => intro s s' b c _ hn hl; cases hl; exact hn.search
  | succ k ih =>
    intro s s' b c hr hn hl
    unfold loop at hl
    obtain ⟨⟨s1, stop⟩, hcy, hl⟩ := bind_eq_ok.mp hl
    obtain ⟨g1, g2⟩ := cycle_null h1 h2 hA hr hn hcy
    dsimp only at hl
    cases stop with
    | true => cases hl; exact g1
    | false =>
      rw [if_neg (by decide)] at hl
      obtain ⟨⟨s2, stop2, c2⟩, hl2, hl⟩ := bind_eq_ok.mp hl
      cases hl
      exact ih s1 _ _ _ ((cycle_ok h1 h2 true hr).2.1 _ hcy) (g2 rfl) hl2

end Davidson
