import Verif.Model.PoProp
import Verif.Props.C89

/-! C90: `PO_DVR.propagation`. -/

open Py
open scoped BigOperators

namespace PoProp

variable {σ : Type}

/-- `s'` is the state after the vector of `s` has been replaced by what `normalizer` makes of it; without `normalizer` nothing changes. -/
def Normalized (E : Env σ) (s s' : σ) : Prop :=
  (E.normalizer = none ∧ s' = s) ∨ ∃ f y, E.normalizer = some f ∧ f (E.y s) s = .ok y ∧ s' = E.setY y s

/-- `s'` is the state that the argument `updater` leaves behind; without `updater` nothing changes. -/
def Updated (E : Env σ) (s s' : σ) : Prop := (E.updater = none ∧ s' = s) ∨ ∃ f, E.updater = some f ∧ f s = (s', .ok ())

/-- The states `S 0, ..., S N` at which the solver is asked for its values: it makes `N` steps without exceptions and is finished (or has
failed) then. The normalizer is applied before the values are taken, the updater after each step. -/
structure Run (E : Env σ) (s0 : σ) (S : ℕ → σ) (N : ℕ) : Prop where
  first : Normalized E s0 (S 0)
  next : ∀ i < N, E.running (S i) = true ∧ ∃ u v, E.advance (S i) = (u, .ok ()) ∧ Updated E u v ∧ Normalized E v (S (i + 1))
  last : E.running (S N) = false

/-- The energy `e` is as close to `e0` as `const_energy` asks, where deviations up to `1e-8` do not count. -/
def Tolerated (const : Option ℝ) (e0 e : ℂ) : Prop := ∀ c, const = some c → c ≠ 0 → ‖e - e0‖ ≤ max c 1e-8

/-- What is yielded in a state. -/
noncomputable def valueAt (E : Env σ) (s : σ) : Yield := (E.t s, (E.y s).map Complex.re, (E.y s).map Complex.im)

private theorem normalize_eq {E : Env σ} {s s' : σ} (h : Normalized E s s') : E.normalize s = .ok s' := by
  unfold Env.normalize
  rcases h with ⟨h1, rfl⟩ | ⟨f, y, h1, h2, rfl⟩
  · rw [h1]
  · rw [h1]
    dsimp only
    rw [h2]
    rfl

private theorem after_eq {E : Env σ} {s s' : σ} (h : Updated E s s') : E.after s = (s', .ok ()) := by
  unfold Env.after
  rcases h with ⟨h1, rfl⟩ | ⟨f, h1, h2⟩
  · rw [h1]
  · rw [h1]
    exact h2

private theorem stops_iff (const : Option ℝ) (e0 e : ℂ) : stops const e0 e = false ↔ Tolerated const e0 e := by
  unfold stops Tolerated
  cases const with
  | none => simp
  | some c =>
    by_cases hc : c = 0
    · simp [hc]
    · simp only [ne_eq, hc, not_false_eq_true, decide_true, Bool.true_and, Bool.and_eq_false_iff, decide_eq_false_iff_not, not_lt]
      constructor
      · rintro h c' e' -
        cases e'
        rcases h with h | h
        · exact h.trans (le_max_right _ _)
        · exact h.trans (le_max_left _ _)
      · intro h
        rcases le_max_iff.1 (h c rfl hc) with h | h
        · exact Or.inr h
        · exact Or.inl h

private theorem loop_run (E : Env σ) (pep479 : Bool) (const : Option ℝ) (e0 : ℂ) : ∀ (N k : ℕ) (S : ℕ → σ) (s0 : σ), Run E s0 S N →
    (∀ i ≤ N, ∃ e, E.energy (E.y (S i)) (S i) = .ok e ∧ Tolerated const e0 e) →
    loop E pep479 const e0 k s0 = ((List.range (min k (N + 1))).map fun i => valueAt E (S i),
      if k ≤ N + 1 then .suspended else stopIteration pep479)
  | _, 0, _, _, _, _ => by simp [loop]
  | N, k + 1, S, s0, hr, he => by
    obtain ⟨e, e1, e2⟩ := he 0 (Nat.zero_le _)
    rw [loop, normalize_eq hr.first]
    dsimp only
    rw [e1]
    dsimp only
    rw [(stops_iff const e0 e).2 e2]
    simp only [Bool.false_eq_true, if_false]
    by_cases hk : k = 0
    · subst hk
      rw [if_pos rfl, if_pos (by omega)]
      have : min (0 + 1) (N + 1) = 1 := by omega
      rw [this]
      rfl
    · rw [if_neg hk]
      cases N with
      | zero =>
        have hst : E.step (S 0) = (S 0, .error .runtimeError) := by
          unfold Env.step
          rw [hr.last]
          rfl
        rw [hst, if_neg (by omega)]
        have : min (k + 1) (0 + 1) = 1 := by omega
        rw [this]
        rfl
      | succ N =>
        obtain ⟨h1, u, v, h2, h3, h4⟩ := hr.next 0 (Nat.succ_pos _)
        have hst : E.step (S 0) = (u, .ok ()) := by
          unfold Env.step
          rw [h1, if_pos rfl, h2]
        rw [hst]
        dsimp only
        rw [after_eq h3]
        dsimp only
        have ih := loop_run E pep479 const e0 N k (fun i => S (i + 1)) v
          ⟨h4, fun i hi => hr.next (i + 1) (by omega), hr.last⟩ (fun i hi => he (i + 1) (by omega))
        rw [ih]
        dsimp only
        have hm : min (k + 1) (N + 1 + 1) = min k (N + 1) + 1 := by omega
        rw [hm, List.range_succ_eq_map, List.map_cons, List.map_map]
        refine Prod.ext rfl ?_
        dsimp only
        by_cases hkn : k ≤ N + 1
        · rw [if_pos hkn, if_pos (by omega)]
        · rw [if_neg hkn, if_neg (by omega)]

/-- **C90.** `propagation` yields the initial values and then those after each step, one for each `next`, as long as the solver runs and the
energy is within the limit. -/
theorem C90_values (E : Env σ) (pep479 : Bool) (const : Option ℝ) (init : List ℂ) (s0 : σ) (e0 : ℂ) (S : ℕ → σ) (N : ℕ)
    (h0 : E.energy init s0 = .ok e0) (hr : Run E s0 S N)
    (he : ∀ i ≤ N, ∃ e, E.energy (E.y (S i)) (S i) = .ok e ∧ Tolerated const e0 e) (k : ℕ) :
    (propagation E pep479 const init k s0).1 = (List.range (min k (N + 1))).map (fun i => valueAt E (S i)) ∧
    (k ≤ N + 1 → (propagation E pep479 const init k s0).2 = .suspended) := by
  unfold propagation
  split
  · rename_i hk
    subst hk
    exact ⟨by simp, fun _ => rfl⟩
  · rw [h0]
    dsimp only
    rw [loop_run E pep479 const e0 N k S s0 hr he]
    exact ⟨rfl, fun hk => if_pos hk⟩

/-- **C90.** Before Python 3.7 the iteration ends after the values of the finished solver. -/
theorem C90_end_partial (E : Env σ) (const : Option ℝ) (init : List ℂ) (s0 : σ) (e0 : ℂ) (S : ℕ → σ) (N : ℕ)
    (h0 : E.energy init s0 = .ok e0) (hr : Run E s0 S N)
    (he : ∀ i ≤ N, ∃ e, E.energy (E.y (S i)) (S i) = .ok e ∧ Tolerated const e0 e) (k : ℕ) (hk : N + 1 < k) :
    (propagation E false const init k s0).2 = .stopped := by
  unfold propagation
  rw [if_neg (by omega), h0]
  dsimp only
  rw [loop_run E false const e0 N k S s0 hr he]
  dsimp only
  rw [if_neg (by omega)]
  rfl

/-- Since Python 3.7 it does not: every propagation to its end raises RuntimeError. -/
theorem C90_end_violated (E : Env σ) (const : Option ℝ) (init : List ℂ) (s0 : σ) (e0 : ℂ) (S : ℕ → σ) (N : ℕ)
    (h0 : E.energy init s0 = .ok e0) (hr : Run E s0 S N)
    (he : ∀ i ≤ N, ∃ e, E.energy (E.y (S i)) (S i) = .ok e ∧ Tolerated const e0 e) (k : ℕ) (hk : N + 1 < k) :
    (propagation E true const init k s0).2 = .raised .runtimeError := by
  unfold propagation
  rw [if_neg (by omega), h0]
  dsimp only
  rw [loop_run E true const e0 N k S s0 hr he]
  dsimp only
  rw [if_neg (by omega)]
  rfl

private theorem loop_energy (E : Env σ) (pep479 : Bool) (const : Option ℝ) (e0 : ℂ) : ∀ (k : ℕ) (s : σ),
    ∀ v ∈ (loop E pep479 const e0 k s).1, ∃ s' e, v = valueAt E s' ∧ E.energy (E.y s') s' = .ok e ∧ Tolerated const e0 e
  | 0, s => by simp [loop]
  | k + 1, s => by
    rw [loop]
    cases E.normalize s with
    | error e => simp
    | ok s =>
      dsimp only
      cases he : E.energy (E.y s) s with
      | error e => simp
      | ok e =>
        dsimp only
        by_cases hst : stops const e0 e = true
        · rw [if_pos hst]
          simp
        · have hv : ∃ s' e, (valueAt E s) = valueAt E s' ∧ E.energy (E.y s') s' = .ok e ∧ Tolerated const e0 e :=
            ⟨s, e, rfl, he, (stops_iff const e0 e).1 (by simpa using hst)⟩
          rw [if_neg hst]
          have hone : ∀ v ∈ [valueAt E s], ∃ s' e, v = valueAt E s' ∧ E.energy (E.y s') s' = .ok e ∧ Tolerated const e0 e := by
            intro v hm
            rw [List.mem_singleton.1 hm]
            exact hv
          split
          · exact hone
          · split
            · exact hone
            · exact hone
            · split
              · exact hone
              · intro v hm
                rcases List.mem_cons.1 hm with h | h
                · rw [h]
                  exact hv
                · exact loop_energy E pep479 const e0 k _ v h

/-- **C90.** With `const_energy` no value is yielded whose energy deviates by more, whatever the solver does. -/
theorem C90_energy (E : Env σ) (pep479 : Bool) (const : Option ℝ) (init : List ℂ) (s0 : σ) (e0 : ℂ) (h0 : E.energy init s0 = .ok e0)
    (k : ℕ) : ∀ v ∈ (propagation E pep479 const init k s0).1,
      ∃ s e, v = valueAt E s ∧ E.energy (E.y s) s = .ok e ∧ Tolerated const e0 e := by
  unfold propagation
  split
  · simp
  · rw [h0]
    exact loop_energy E pep479 const e0 k s0

end PoProp

namespace PoDvr

open PoProp

private theorem ham_linear (conf : List (ℝ × ℝ × ℕ)) (T : ℕ → Nd ℂ) (Vs : List (ℝ → ℂ)) (W : List ℝ → ℂ) (y : List ℂ) (f : ℂ) (idx : List ℕ) :
    f * hamiltonian conf T Vs W (y.map fun a => ((a.im : ℝ) : ℂ)) idx +
      Complex.I * (-f * hamiltonian conf T Vs W (y.map fun a => ((a.re : ℝ) : ℂ)) idx) =
      -(Complex.I * f) * hamiltonian conf T Vs W y idx := by
  have hm : ∀ n, (y.map fun a => ((a.im : ℝ) : ℂ)).getD n 0 = (((y.getD n 0).im : ℝ) : ℂ) := by
    intro n
    by_cases hn : n < y.length
    · rw [List.getD_eq_getElem _ _ (by simpa using hn), List.getElem_map, List.getD_eq_getElem _ _ hn]
    · rw [List.getD_eq_default _ _ (by simpa using hn), List.getD_eq_default _ _ (by simpa using hn)]
      simp
  have hm' : ∀ n, (y.map fun a => ((a.re : ℝ) : ℂ)).getD n 0 = (((y.getD n 0).re : ℝ) : ℂ) := by
    intro n
    by_cases hn : n < y.length
    · rw [List.getD_eq_getElem _ _ (by simpa using hn), List.getElem_map, List.getD_eq_getElem _ _ hn]
    · rw [List.getD_eq_default _ _ (by simpa using hn), List.getD_eq_default _ _ (by simpa using hn)]
      simp
  have key : ∀ z : ℂ, f * ((z.im : ℝ) : ℂ) + Complex.I * (-f * ((z.re : ℝ) : ℂ)) = -(Complex.I * f) * z := by
    intro z
    conv_rhs => rw [← Complex.re_add_im z]
    linear_combination (f * (z.im : ℂ)) * Complex.I_sq
  unfold hamiltonian
  simp only [hm, hm', mul_add, Finset.mul_sum]
  have e : ∀ (a z : ℂ), -(Complex.I * f) * (a * z) = f * (a * ((z.im : ℝ) : ℂ)) + Complex.I * (-f * (a * ((z.re : ℝ) : ℂ))) := by
    intro a z
    have := key z
    linear_combination (-a) * this
  simp only [e, Finset.sum_add_distrib]
  ring

/-- **C90.** The function given to the solver is the Schrödinger equation `i ħ y' = (∑ᵢ (Tᵢ + vᵢ) + v_rst) y` (restrictions as in C89). -/
theorem C90_equation_partial (conf : List (ℝ × ℝ × ℕ)) (hbar me : ℝ) (hh : hbar ≠ 0) (ops : List Op) (Vs : List (ℝ → ℂ))
    (W : Option (List ℝ → ℂ)) (hV : Vs.length = conf.length) (hn : ∀ c ∈ conf, 0 < c.2.2) (hc : Dvr.TailConst 0 (conf.map fun c => c.2.2))
    (hW : W = none → ∀ p ∈ ops, p.plain) :
    ∃ o T, ((new conf hbar me).run ops).setVFunc (Vs.map pointwise) W = (o, .ok ()) ∧
      (∀ (i : ℕ) (D : SineDVR), (new conf hbar me).dvrs[i]? = some D → D.tMat = .ok (T i)) ∧
      ∀ y : List ℂ, y.length = (conf.map fun c => c.2.2).prod → ∃ y', derivative hbar o.apply y = .ok y' ∧ y'.length = y.length ∧
        ∀ idx, Valid (conf.map fun c => c.2.2) idx →
          Complex.I * hbar * y'.getD (ravel (conf.map fun c => c.2.2) idx) 0 = hamiltonian conf T Vs (W.getD fun _ => 0) y idx := by
  obtain ⟨o, T, h1, h2, h3⟩ := C89_history_partial conf hbar me ops Vs W hV hn hc hW
  refine ⟨o, T, h1, h2, fun y hy => ?_⟩
  obtain ⟨r, r1, r2, r3⟩ := h3 (y.map fun a => ((a.im : ℝ) : ℂ)) (by simpa using hy)
  obtain ⟨q, q1, q2, q3⟩ := h3 (y.map fun a => ((a.re : ℝ) : ℂ)) (by simpa using hy)
  rw [List.length_map] at r2 q2
  have hd : Corr.rdiv 1 hbar = .ok (1 / hbar) := by unfold Corr.rdiv; rw [if_neg hh]
  refine ⟨List.zipWith (fun a b => a + Complex.I * b) (r.map fun a => (((1 / hbar : ℝ)) : ℂ) * a)
    (q.map fun a => -(((1 / hbar : ℝ)) : ℂ) * a), ?_, by simp [r2, q2], fun idx hidx => ?_⟩
  · unfold derivative scaled
    rw [hd, ok_bind]
    dsimp only
    rw [r1, ok_bind, q1]
    rfl
  · have hlt : ravel (conf.map fun c => c.2.2) idx < y.length := hy ▸ ravel_lt hidx
    obtain ⟨_, hr⟩ := List.getElem?_eq_some_iff.1 (r3 idx hidx)
    obtain ⟨_, hq⟩ := List.getElem?_eq_some_iff.1 (q3 idx hidx)
    rw [List.getD_eq_getElem _ _ (by simpa [r2, q2] using hlt), List.getElem_zipWith, List.getElem_map, List.getElem_map, hr, hq,
      ham_linear]
    have hhc : (hbar : ℂ) ≠ 0 := by exact_mod_cast hh
    push_cast
    field_simp
    rw [Complex.I_sq]
    ring

end PoDvr

namespace PoProp

/-- A solver that makes two steps of length 1 and doubles the vector, with an updater that changes nothing and a normalizer that halves the
first entry. -/
noncomputable def exEnv : Env (ℕ × List ℂ) where
  t s := s.1
  y s := s.2
  setY y s := (s.1, y)
  running s := decide (s.1 < 2)
  advance s := ((s.1 + 1, s.2.map fun a => 2 * a), .ok ())
  energy _ _ := .ok 1
  updater := some fun s => (s, .ok ())
  normalizer := some fun y _ => .ok [y.headD 0 / 2, 1]

/-- The hypotheses are met. -/
example : Run exEnv (0, [2, 1]) (fun i => (i, [1, 1])) 2 ∧ exEnv.energy [2, 1] (0, [2, 1]) = .ok 1 ∧
    ∀ i ≤ 2, ∃ e, exEnv.energy (exEnv.y (i, [1, 1])) (i, [1, 1]) = .ok e ∧ Tolerated (some 1) 1 e :=
  ⟨⟨.inr ⟨_, [1, 1], rfl, by simp [exEnv], rfl⟩, fun i hi => ⟨by simpa [exEnv] using hi, (i + 1, [2, 2]), (i + 1, [2, 2]),
      by simp [exEnv], .inr ⟨_, rfl, rfl⟩, .inr ⟨_, [1, 1], rfl, by simp [exEnv], rfl⟩⟩, by simp [exEnv]⟩, rfl,
    fun i _ => ⟨1, rfl, fun c hc _ => by cases hc; simp⟩⟩

end PoProp
