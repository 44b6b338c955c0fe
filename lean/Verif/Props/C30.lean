import Verif.Model.Ode
import Mathlib.Algebra.Ring.Int.Defs
import Mathlib.Algebra.Ring.Nat
import Mathlib.Tactic.Ring
import Mathlib.Data.Nat.Find

/-!
C30: the limit on the number of solver steps.

To count the solver steps, the theorems run `_solve_ode` on a state extended with a counter that every call of
`ode_solver.step()` increments.
-/

namespace Ode

open Py

variable {σ : Type}

/-- A call on the state, when there is a counter next to it. -/
def lift (f : Call σ) : Call (σ × ℕ) := fun s => (((f s.1).1, s.2), (f s.1).2)

/-- The same solver, with every step counted. -/
def counted (o : Solver σ) : Solver (σ × ℕ) where
  status := fun s => o.status s.1
  step := fun s => (((o.step s.1).1, s.2 + 1), (o.step s.1).2)
  reformer := o.reformer.map lift
  updater := lift o.updater

theorem checkpoint_counted (o : Solver σ) (maxSteps : ℤ) (n : ℕ) (s : σ × ℕ) :
    checkpoint (counted o) maxSteps n s = lift (checkpoint o maxSteps n) s := by
  simp only [checkpoint, counted, lift]
  split_ifs
  · rfl
  · cases o.reformer <;> rfl

private theorem tail_counted (o : Solver σ) (s : σ × ℕ) :
    seq (counted o).step (counted o).updater s =
      (((seq o.step o.updater s.1).1, s.2 + 1), (seq o.step o.updater s.1).2) := by
  simp only [seq, counted, lift]
  rcases o.step s.1 with ⟨s2, e | u⟩ <;> rfl

/-- One pass counts at most one step, and exactly one if it raises nothing. -/
theorem body_counted (o : Solver σ) (cmf : ℕ) (maxSteps : ℤ) (n : ℕ) (s : σ × ℕ) :
    ((body (counted o) cmf maxSteps n s).1.1, (body (counted o) cmf maxSteps n s).2) = body o cmf maxSteps n s.1 ∧
      (body (counted o) cmf maxSteps n s).1.2 ≤ s.2 + 1 ∧
      ((body (counted o) cmf maxSteps n s).2 = .ok () → (body (counted o) cmf maxSteps n s).1.2 = s.2 + 1) := by
  unfold body
  by_cases h : n % cmf = 0
  · simp only [if_pos h]
    generalize hf : (checkpoint (counted o) maxSteps n) = f
    have hf' : f s = lift (checkpoint o maxSteps n) s := by rw [← hf, checkpoint_counted]
    have e1 : ∀ g : Call (σ × ℕ), seq f g s = match lift (checkpoint o maxSteps n) s with
      | (s, .error e) => (s, .error e)
      | (s, .ok _) => g s := fun g => by
      simp only [seq, hf']
      rcases lift (checkpoint o maxSteps n) s with ⟨s', e | u⟩ <;> rfl
    rw [e1]
    simp only [lift]
    have e2 : ∀ g : Call σ, seq (checkpoint o maxSteps n) g s.1 = match checkpoint o maxSteps n s.1 with
      | (s, .error e) => (s, .error e)
      | (s, .ok _) => g s := fun g => rfl
    rw [e2]
    rcases checkpoint o maxSteps n s.1 with ⟨s', e | u⟩
    · simp
    · simp [tail_counted]
  · simp only [if_neg h]
    have e1 : ∀ (τ : Type) (g : Call τ) (s : τ), seq (fun s => (s, .ok ())) g s = g s := fun _ _ _ => rfl
    rw [e1, e1, tail_counted]
    simp

/-- A pass at the limit. -/
private theorem body_limit (o : Solver σ) {cmf : ℕ} {maxSteps : ℤ} {n : ℕ} (s : σ) (h1 : n % cmf = 0)
    (h2 : maxSteps ≤ n) : body o cmf maxSteps n s = (s, .error .runtimeWarning) := by
  unfold body seq checkpoint
  simp [h1, h2]

/-- Counting changes nothing else. -/
theorem loop_counted (o : Solver σ) (cmf : ℕ) (maxSteps : ℤ) (fuel : ℕ) : ∀ (n : ℕ) (s : σ × ℕ),
    ((loop (counted o) cmf maxSteps fuel n s).1.1, (loop (counted o) cmf maxSteps fuel n s).2) =
      loop o cmf maxSteps fuel n s.1 := by
  induction fuel with
  | zero => intro n s; rfl
  | succ fuel ih =>
    intro n s
    simp only [loop]
    by_cases h1 : o.status s.1 = .running
    · rw [if_neg (show ¬ (counted o).status s ≠ .running from fun h => h h1), if_neg (fun h => h h1)]
      unfold seq
      rw [← (body_counted o cmf maxSteps n s).1]
      rcases body (counted o) cmf maxSteps n s with ⟨s', e | u⟩
      · rfl
      · exact ih (n + 1) s'
    · rw [if_pos (show (counted o).status s ≠ .running from h1), if_pos h1]

/-- The number of steps allowed: the first multiple of `cmf_steps` (a positive one) that reaches `max_ode_steps`, less
one. -/
def limit (cmf : ℕ) (maxSteps : ℤ) : ℕ := cmf * max 1 ((maxSteps.toNat + cmf - 1) / cmf)

private theorem limit_mod (cmf : ℕ) (maxSteps : ℤ) : limit cmf maxSteps % cmf = 0 := by
  unfold limit; exact Nat.mul_mod_right _ _

private theorem limit_ge (cmf : ℕ) (maxSteps : ℤ) (hc : 0 < cmf) : maxSteps ≤ limit cmf maxSteps := by
  have h1 : maxSteps.toNat ≤ cmf * ((maxSteps.toNat + cmf - 1) / cmf) := by
    have := Nat.div_add_mod (maxSteps.toNat + cmf - 1) cmf
    have := Nat.mod_lt (maxSteps.toNat + cmf - 1) hc
    omega
  have h2 : cmf * ((maxSteps.toNat + cmf - 1) / cmf) ≤ limit cmf maxSteps := by
    unfold limit; exact Nat.mul_le_mul_left _ (le_max_right _ _)
  omega

private theorem limit_pos (cmf : ℕ) (maxSteps : ℤ) (hc : 0 < cmf) : 0 < limit cmf maxSteps :=
  Nat.mul_pos hc (lt_of_lt_of_le Nat.one_pos (le_max_left _ _))

/-- Invariant of the loop: before iteration `n` there were `n - 1` steps, and `n` is at most the limit. -/
private theorem loop_bound (o : Solver σ) (cmf : ℕ) (maxSteps : ℤ) (hc : 0 < cmf) (fuel : ℕ) :
    ∀ (n : ℕ) (s : σ × ℕ), s.2 + 1 = n → n ≤ limit cmf maxSteps →
    (loop (counted o) cmf maxSteps fuel n s).1.2 < limit cmf maxSteps := by
  induction fuel with
  | zero => intro n s _ _; simp only [loop]; omega
  | succ fuel ih =>
    intro n s h1 h2
    simp only [loop]
    split_ifs with c1
    · simp only; omega
    · obtain ⟨b1, b2, b3⟩ := body_counted o cmf maxSteps n s
      rcases Nat.lt_or_ge n (limit cmf maxSteps) with hlt | hge
      · unfold seq
        rcases hb : body (counted o) cmf maxSteps n s with ⟨s', e | u⟩
        · rw [hb] at b2
          simp only at b2 ⊢
          omega
        · rw [hb] at b3
          have := b3 rfl
          simp only at this
          exact ih (n + 1) s' (by omega) (by omega)
      · obtain rfl : n = limit cmf maxSteps := by omega
        unfold seq
        rw [body_limit _ s (limit_mod cmf maxSteps) (limit_ge cmf maxSteps hc)]
        simp only; omega

/-- Whatever the solver does, `_solve_ode` makes fewer steps than the limit: than `max_ode_steps` rounded up to a
positive multiple of `cmf_steps`. -/
theorem C30_limit (o : Solver σ) (cmf : ℕ) (maxSteps : ℤ) (hc : 0 < cmf) (fuel : ℕ) (s : σ) :
    (solveOde (counted o) cmf maxSteps fuel (s, 0)).1.2 < limit cmf maxSteps := by
  unfold solveOde
  rw [if_neg (by omega)]
  exact loop_bound o cmf maxSteps hc fuel 1 (s, 0) rfl (limit_pos cmf maxSteps hc)

private theorem loop_fuel (o : Solver σ) (cmf : ℕ) (maxSteps : ℤ) (hc : 0 < cmf) (fuel : ℕ) :
    ∀ (n : ℕ) (s : σ), n ≤ limit cmf maxSteps → limit cmf maxSteps - n < fuel →
    loop o cmf maxSteps fuel n s = loop o cmf maxSteps (fuel + 1) n s := by
  induction fuel with
  | zero => intro n s _ h; omega
  | succ fuel ih =>
    intro n s h1 h2
    rw [loop, loop]
    split_ifs with c1
    · rfl
    · unfold seq
      rcases Nat.lt_or_ge n (limit cmf maxSteps) with hlt | hge
      · rcases body o cmf maxSteps n s with ⟨s', e | u⟩
        · rfl
        · exact ih (n + 1) s' (by omega) (by omega)
      · obtain rfl : n = limit cmf maxSteps := by omega
        rw [body_limit _ s (limit_mod cmf maxSteps) (limit_ge cmf maxSteps hc)]

/-- It terminates: no run is cut off by the fuel of the model if that is at least the limit. -/
theorem C30_terminates (o : Solver σ) (cmf : ℕ) (maxSteps : ℤ) (hc : 0 < cmf) (fuel : ℕ)
    (hf : limit cmf maxSteps ≤ fuel) (s : σ) :
    solveOde o cmf maxSteps fuel s = solveOde o cmf maxSteps (limit cmf maxSteps) s := by
  unfold solveOde
  rw [if_neg (by omega), if_neg (by omega)]
  have hp := limit_pos cmf maxSteps hc
  induction fuel with
  | zero => omega
  | succ fuel ih =>
    rcases Nat.eq_or_lt_of_le hf with h | h
    · rw [h]
    · rw [← loop_fuel o cmf maxSteps hc fuel 1 s hp (by omega)]
      exact ih (by omega)

/-- The count is that of the run without the counter. -/
theorem C30_count_faithful (o : Solver σ) (cmf : ℕ) (maxSteps : ℤ) (fuel : ℕ) (s : σ) :
    ((solveOde (counted o) cmf maxSteps fuel (s, 0)).1.1, (solveOde (counted o) cmf maxSteps fuel (s, 0)).2) =
      solveOde o cmf maxSteps fuel s := by
  unfold solveOde
  split_ifs
  · rfl
  · exact loop_counted o cmf maxSteps fuel 1 (s, 0)

/-- The state after `n` steps of a solver none of whose calls raises, when the mean fields are made anew at every
multiple of `cmf` (before the step). -/
def after (o : Solver σ) (cmf : ℕ) (s : σ) : ℕ → σ
  | 0 => s
  | n + 1 =>
    let s := after o cmf s n
    let s := if (n + 1) % cmf = 0 then (match o.reformer with | none => s | some f => (f s).1) else s
    (o.updater (o.step s).1).1

/-- No call raises. -/
structure Quiet (o : Solver σ) : Prop where
  step : ∀ s, (o.step s).2 = .ok ()
  updater : ∀ s, (o.updater s).2 = .ok ()
  reformer : ∀ f, o.reformer = some f → ∀ s, (f s).2 = .ok ()

private theorem loop_step (o : Solver σ) (cmf : ℕ) (maxSteps : ℤ) (hc : 0 < cmf) (hq : Quiet o) (fuel n : ℕ) (s : σ)
    (hr : o.status (after o cmf s n) = .running) (hn : (n + 1) % cmf = 0 → ((n + 1 : ℕ) : ℤ) < maxSteps) :
    loop o cmf maxSteps (fuel + 1) (n + 1) (after o cmf s n) =
      loop o cmf maxSteps fuel (n + 2) (after o cmf s (n + 1)) := by
  have tail : ∀ s', seq o.step o.updater s' = ((o.updater (o.step s').1).1, .ok ()) := by
    intro s'
    unfold seq
    have h1 := hq.step s'
    rcases hs : o.step s' with ⟨s2, r⟩
    rw [hs] at h1
    simp only at h1
    subst h1
    exact Prod.ext rfl (hq.updater s2)
  have hb : body o cmf maxSteps (n + 1) (after o cmf s n) = (after o cmf s (n + 1), .ok ()) := by
    unfold body
    by_cases h3 : (n + 1) % cmf = 0
    · rw [if_pos h3]
      have hlt := hn h3
      conv_lhs => unfold seq
      unfold checkpoint
      rw [if_neg (by omega)]
      simp only [after, if_pos h3]
      cases hre : o.reformer with
      | none => exact tail _
      | some f =>
        simp only
        have h1 := hq.reformer f hre (after o cmf s n)
        rcases hs : f (after o cmf s n) with ⟨s2, r⟩
        rw [hs] at h1
        simp only at h1
        subst h1
        exact tail _
    · rw [if_neg h3]
      simp only [after, if_neg h3]
      exact tail _
  rw [loop, if_neg (fun h => h hr)]
  unfold seq
  rw [hb]

private theorem limit_least (cmf : ℕ) (maxSteps : ℤ) (hc : 0 < cmf) {n : ℕ} (hn : 0 < n) (hm : n % cmf = 0)
    (hlt : n < limit cmf maxSteps) : (n : ℤ) < maxSteps := by
  by_contra hcon
  have hge : maxSteps.toNat ≤ n := by omega
  obtain ⟨k, rfl⟩ := Nat.dvd_of_mod_eq_zero hm
  have hk : 0 < k := Nat.pos_of_mul_pos_left hn |> fun h => by
    rcases Nat.eq_zero_or_pos k with rfl | h
    · simp at hn
    · exact h
  have h1 : (maxSteps.toNat + cmf - 1) / cmf ≤ k := by
    rw [Nat.div_le_iff_le_mul_add_pred hc]
    omega
  have : limit cmf maxSteps ≤ cmf * k := by
    unfold limit
    exact Nat.mul_le_mul_left _ (max_le hk h1)
  omega

private theorem run_to (o : Solver σ) (cmf : ℕ) (maxSteps : ℤ) (hc : 0 < cmf) (hq : Quiet o) (s : σ) (k : ℕ) :
    ∀ fuel, k < limit cmf maxSteps → (∀ i < k, o.status (after o cmf s i) = .running) →
      loop o cmf maxSteps (fuel + k) 1 s = loop o cmf maxSteps fuel (k + 1) (after o cmf s k) := by
  induction k with
  | zero => intro fuel _ _; rfl
  | succ k ih =>
    intro fuel hk hr
    rw [show fuel + (k + 1) = (fuel + 1) + k by ring, ih (fuel + 1) (by omega) (fun i hi => hr i (by omega))]
    exact loop_step o cmf maxSteps hc hq fuel k s (hr k (by omega))
      (fun hm => limit_least cmf maxSteps hc (by omega) hm hk)

/-- A solver that is finished (or failed) after `k` steps, fewer than the limit: exactly these steps are made, and
`_solve_ode` returns. -/
theorem C30_done (o : Solver σ) (cmf : ℕ) (maxSteps : ℤ) (hc : 0 < cmf) (hq : Quiet o) (s : σ) (k fuel : ℕ)
    (hk : k < limit cmf maxSteps) (hr : ∀ i < k, o.status (after o cmf s i) = .running)
    (hd : o.status (after o cmf s k) ≠ .running) :
    solveOde o cmf maxSteps (fuel + k + 1) s = (after o cmf s k, .ok ()) := by
  unfold solveOde
  rw [if_neg (by omega), show fuel + k + 1 = (fuel + 1) + k by ring, run_to o cmf maxSteps hc hq s k (fuel + 1) hk hr, loop,
    if_pos hd]

/-- A solver that is still running one step before the limit: `_solve_ode` raises `RuntimeWarning`, with the state
after these steps. -/
theorem C30_hit (o : Solver σ) (cmf : ℕ) (maxSteps : ℤ) (hc : 0 < cmf) (hq : Quiet o) (s : σ) (fuel : ℕ)
    (hr : ∀ i < limit cmf maxSteps, o.status (after o cmf s i) = .running) :
    solveOde o cmf maxSteps (fuel + limit cmf maxSteps) s =
      (after o cmf s (limit cmf maxSteps - 1), .error .runtimeWarning) := by
  have hp := limit_pos cmf maxSteps hc
  unfold solveOde
  obtain ⟨L, hL⟩ : ∃ L, limit cmf maxSteps = L + 1 := ⟨_, (Nat.sub_add_cancel hp).symm⟩
  rw [if_neg (by omega), hL, show fuel + (L + 1) = (fuel + 1) + L by ring,
    run_to o cmf maxSteps hc hq s L (fuel + 1) (by omega) (fun i hi => hr i (by omega)), loop,
    if_neg (fun h => h (hr L (by omega)))]
  unfold seq
  rw [body_limit _ _ (by rw [← hL]; exact limit_mod cmf maxSteps) (by rw [← hL]; exact limit_ge cmf maxSteps hc)]
  rfl

/-- With the direct method, the end of `_solve_ode` by the limit ends the propagator: the step raises `RuntimeWarning`
(C30_hit), after which nothing more is yielded. -/
theorem C30_propagator_ends_partial {ρ K : Type} [Ring K] (root : ρ) (steps : Option ℤ) (dt start : K) (time : K → σ → σ)
    (step : Call σ) (k : ℕ) (s : σ) (hs : ∀ m, steps = some m → 0 < m)
    (hw : (step (time (start + ((0 : ℕ) : K) * dt) s)).2 = .error .runtimeWarning) :
    propagate root steps dt start time step (k + 2) s =
      ([(start + ((0 : ℕ) : K) * dt, root, time (start + ((0 : ℕ) : K) * dt) s)], .stopped) := by
  unfold propagate
  rw [generator, if_neg]
  · simp only
    rw [if_neg (by omega)]
    rcases h : step (time (start + ((0 : ℕ) : K) * dt) s) with ⟨s', r⟩
    rw [h] at hw
    simp only at hw
    subst hw
    simp
  · cases steps with
    | none => simp
    | some m => have := hs m rfl; simp; omega

/-- The second half of the property is false for the projector-splitting methods: `_split_prop` never raises once it
has started, whatever the solver does, so hitting the limit does not end the propagation. -/
theorem C30_split_violated (isRoot : σ → Bool) (setRoot : σ → σ) (o : Solver σ) (cmf : ℕ) (maxSteps : ℤ) (fuel : ℕ)
    (s : σ) (hr : isRoot s = true) :
    splitProp isRoot setRoot o cmf maxSteps fuel s = ((solveOde o cmf maxSteps fuel (setRoot s)).1, .ok ()) := by
  unfold splitProp logInnerProduct
  rw [if_pos hr]
  rcases solveOde o cmf maxSteps fuel (setRoot s) with ⟨s', e | u⟩ <;> rfl

/-- What `_split_prop` does raise: `RuntimeError`, for a tensor that is not a root. -/
theorem C30_split_not_root (isRoot : σ → Bool) (setRoot : σ → σ) (o : Solver σ) (cmf : ℕ) (maxSteps : ℤ) (fuel : ℕ)
    (s : σ) (hr : isRoot s = false) :
    splitProp isRoot setRoot o cmf maxSteps fuel s = (s, .error .runtimeError) := by
  unfold splitProp
  simp [hr]

/-! ### Cases: a solver that runs for ever, `cmf_steps = 3`, `max_ode_steps = 7`: nine is the first multiple of three
not below seven, and eight steps are made. One that is finished after five steps. -/

def exSolver (stop : ℕ) : Solver ℕ where
  status := fun s => if s < stop then .running else .finished
  step := fun s => (s + 1, .ok ())
  reformer := none
  updater := fun s => (s, .ok ())

example : limit 3 7 = 9 := by decide
example : solveOde (exSolver 100) 3 7 50 0 = (8, .error .runtimeWarning) := by decide
example : solveOde (exSolver 5) 3 7 50 0 = (5, .ok ()) := by decide
example : splitProp (fun _ => true) id (exSolver 100) 3 7 50 0 = (8, .ok ()) := by decide
example : Quiet (exSolver 5) := ⟨fun _ => rfl, fun _ => rfl, fun _ h => by cases h⟩
/-- A solver that fails is taken for one that is done. -/
example : solveOde { exSolver 5 with status := fun s => if s < 5 then .running else .failed } 3 7 50 0 = (5, .ok ()) := by
  decide

end Ode
