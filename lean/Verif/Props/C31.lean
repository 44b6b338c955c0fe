import Verif.Model.Ode
import Mathlib.Algebra.Ring.Int.Defs
import Mathlib.Algebra.Ring.Nat
import Mathlib.Tactic.Ring

/-!
C31: the time grid of the propagators.
-/

namespace Ode

open Py

variable {σ ρ K : Type} [Ring K]

/-- The state at the `n`-th yield when every step before it is made once: `self.time` set to the time of the yield,
after `n` steps. -/
def stateAt (dt start : K) (time : K → σ → σ) (step : Call σ) (s : σ) : ℕ → σ
  | 0 => time start s
  | n + 1 => time (start + ((n + 1 : ℕ) : K) * dt) (step (stateAt dt start time step s n)).1

/-- What a consumer of a propagator may see after `k` calls of `next`: `m` values on the time grid, one step between
two of them. -/
structure Grid (onError : Err → Status) (root : ρ) (steps : Option ℤ) (dt start : K) (time : K → σ → σ) (step : Call σ)
    (k : ℕ) (s : σ) (out : List (K × ρ × σ) × Status) (m : ℕ) : Prop where
  /-- the values yielded -/
  values : out.1 = (List.range m).map fun (n : ℕ) => (start + (n : K) * dt, root, stateAt dt start time step s n)
  /-- all steps between them succeeded -/
  steps_ok : ∀ i, i + 1 < m → (step (stateAt dt start time step s i)).2 = .ok ()
  /-- no more than asked for -/
  le_next : m ≤ k
  le_steps : ∀ N, steps = some N → (m : ℤ) ≤ max N 0
  /-- why it stands where it stands -/
  status : (out.2 = .suspended ∧ m = k) ∨ (out.2 = .stopped ∧ ∃ N, steps = some N ∧ (m : ℤ) = max N 0) ∨
    ∃ e, 0 < m ∧ (step (stateAt dt start time step s (m - 1))).2 = .error e ∧ out.2 = onError e

private theorem generator_grid (onError : Err → Status) (root : ρ) (steps : Option ℤ) (dt start : K)
    (time : K → σ → σ) (step : Call σ) (s0 : σ) (k : ℕ) : ∀ (n : ℕ) (s : σ),
    time (start + (n : K) * dt) s = stateAt dt start time step s0 n →
    ∃ m, (generator onError root steps dt start time step k n s).1 =
        (List.range m).map (fun i => (start + ((n + i : ℕ) : K) * dt, root, stateAt dt start time step s0 (n + i))) ∧
      (∀ i, i + 1 < m → (step (stateAt dt start time step s0 (n + i))).2 = .ok ()) ∧ m ≤ k ∧
      (∀ N, steps = some N → (m : ℤ) ≤ max (N - n) 0) ∧
      (((generator onError root steps dt start time step k n s).2 = .suspended ∧ m = k) ∨
        ((generator onError root steps dt start time step k n s).2 = .stopped ∧
          ∃ N, steps = some N ∧ (m : ℤ) = max (N - n) 0) ∨
        ∃ e, 0 < m ∧ (step (stateAt dt start time step s0 (n + m - 1))).2 = .error e ∧
          (generator onError root steps dt start time step k n s).2 = onError e) := by
  induction k with
  | zero => exact fun n s _ => ⟨0, by simp [generator]⟩
  | succ k ih =>
    intro n s hs
    simp only [generator]
    split_ifs with h1 h2
    · obtain ⟨N, hN, hle⟩ : ∃ N, steps = some N ∧ N ≤ (n : ℤ) := by
        cases steps with
        | none => simp at h1
        | some N => exact ⟨N, rfl, by simpa using h1⟩
      refine ⟨0, by simp, by simp, by omega, fun N _ => by simp, Or.inr (Or.inl ⟨rfl, N, hN, ?_⟩)⟩
      simp only [Nat.cast_zero]
      omega
    · subst h2
      refine ⟨1, by simp [hs], by omega, le_refl _, ?_, Or.inl ⟨rfl, rfl⟩⟩
      intro N hN
      subst hN
      simp at h1
      omega
    · have hN1 : ∀ N, steps = some N → (n : ℤ) < N := by
        intro N hN
        subst hN
        simpa using h1
      rw [hs]
      rcases hst : step (stateAt dt start time step s0 n) with ⟨s', e | u⟩
      · refine ⟨1, by simp, by omega, by omega, fun N hN => ?_, Or.inr (Or.inr ⟨e, by omega, ?_, rfl⟩)⟩
        · have := hN1 N hN
          omega
        · simp [hst]
      · obtain ⟨m, q1, q2, q3, q4, q5⟩ := ih (n + 1) s' (by simp only [stateAt, hst])
        refine ⟨m + 1, ?_, ?_, by omega, ?_, ?_⟩
        · simp only [q1]
          rw [List.range_succ_eq_map, List.map_cons, List.map_map]
          congr 1
          refine List.map_congr_left fun i _ => ?_
          simp only [Function.comp, Nat.succ_eq_add_one, Nat.add_assoc, Nat.add_comm 1 i]
        · intro i hi
          cases i with
          | zero => simp [hst]
          | succ i =>
            have := q2 i (by omega)
            rwa [Nat.add_assoc, Nat.add_comm 1 i] at this
        · intro N hN
          have := q4 N hN
          have := hN1 N hN
          push_cast at *
          omega
        · rcases q5 with ⟨a, b⟩ | ⟨a, N, b, c⟩ | ⟨e, a, b, c⟩
          · exact Or.inl ⟨a, by omega⟩
          · refine Or.inr (Or.inl ⟨a, N, b, ?_⟩)
            have := hN1 N b
            push_cast at *
            omega
          · refine Or.inr (Or.inr ⟨e, by omega, ?_, c⟩)
            rwa [show n + (m + 1) - 1 = n + 1 + m - 1 by omega]

private theorem generator_grid' (onError : Err → Status) (root : ρ) (steps : Option ℤ) (dt start : K)
    (time : K → σ → σ) (step : Call σ) (k : ℕ) (s : σ) :
    ∃ m, Grid onError root steps dt start time step k s (generator onError root steps dt start time step k 0 s) m := by
  obtain ⟨m, q1, q2, q3, q4, q5⟩ := generator_grid onError root steps dt start time step s k 0 s (by simp [stateAt])
  simp only [Nat.zero_add] at q1 q2 q5
  simp only [Nat.cast_zero, sub_zero] at q4 q5
  exact ⟨m, q1, q2, q3, q4, q5⟩

/-- `MultiLayer.propagator`: whatever the steps do, after `k` calls of `next` the values yielded are the first `m` points
`(start + n * ode_inter, root)` of the grid, with one successful step between two of them; it ends early only if a
step raises: silently for `RuntimeWarning`, otherwise with that exception. -/
theorem C31_propagator (root : ρ) (steps : Option ℤ) (dt start : K) (time : K → σ → σ) (step : Call σ) (k : ℕ) (s : σ) :
    ∃ m, Grid (fun e => if e = .runtimeWarning then .stopped else .raised e) root steps dt start time step k s
      (propagate root steps dt start time step k s) m :=
  generator_grid' _ _ _ _ _ _ _ _ _

/-- `ProjectorSplitting.propagator`: the same, but every exception reaches the consumer. -/
theorem C31_propagator2 (root : ρ) (steps : Option ℤ) (dt start : K) (time : K → σ → σ) (step : Call σ) (k : ℕ) (s : σ) :
    ∃ m, Grid .raised root steps dt start time step k s (propagate2 root steps dt start time step k s) m :=
  generator_grid' _ _ _ _ _ _ _ _ _

/-- If no step raises, a consumer that asks until the end gets exactly `steps` values, and the end. -/
theorem C31_exactly (root : ρ) (N : ℕ) (dt start : K) (time : K → σ → σ) (step : Call σ) (k : ℕ) (s : σ)
    (hok : ∀ s, (step s).2 = .ok ()) (hk : N < k) :
    propagate root (some (N : ℤ)) dt start time step k s =
      ((List.range N).map fun (n : ℕ) => (start + (n : K) * dt, root, stateAt dt start time step s n), .stopped) := by
  obtain ⟨m, g⟩ := C31_propagator root (some (N : ℤ)) dt start time step k s
  have h1 := g.le_steps N rfl
  have key : m = N ∧ (propagate root (some (N : ℤ)) dt start time step k s).2 = .stopped := by
    rcases g.status with ⟨_, b⟩ | ⟨a, M, b, c⟩ | ⟨e, _, b, _⟩
    · omega
    · cases b
      exact ⟨by omega, a⟩
    · rw [hok] at b
      cases b
  obtain ⟨rfl, h2⟩ := key
  exact Prod.ext g.values h2

/-- `steps=None`: the generator goes on for ever if no step raises. -/
theorem C31_forever (root : ρ) (dt start : K) (time : K → σ → σ) (step : Call σ) (k : ℕ) (s : σ)
    (hok : ∀ s, (step s).2 = .ok ()) :
    propagate root none dt start time step k s =
      ((List.range k).map fun (n : ℕ) => (start + (n : K) * dt, root, stateAt dt start time step s n), .suspended) := by
  obtain ⟨m, g⟩ := C31_propagator root none dt start time step k s
  rcases g.status with ⟨a, rfl⟩ | ⟨_, M, b, _⟩ | ⟨e, _, b, _⟩
  · exact Prod.ext g.values a
  · cases b
  · rw [hok] at b
    cases b

/-- An unknown `ps_method` raises `ValueError`; the known ones (by their first letter, in either case) give the
corresponding step, made twice with half of the interval (forward, then backward) in second order. -/
theorem C31_method (full half : Steps σ) (c : Char) (rest : List Char) (snd : Bool) :
    (c ∈ ['u', 'U'] → chooseStep full half true (c :: rest) snd =
      .ok (if snd then seq (half.unite false) (half.unite true) else full.unite false)) ∧
    (c ∈ ['s', 'S'] → chooseStep full half true (c :: rest) snd =
      .ok (if snd then seq (half.split false) (half.split true) else full.split false)) ∧
    (c ∈ ['r', 'R'] → chooseStep full half true (c :: rest) snd = .ok full.recursive) ∧
    (c ∉ ['u', 'U', 's', 'S', 'r', 'R'] → chooseStep full half true (c :: rest) snd = .error .valueError) ∧
    chooseStep full half true [] snd = .error .valueError ∧
    ∀ name, chooseStep full half false name snd = .ok full.direct := by
  refine ⟨fun h => ?_, fun h => ?_, fun h => ?_, fun h => ?_, ?_, fun _ => rfl⟩
  · simp at h; rcases h with rfl | rfl <;> rfl
  · simp at h; rcases h with rfl | rfl <;> rfl
  · simp at h; rcases h with rfl | rfl <;> rfl
  · simp only [List.mem_cons, not_or, List.not_mem_nil, not_false_eq_true, and_true] at h
    obtain ⟨h1, h2, h3, h4, h5, h6⟩ := h
    simp only [chooseStep, upperHead, if_true, if_neg h1, if_neg h3, if_neg h5]
    split
    · rename_i hh; cases hh; exact absurd rfl h2
    · rename_i hh; cases hh; exact absurd rfl h4
    · rename_i hh; cases hh; exact absurd rfl h6
    · rfl
  · rfl

/-- The grid propagator of `girds.py`: `max_iter + 1` values at `t0 + n * dt`, one step between two of them, made with
the time at its beginning. -/
theorem C31_grid_propagator {ω : Type} (t0 dt : K) (maxIter : ℕ) (step : K → ω → ω) (w : ω) :
    gridPropagator t0 dt maxIter step w = (List.range (maxIter + 1)).map fun (n : ℕ) => (t0 + (n : K) * dt,
      (List.range n).foldl (fun w i => step (t0 + ((i : ℕ) : K) * dt) w) w) := by
  unfold gridPropagator
  have key : ∀ m : ℕ, ((List.range m).foldl (fun (acc : List (K × ω) × ω) (i : ℕ) =>
      let time := t0 + (i : K) * dt
      let w := step time acc.2
      (acc.1 ++ [(time + dt, w)], w)) ([], w)) =
      ((List.range m).map fun (n : ℕ) => (t0 + ((n + 1 : ℕ) : K) * dt,
        (List.range (n + 1)).foldl (fun w i => step (t0 + ((i : ℕ) : K) * dt) w) w),
       (List.range m).foldl (fun w i => step (t0 + ((i : ℕ) : K) * dt) w) w) := by
    intro m
    induction m with
    | zero => rfl
    | succ m ih =>
      rw [List.range_succ, List.foldl_append, ih]
      simp only [List.foldl_cons, List.foldl_nil, List.map_append, List.map_cons, List.map_nil, List.foldl_append,
        List.range_succ]
      refine Prod.ext ?_ rfl
      simp only [List.append_cancel_left_eq, List.cons.injEq, and_true, Prod.mk.injEq]
      push_cast
      rw [add_mul, one_mul, add_assoc]
  rw [key, List.range_succ_eq_map, List.map_cons, List.map_map]
  simp [Function.comp_def]

/-! ### Cases -/

/-- Three steps that count: the values at times 5, 7, 9. -/
example : propagate (K := ℤ) 'r' (some 3) 2 5 (fun _ s => s) (fun s : ℕ => (s + 1, .ok ())) 10 0 =
    ([(5, 'r', 0), (7, 'r', 1), (9, 'r', 2)], .stopped) := by decide

/-- A step that raises `RuntimeWarning` in the second step. -/
example : propagate (K := ℤ) 'r' (some 5) 2 5 (fun _ s => s)
    (fun s : ℕ => (s + 1, if s = 1 then .error .runtimeWarning else .ok ())) 10 0 =
    ([(5, 'r', 0), (7, 'r', 1)], .stopped) := by decide

end Ode
