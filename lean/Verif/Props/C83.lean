import Verif.Model.NoiseState
import Verif.Py.Lemmas
import Mathlib.Analysis.Real.Pi.Bounds
import Mathlib.Analysis.SpecialFunctions.Trigonometric.Bounds
import Mathlib.Tactic.Linarith
import Mathlib.Tactic.FieldSimp

/-! C83: the stored properties of `Drude` of `minitn/heom/noise.py`, over all histories of reads and writes. -/

open Py

namespace DrudeNoise

/-- What is stored is what the parameters say. -/
private structure Inv (D : Drude) (s : State) : Prop where
  params : s.params = D
  captured : s.captured = D
  exp : ∀ v, s.exp = some v → expCoeff D = .ok v
  symm : ∀ v, s.symm = some v → symmCoeff D = .ok v
  asymm : ∀ v, s.asymm = some v → asymmCoeff D = v

private theorem readExp_inv {D : Drude} {s : State} (h : Inv D s) : (readExp s).1 = expCoeff D ∧ Inv D (readExp s).2 := by
  unfold readExp lazyGet
  match e : s.exp with
  | some v => exact ⟨(h.exp v e).symm, h⟩
  | none =>
    simp only [Act.bind, h.params]
    match e2 : expCoeff D with
    | .ok v => exact ⟨rfl, ⟨h.params, h.captured, fun w hw => by cases hw; exact e2, h.symm, h.asymm⟩⟩
    | .error x => exact ⟨rfl, h⟩

private theorem symmOne_inv {D : Drude} {s : State} (h : Inv D s) (bh : ℝ) (k : ℕ) :
    (symmOne bh k s).1 = (if k = 0 then Corr.rdiv (D.omega0 * D.lam) (Real.tan (bh * D.omega0 / 2)) else do
      let g ← Corr.item (← expCoeff D) k
      Corr.rdiv (2 * (← spectrum D g)) bh) ∧ Inv D (symmOne bh k s).2 := by
  unfold symmOne
  by_cases hk : k = 0
  · rw [if_pos hk, if_pos hk, h.params]
    exact ⟨rfl, h⟩
  · rw [if_neg hk, if_neg hk]
    obtain ⟨h1, h2⟩ := readExp_inv h
    unfold Act.bind
    match e : readExp s with
    | (.ok v, s') =>
      rw [e] at h1 h2
      dsimp only at h1 h2 ⊢
      rw [← h1, h2.captured]
      exact ⟨rfl, h2⟩
    | (.error x, s') =>
      rw [e] at h1 h2
      dsimp only at h1 h2 ⊢
      rw [← h1]
      exact ⟨rfl, h2⟩

private theorem forEach_inv {D : Drude} {f : ℕ → Act ℝ} {g : ℕ → Res ℝ} (hf : ∀ k s, Inv D s → (f k s).1 = g k ∧ Inv D (f k s).2) :
    ∀ (l : List ℕ) (s : State), Inv D s → (Act.forEach f l s).1 = l.mapM g ∧ Inv D (Act.forEach f l s).2
  | [], s, h => ⟨rfl, h⟩
  | k :: l, s, h => by
    obtain ⟨h1, h2⟩ := hf k s h
    rw [List.mapM_cons, ← h1]
    unfold Act.forEach Act.bind
    match e : f k s with
    | (.error x, s') =>
      rw [e] at h2
      exact ⟨rfl, h2⟩
    | (.ok v, s') =>
      rw [e] at h2
      dsimp only at h2 ⊢
      obtain ⟨h3, h4⟩ := forEach_inv hf l s' h2
      rw [← h3, ok_bind]
      match e' : Act.forEach f l s' with
      | (.error x, s'') =>
        rw [e'] at h4
        exact ⟨rfl, h4⟩
      | (.ok vs, s'') =>
        rw [e'] at h4
        exact ⟨rfl, h4⟩

private theorem lazy_inv {α : Type} {stored : State → Option α} {store : α → State → State} {func : Act α} {D : Drude} {s : State} {r : Res α}
    (h : Inv D s) (h0 : ∀ w, stored s = some w → .ok w = r) (hf : (func s).1 = r ∧ Inv D (func s).2)
    (hs : ∀ v s', r = .ok v → Inv D s' → Inv D (store v s')) :
    (lazyGet stored store func s).1 = r ∧ Inv D (lazyGet stored store func s).2 := by
  unfold lazyGet
  match e : stored s with
  | some v => exact ⟨h0 v e, h⟩
  | none =>
    obtain ⟨k1, k2⟩ := hf
    simp only [Act.bind]
    match e2 : func s with
    | (.ok a, s') =>
      rw [e2] at k1 k2
      exact ⟨k1, hs a s' k1.symm k2⟩
    | (.error _, s') =>
      rw [e2] at k1 k2
      exact ⟨k1, k2⟩

private theorem readSymm_inv {D : Drude} {s : State} (h : Inv D s) : (readSymm s).1 = symmCoeff D ∧ Inv D (readSymm s).2 := by
  refine lazy_inv h (fun w hw => (h.symm w hw).symm) ?_ fun v s' hv k => ⟨k.params, k.captured, k.exp, fun w hw => by cases hw; exact hv, k.asymm⟩
  beta_reduce
  rw [h.params]
  unfold Act.bind Act.lift symmCoeff
  match betaHbar D with
  | .error x => exact ⟨rfl, h⟩
  | .ok bh =>
    dsimp only
    rw [ok_bind]
    exact forEach_inv (fun k s hs => symmOne_inv hs bh k) _ s h

private theorem readAsymm_inv {D : Drude} {s : State} (h : Inv D s) : (readAsymm s).1 = .ok (asymmCoeff D) ∧ Inv D (readAsymm s).2 := by
  unfold readAsymm lazyGet
  match e : s.asymm with
  | some v => exact ⟨by rw [h.asymm v e], h⟩
  | none =>
    exact ⟨by rw [← h.params]; rfl, ⟨h.params, h.captured, h.exp, h.symm, fun w hw => by cases hw; rw [h.params]⟩⟩

private theorem run_inv {D : Drude} : ∀ (ops : List Op) (s : State), (∀ o ∈ ops, ∀ D', o ≠ .write D') → Inv D s → Inv D (runOps ops s)
  | [], _, _, h => h
  | o :: ops, s, hr, h => by
    refine run_inv ops _ (fun o ho => hr o (by simp [ho])) ?_
    match o, hr with
    | .exp, _ => exact (readExp_inv h).2
    | .symm, _ => exact (readSymm_inv h).2
    | .asymm, _ => exact (readAsymm_inv h).2
    | .write D', hr => exact absurd rfl (hr (.write D') (by simp) D')

/-- As long as nobody changes the parameters, whatever has been read before and in whatever order (also if a read has failed), a property is
what the parameters say. -/
theorem C83_reads_partial (D : Drude) (ops : List Op) (hr : ∀ o ∈ ops, ∀ D', o ≠ .write D') :
    (step .exp (runOps ops (newState D))).1 = expCoeff D ∧ (step .symm (runOps ops (newState D))).1 = symmCoeff D ∧
    (step .asymm (runOps ops (newState D))).1 = .ok (asymmCoeff D) := by
  have h := run_inv ops (newState D) hr ⟨rfl, rfl, by simp [newState], by simp [newState], by simp [newState]⟩
  exact ⟨(readExp_inv h).1, (readSymm_inv h).1, (readAsymm_inv h).1⟩

/-! Stored values stay. -/

private structure Le (s s' : State) : Prop where
  exp : ∀ v, s.exp = some v → s'.exp = some v
  symm : ∀ v, s.symm = some v → s'.symm = some v
  asymm : ∀ v, s.asymm = some v → s'.asymm = some v

private theorem Le.refl (s : State) : Le s s := ⟨fun _ h => h, fun _ h => h, fun _ h => h⟩

private theorem Le.trans {a b c : State} (h : Le a b) (h' : Le b c) : Le a c :=
  ⟨fun v e => h'.exp v (h.exp v e), fun v e => h'.symm v (h.symm v e), fun v e => h'.asymm v (h.asymm v e)⟩

private def Grows {α : Type} (x : Act α) : Prop := ∀ s, Le s (x s).2

private theorem grows_bind {α β : Type} {x : Act α} {f : α → Act β} (hx : Grows x) (hf : ∀ a, Grows (f a)) : Grows (x.bind f) := by
  intro s
  have h := hx s
  unfold Act.bind
  match e : x s with
  | (.ok a, s') =>
    rw [e] at h
    exact h.trans (hf a s')
  | (.error _, s') =>
    rw [e] at h
    exact h

private theorem grows_forEach {α β : Type} {f : α → Act β} (hf : ∀ a, Grows (f a)) : ∀ l, Grows (Act.forEach f l)
  | [] => fun s => Le.refl s
  | a :: l => grows_bind (hf a) fun _ => grows_bind (grows_forEach hf l) fun _ => fun s => Le.refl s

private theorem grows_lazy {α : Type} {stored : State → Option α} {store : α → State → State} {func : Act α} (hf : Grows func)
    (hs : ∀ v s s', stored s = none → Le s s' → Le s (store v s')) : Grows (lazyGet stored store func) := by
  intro s
  unfold lazyGet
  match e : stored s with
  | some v => exact Le.refl s
  | none =>
    have h := hf s
    simp only [Act.bind]
    match e2 : func s with
    | (.ok a, s') =>
      rw [e2] at h
      exact hs a s s' e h
    | (.error _, s') =>
      rw [e2] at h
      exact h

private theorem grows_exp : Grows readExp :=
  grows_lazy (fun s => Le.refl s) fun v s s' e h => ⟨fun w hw => by (rw [e] at hw; cases hw), h.symm, h.asymm⟩

private theorem grows_symmOne (bh : ℝ) (k : ℕ) : Grows (symmOne bh k) := by
  intro s
  unfold symmOne
  split
  · exact Le.refl s
  · exact grows_bind grows_exp (fun a s => Le.refl s) s

private theorem grows_symm : Grows readSymm :=
  grows_lazy (fun s => grows_bind (fun s => Le.refl s) (fun bh => grows_forEach (grows_symmOne bh) _) s)
    fun v s s' e h => ⟨h.exp, fun w hw => by (rw [e] at hw; cases hw), h.asymm⟩

private theorem grows_asymm : Grows readAsymm :=
  grows_lazy (fun s => Le.refl s) fun v s s' e h => ⟨h.exp, h.symm, fun w hw => by (rw [e] at hw; cases hw)⟩

private theorem grows_step : ∀ o, Grows (step o)
  | .exp => grows_exp
  | .symm => grows_symm
  | .asymm => grows_asymm
  | .write _ => fun s => ⟨fun _ h => h, fun _ h => h, fun _ h => h⟩

private theorem grows_run : ∀ (ops : List Op) (s : State), Le s (runOps ops s)
  | [], s => Le.refl s
  | o :: ops, s => (grows_step o s).trans (grows_run ops _)

private theorem lazy_stored {α : Type} {stored : State → Option α} {store : α → State → State} {func : Act α} (hs : ∀ v s, stored (store v s) = some v)
    {s : State} {v : α} (h : (lazyGet stored store func s).1 = .ok v) : stored (lazyGet stored store func s).2 = some v := by
  unfold lazyGet at h ⊢
  match e : stored s with
  | some w =>
    rw [e] at h
    cases h
    exact e
  | none =>
    rw [e] at h
    simp only [Act.bind] at h ⊢
    match e2 : func s with
    | (.ok a, s') =>
      rw [e2] at h
      cases h
      exact hs _ _
    | (.error _, s') =>
      rw [e2] at h
      cases h

private theorem lazy_again {α : Type} {stored : State → Option α} {store : α → State → State} {func : Act α} {s : State} {v : α}
    (h : stored s = some v) : (lazyGet stored store func s).1 = .ok v := by
  unfold lazyGet
  rw [h]

/-- A property that has been read keeps its value, whatever is read and whichever parameters are changed afterwards. -/
theorem C83_frozen {o : Op} (ho : ∀ D', o ≠ .write D') {s : State} {v : List ℝ} (h : (step o s).1 = .ok v) (ops : List Op) :
    (step o (runOps ops (step o s).2)).1 = .ok v := by
  have hg := grows_run ops (step o s).2
  match o, ho with
  | .exp, _ => exact lazy_again (hg.exp v (lazy_stored (stored := State.exp) (store := fun v s => { s with exp := some v }) (fun _ _ => rfl) h))
  | .symm, _ => exact lazy_again (hg.symm v (lazy_stored (stored := State.symm) (store := fun v s => { s with symm := some v }) (fun _ _ => rfl) h))
  | .asymm, _ => exact lazy_again (hg.asymm v (lazy_stored (stored := State.asymm) (store := fun v s => { s with asymm := some v }) (fun _ _ => rfl) h))
  | .write D', ho => exact absurd rfl (ho D')

private theorem rdiv_ok {a b : ℝ} (h : b ≠ 0) : Corr.rdiv a b = .ok (a / b) := by unfold Corr.rdiv; rw [if_neg h]

/-- So an object whose temperature is changed after `exp_coeff` has been read has coefficients that belong neither to the old nor to the new
temperature. -/
theorem C83_mixed_violated : ∃ (D D' : Drude) (v : List ℝ),
    (step .symm (runOps [.exp, .write D'] (newState D))).1 = .ok v ∧ symmCoeff D' ≠ .ok v ∧ symmCoeff D ≠ .ok v := by
  have hp := Real.pi_gt_three
  have hpi : Real.pi ^ 2 + 1 ≠ 0 := by positivity
  have t1 : Real.tan (1 * 1 / 2) ≠ 0 :=
    (Real.tan_pos_of_pos_of_lt_pi_div_two (by norm_num) (by linarith)).ne'
  have t2 : Real.tan (2 * 1 / 2) ≠ 0 :=
    (Real.tan_pos_of_pos_of_lt_pi_div_two (by norm_num) (by linarith)).ne'
  have exps : ∀ b : ℝ, b ≠ 0 → expCoeff ⟨1, 1, 2, some b⟩ = .ok [1, 2 * Real.pi / b] := by
    intro b hb
    simp only [expCoeff, betaHbar, List.range_succ, List.range_zero, List.nil_append, List.cons_append, List.mapM_cons, List.mapM_nil, if_true,
      mul_one, ok_bind, rdiv_ok hb, one_ne_zero, if_false, Nat.cast_one]
    rfl
  have spec : ∀ (b x : ℝ), spectrum ⟨1, 1, 2, some b⟩ x = .ok (2 * x / (x ^ 2 + 1)) := by
    intro b x
    have hx : x ^ 2 + 1 ^ 2 ≠ 0 := by positivity
    unfold spectrum
    dsimp only
    rw [rdiv_ok hx]
    norm_num
  have symms : ∀ b : ℝ, b ≠ 0 → Real.tan (b * 1 / 2) ≠ 0 → symmCoeff ⟨1, 1, 2, some b⟩ =
      .ok [1 / Real.tan (b * 1 / 2), 2 * (2 * (2 * Real.pi / b) / ((2 * Real.pi / b) ^ 2 + 1)) / b] := by
    intro b hb ht
    unfold symmCoeff
    rw [exps b hb]
    simp only [betaHbar, List.range_succ, List.range_zero, List.nil_append, List.cons_append, List.mapM_cons, List.mapM_nil, if_true,
      mul_one, ok_bind, one_ne_zero, if_false, spec, Corr.item, List.getElem?_cons_succ, List.getElem?_cons_zero, rdiv_ok hb]
    rw [mul_one] at ht
    rw [rdiv_ok ht]
    rfl
  have run : runOps [.exp, .write ⟨1, 1, 2, some 1⟩] (newState ⟨1, 1, 2, some 2⟩) =
      ⟨⟨1, 1, 2, some 1⟩, ⟨1, 1, 2, some 2⟩, some [1, 2 * Real.pi / 2], none, none⟩ := by
    simp only [runOps, step, readExp, lazyGet, newState, Act.bind, exps 2 two_ne_zero]
  refine ⟨⟨1, 1, 2, some 2⟩, ⟨1, 1, 2, some 1⟩, [1 / Real.tan (1 * 1 / 2), 2 * (2 * (2 * Real.pi / 2) / ((2 * Real.pi / 2) ^ 2 + 1)) / 1], ?_, ?_, ?_⟩
  · rw [run]
    simp only [step, readSymm, lazyGet, Act.bind, Act.lift, betaHbar, List.range_succ, List.range_zero, List.nil_append, List.cons_append,
      Act.forEach, symmOne, if_true, mul_one, one_ne_zero, if_false, readExp]
    rw [mul_one] at t1
    rw [rdiv_ok t1]
    have hd : (do
        let g ← Corr.item [1, 2 * Real.pi / 2] 1
        Corr.rdiv (2 * (← spectrum ⟨1, 1, 2, some 2⟩ g)) 1) = Except.ok (2 * (2 * (2 * Real.pi / 2) / ((2 * Real.pi / 2) ^ 2 + 1)) / 1) := by
      show (spectrum ⟨1, 1, 2, some 2⟩ (2 * Real.pi / 2) >>= fun x => Corr.rdiv (2 * x) 1) = _
      rw [spec, ok_bind, rdiv_ok one_ne_zero]
    dsimp only
    rw [hd]
  · rw [symms 1 one_ne_zero t1]
    intro h
    injection h with h
    injection h with _ h
    injection h with h
    have h1 : (2 * Real.pi / 1) ^ 2 + 1 ≠ 0 := by positivity
    have h2 : (2 * Real.pi / 2) ^ 2 + 1 ≠ 0 := by positivity
    field_simp at h
    nlinarith
  · rw [symms 2 two_ne_zero t2]
    intro h
    injection h with h
    injection h with _ h
    injection h with h
    have h2 : (2 * Real.pi / 2) ^ 2 + 1 ≠ 0 := by positivity
    field_simp at h
    nlinarith

/-- The hypotheses hold for a history with two reads and a change of the temperature. -/
example : (∀ o ∈ [Op.symm, Op.exp], ∀ D', o ≠ .write D') ∧
    (step .asymm (newState ⟨3, 2, 2, none⟩)).1 = .ok [-2 * 3, 0] ∧
    (step .asymm (runOps [.symm, .write ⟨5, 7, 3, some 1⟩] (step .asymm (newState ⟨3, 2, 2, none⟩)).2)).1 = .ok [-2 * 3, 0] := by
  have h : (step .asymm (newState ⟨3, 2, 2, none⟩)).1 = .ok [-2 * 3, 0] := rfl
  refine ⟨?_, h, C83_frozen (fun _ h => by cases h) h _⟩
  intro o ho D'
  simp only [List.mem_cons, List.not_mem_nil, or_false] at ho
  rcases ho with rfl | rfl <;> (intro h; cases h)

end DrudeNoise
