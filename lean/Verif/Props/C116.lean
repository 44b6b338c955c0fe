import Verif.Lemmas.GridProp

/-! C116: the propagation of a wave function on a grid (split operator). -/

open Py
open scoped BigOperators

namespace Grids

/-- The total probability `Σ |ψ(x_i)|²` of the values on a grid. -/
noncomputable def prob (v : List ℂ) : ℝ := (v.map fun z => ‖z‖ ^ 2).sum

theorem prob_eq (v : List ℂ) : prob v = sq v := by
  unfold prob sq
  refine congrArg List.sum (List.map_congr_left fun z _ => ?_)
  rw [Complex.normSq_eq_norm_sq]

/-- What is assumed of a grid: at least two points, not all in one place, `ħ > 0`. -/
structure Basis.Fine (b : Basis) : Prop where
  width : ∃ w, b.width = .ok w ∧ w ≠ 0
  two : 2 ≤ b.xs.length
  hbar : 0 < b.hbar

/-- The potential and the kinetic energy are real at all points of the two grids. -/
def Propagator.Real (P : Propagator) : Prop :=
  ∀ c, P.basis.getConj = .ok c → ∀ t, (∀ x ∈ P.basis.basis.xs, (P.func t x).im = 0) ∧ ∀ x ∈ c.basis.xs, (P.conjFunc t x).im = 0

private theorem half_re (dt hbar : ℝ) (z : ℂ) (hz : z.im = 0) : ((-1 * Complex.I * dt / 2 / hbar) * z).re = 0 := by
  have : (-1 * Complex.I * dt / 2 / hbar : ℂ) = ((-dt / 2 / hbar : ℝ) : ℂ) * Complex.I := by push_cast; ring
  rw [this]
  simp [hz]

private theorem whole_re (dt hbar : ℝ) (z : ℂ) (hz : z.im = 0) : ((-1 * Complex.I * dt / hbar) * z).re = 0 := by
  have : (-1 * Complex.I * dt / hbar : ℂ) = ((-dt / hbar : ℝ) : ℂ) * Complex.I := by push_cast; ring
  rw [this]
  simp [hz]

private theorem step_ok {P : Propagator} {b : Basis} (hP : P.basis = .new b) (hb : b.Fine) (dt time : ℝ) {w : List ℂ} (hw : w.length = b.xs.length) :
    ∃ w', P.step dt time w = .ok w' ∧ w'.length = b.xs.length ∧ (P.Real → sq w' = sq w) ∧
      (∀ a : ℂ, P.step dt time (w.map (a * ·)) = .ok (w'.map (a * ·))) ∧
      ∀ time', P.func time' = P.func time → P.conjFunc time' = P.conjFunc time → P.step (-dt) time' w' = .ok w := by
  obtain ⟨v, hv, h0⟩ := hb.width
  obtain ⟨c, c1, c2, c3, c4⟩ := dual_new b hv h0 hb.two hb.hbar
  obtain ⟨κ, hκ, d⟩ := c3.rescale
  obtain ⟨κ', hκ', d'⟩ := c4.rescale
  have hbas : P.basis.basis = b := by rw [hP]; rfl
  set hbar : ℂ := (b.hbar : ℂ) with hbar_def
  set u1 : ℂ := -1 * Complex.I * dt / 2 / hbar with u1_def
  set u2 : ℂ := -1 * Complex.I * dt / hbar with u2_def
  have n1 : -1 * Complex.I * ((-dt : ℝ) : ℂ) / 2 / hbar = -u1 := by rw [u1_def]; push_cast; ring
  have n2 : -1 * Complex.I * ((-dt : ℝ) : ℂ) / hbar = -u2 := by rw [u2_def]; push_cast; ring
  have l1 : (mulExp u1 (P.func time) b.xs w).length = b.xs.length := length_mulExp hw
  obtain ⟨f, f1, f2, f3, f4, f5⟩ := d _ l1
  have l2 : (mulExp u2 (P.conjFunc time) c.basis.xs f).length = b.xs.length := by rw [length_mulExp (by rw [f2, c2]), c2]
  obtain ⟨g, g1, g2, g3, g4, g5⟩ := d' _ l2
  have form : ∀ dt' time' w, P.step dt' time' w = (do
      let f ← (Obj.new b).ft (mulExp (-1 * Complex.I * dt' / 2 / hbar) (P.func time') b.xs w)
      let g ← c.ft (mulExp (-1 * Complex.I * dt' / hbar) (P.conjFunc time') c.basis.xs f)
      pure (mulExp (-1 * Complex.I * dt' / 2 / hbar) (P.func time') b.xs g)) := by
    intro dt' time' w
    unfold Propagator.step
    dsimp only
    rw [hP, c1, ok_bind]
    rfl
  have hmul : ∀ v : List ℂ, v.length = b.xs.length → ∀ F G, (Obj.new b).ft v = .ok F → c.ft F = .ok G → G = v := by
    intro v hv F G h1 h2
    obtain ⟨F', e1, -, -, e2, -⟩ := d v hv
    rw [h1] at e1
    injection e1 with e1
    subst e1
    rw [h2] at e2
    injection e2
  refine ⟨mulExp u1 (P.func time) b.xs g, ?_, length_mulExp g2, ?_, ?_, ?_⟩
  · rw [form, ← u1_def, ← u2_def, f1, ok_bind, g1, ok_bind]; rfl
  · intro hr
    obtain ⟨r1, r2⟩ := hr c (by rw [hP]; exact c1) time
    rw [hbas] at r1
    have s1 : sq (mulExp u1 (P.func time) b.xs w) = sq w := sq_mulExp hw fun x hx => half_re _ _ _ (r1 x hx)
    have s2 : sq (mulExp u2 (P.conjFunc time) c.basis.xs f) = sq f := sq_mulExp (by rw [f2, c2]) fun x hx => whole_re _ _ _ (r2 x hx)
    have s3 : sq (mulExp u1 (P.func time) b.xs g) = sq g := sq_mulExp g2 fun x hx => half_re _ _ _ (r1 x hx)
    rw [s3, g3, s2, f3, s1]
    -- the two factors are inverse to each other
    obtain ⟨e, e1, e2, e3, e4, -⟩ := d (List.replicate b.xs.length 1) (by simp)
    obtain ⟨e', e5, -, e6, -, -⟩ := d' e e2
    rw [e4] at e5
    injection e5 with e5
    rw [← e5, e3] at e6
    have pos : sq (List.replicate b.xs.length 1) ≠ 0 := by
      unfold sq
      rw [List.map_replicate, List.sum_replicate, Complex.normSq_one]
      have := hb.two
      simp
      intro h
      rw [h] at this
      simp at this
    have : κ' * κ = 1 := by
      have h : κ' * κ * sq (List.replicate b.xs.length 1) = 1 * sq (List.replicate b.xs.length 1) := by linarith
      exact mul_right_cancel₀ pos h
    rw [← mul_assoc, this, one_mul]
  · intro a
    rw [form, ← u1_def, ← u2_def, mulExp_smul, f5 a, ok_bind, mulExp_smul, g5 a, ok_bind, mulExp_smul]; rfl
  · intro time' t1 t2
    rw [form, n1, n2, t1, t2, mulExp_neg g2, g4, ok_bind, mulExp_neg (by rw [f2, c2]), f4, ok_bind, mulExp_neg hw]; rfl

/-! ### Without renormalization -/

private theorem loop_norm {P : Propagator} {b : Basis} (hP : P.basis = .new b) (hb : b.Fine) (t0 dt : ℝ) (k i : ℕ) {s : PState} (hw : s.wfn.length = b.xs.length) :
    ∃ ys, P.loop t0 dt false k i s = .ok ys ∧ ys.length = k ∧ ∀ j (hj : j < ys.length), ys[j].1 = t0 + ((i + j : ℕ) : ℝ) * dt + dt ∧
      ys[j].2.wfn.length = b.xs.length ∧ (P.Real → sq ys[j].2.wfn = sq s.wfn) ∧ ys[j].2.coeff = s.coeff := by
  induction k generalizing i s with
  | zero => exact ⟨[], rfl, rfl, fun j hj => by simp at hj⟩
  | succ k ih =>
    obtain ⟨w', a1, a2, a3, -, -⟩ := step_ok hP hb dt (t0 + i * dt) hw
    obtain ⟨ys, y1, y2, y3⟩ := ih (i + 1) (s := { s with wfn := w' }) a2
    refine ⟨(t0 + i * dt + dt, { s with wfn := w' }) :: ys, ?_, by simp [y2], ?_⟩
    · unfold Propagator.loop
      dsimp only
      rw [a1, ok_bind]
      simp only [Bool.false_eq_true, if_false]
      rw [y1]; rfl
    · intro j hj
      cases j with
      | zero => exact ⟨by simp, a2, a3, rfl⟩
      | succ j =>
        obtain ⟨z1, z2, z3, z4⟩ := y3 j (by simpa using hj)
        simp only [List.getElem_cons_succ]
        refine ⟨?_, z2, fun hr => (z3 hr).trans (a3 hr), z4⟩
        rw [z1, show i + 1 + j = i + (j + 1) by omega]

/-- On every grid with at least two points and non-zero width, for every initial wave function, all functions `func`, `conj_func`, every start,
step and number of iterations: without renormalization the propagation succeeds and yields `max_iter + 1` wave functions, for the times
`t0 + j dt`, the first being the initial one. If `func` and `conj_func` are real on the grids, all of them have the probability
`Σ |ψ(x_i)|²` of the first one. -/
theorem C116_norm {P : Propagator} {b : Basis} (hP : P.basis = .new b) (hb : b.Fine) (t0 dt : ℝ) (maxIter : ℕ) {init : List ℂ}
    (hw : init.length = b.xs.length) : ∃ ys, P.call t0 dt maxIter false (.new init) = .ok ys ∧ ys.length = maxIter + 1 ∧
      (∃ rest, ys = (t0, .new init) :: rest) ∧
      ∀ j (hj : j < ys.length), ys[j].1 = t0 + j * dt ∧ ys[j].2.wfn.length = b.xs.length ∧ ys[j].2.coeff = 1 ∧
        (P.Real → prob ys[j].2.wfn = prob init) := by
  obtain ⟨ys, y1, y2, y3⟩ := loop_norm hP hb t0 dt maxIter 0 (s := .new init) hw
  refine ⟨(t0, .new init) :: ys, ?_, by simp [y2], ⟨ys, rfl⟩, ?_⟩
  · unfold Propagator.call
    rw [y1]; rfl
  · intro j hj
    cases j with
    | zero => exact ⟨by simp, hw, rfl, fun _ => rfl⟩
    | succ j =>
      obtain ⟨z1, z2, z3, z4⟩ := y3 j (by simpa using hj)
      simp only [List.getElem_cons_succ]
      refine ⟨?_, z2, z4, fun hr => ?_⟩
      · rw [z1]; push_cast; ring
      · rw [prob_eq, prob_eq]; exact z3 hr

/-! ### Going back -/

private theorem chain_loop {P : Propagator} (t0 dt : ℝ) (k i : ℕ) (s : PState) (L : List (List ℂ)) (hl : L.length = k)
    (h : (s.wfn :: L).IsChain fun a b => ∀ t, P.step dt t a = .ok b) : ∃ ys, P.loop t0 dt false k i s = .ok ys ∧ ys.map (·.2.wfn) = L := by
  induction k generalizing i s L with
  | zero =>
    rw [List.length_eq_zero_iff.1 hl]
    exact ⟨[], rfl, rfl⟩
  | succ k ih =>
    cases L with
    | nil => simp at hl
    | cons a L =>
      rw [List.isChain_cons_cons] at h
      obtain ⟨ys, y1, y2⟩ := ih (i + 1) { s with wfn := a } L (by simpa using hl) h.2
      refine ⟨(t0 + i * dt + dt, { s with wfn := a }) :: ys, ?_, by simp [y2]⟩
      unfold Propagator.loop
      dsimp only
      rw [h.1, ok_bind]
      simp only [Bool.false_eq_true, if_false]
      rw [y1]; rfl

private theorem loop_chain {P : Propagator} {b : Basis} (hP : P.basis = .new b) (hb : b.Fine) (hf : ∀ t t', P.func t = P.func t')
    (hc : ∀ t t', P.conjFunc t = P.conjFunc t') (t0 dt : ℝ) (k i : ℕ) {s : PState} (hw : s.wfn.length = b.xs.length) :
    ∃ ys, P.loop t0 dt false k i s = .ok ys ∧ ys.length = k ∧ (s.wfn :: ys.map (·.2.wfn)).IsChain fun a c => ∀ t, P.step (-dt) t c = .ok a := by
  induction k generalizing i s with
  | zero => exact ⟨[], rfl, rfl, by simp⟩
  | succ k ih =>
    obtain ⟨w', a1, a2, -, -, a5⟩ := step_ok hP hb dt (t0 + i * dt) hw
    obtain ⟨ys, y1, y2, y3⟩ := ih (i + 1) (s := { s with wfn := w' }) a2
    refine ⟨(t0 + i * dt + dt, { s with wfn := w' }) :: ys, ?_, by simp [y2], ?_⟩
    · unfold Propagator.loop
      dsimp only
      rw [a1, ok_bind]
      simp only [Bool.false_eq_true, if_false]
      rw [y1]; rfl
    · rw [List.map_cons, List.isChain_cons_cons]
      exact ⟨fun t => a5 t (hf _ _) (hc _ _), y3⟩

/-- For functions that do not depend on the time: propagating from the last wave function with the step `-dt` yields the same wave functions in
the opposite order, whatever the times. -/
theorem C116_reversible {P : Propagator} {b : Basis} (hP : P.basis = .new b) (hb : b.Fine) (hf : ∀ t t', P.func t = P.func t')
    (hc : ∀ t t', P.conjFunc t = P.conjFunc t') (t0 t1 dt : ℝ) (maxIter : ℕ) {init : List ℂ} (hw : init.length = b.xs.length) :
    ∃ ys last zs, P.call t0 dt maxIter false (.new init) = .ok ys ∧ ys.getLast? = some last ∧
      P.call t1 (-dt) maxIter false (.new last.2.wfn) = .ok zs ∧ zs.map (·.2.wfn) = (ys.map (·.2.wfn)).reverse := by
  obtain ⟨ys, y1, y2, y3⟩ := loop_chain hP hb hf hc t0 dt maxIter 0 (s := .new init) hw
  have hcall : P.call t0 dt maxIter false (.new init) = .ok ((t0, .new init) :: ys) := by
    unfold Propagator.call
    rw [y1]; rfl
  obtain ⟨pre, last, hl⟩ : ∃ pre last, (t0, PState.new init) :: ys = pre ++ [last] :=
    ⟨_, _, (List.dropLast_append_getLast (List.cons_ne_nil _ _)).symm⟩
  have hmap : (PState.new init).wfn :: ys.map (·.2.wfn) = pre.map (·.2.wfn) ++ [last.2.wfn] := by
    have := congrArg (List.map fun y : ℝ × PState => y.2.wfn) hl
    simpa using this
  have hrev : (last.2.wfn :: (pre.map (·.2.wfn)).reverse).IsChain fun a c => ∀ t, P.step (-dt) t a = .ok c := by
    rw [hmap] at y3
    have := List.isChain_reverse.2 y3
    rw [List.reverse_append] at this
    simpa using this
  obtain ⟨zs, z1, z2⟩ := chain_loop t1 (-dt) maxIter 0 (.new last.2.wfn) ((pre.map (·.2.wfn)).reverse) (by
    have := congrArg List.length hl
    simp at this
    simp [← this, y2]) hrev
  refine ⟨_, last, (t1, .new last.2.wfn) :: zs, hcall, by rw [hl, List.getLast?_concat], ?_, ?_⟩
  · unfold Propagator.call
    rw [z1]; rfl
  · rw [hl, List.map_append, List.reverse_append, List.map_cons, z2]
    rfl

/-! ### With renormalization -/

/-- `integrate.simps` is a sum with positive weights, one for each point. -/
def SimpsOk (simps : List ℂ → ℂ) (ws : List ℝ) : Prop :=
  (∀ a ∈ ws, 0 < a) ∧ ∀ v : List ℂ, v.length = ws.length → simps v = (List.zipWith (fun (a : ℝ) z => (a : ℂ) * z) ws v).sum

/-- The integral of `|ψ|²`: `Σ w_i |ψ(x_i)|²`. -/
noncomputable def integral (ws : List ℝ) (v : List ℂ) : ℝ := (List.zipWith (fun a z => a * ‖z‖ ^ 2) ws v).sum

private theorem inner_eq {simps : List ℂ → ℂ} {ws : List ℝ} (h : SimpsOk simps ws) {v : List ℂ} (hv : v.length = ws.length) :
    innerProduct simps v v = (integral ws v : ℝ) := by
  unfold innerProduct
  rw [h.2 _ (by rw [List.length_zipWith, min_self, hv])]
  have : ∀ (ws : List ℝ) (v : List ℂ), (List.zipWith (fun (a : ℝ) z => (a : ℂ) * z) ws (List.zipWith (fun x y => (starRingEnd ℂ) x * y) v v)).sum =
      ((integral ws v : ℝ) : ℂ) := by
    intro ws v
    unfold integral
    induction ws generalizing v with
    | nil => simp
    | cons a ws ih =>
      cases v with
      | nil => simp
      | cons z v =>
        simp only [List.zipWith_cons_cons, List.sum_cons]
        rw [ih, mul_comm ((starRingEnd ℂ) z), Complex.mul_conj, Complex.normSq_eq_norm_sq]
        push_cast
        rfl
  exact this ws v

private theorem integral_nonneg {ws : List ℝ} (h : ∀ a ∈ ws, 0 < a) (v : List ℂ) : 0 ≤ integral ws v := by
  unfold integral
  induction ws generalizing v with
  | nil => simp
  | cons a ws ih =>
    cases v with
    | nil => simp
    | cons z v =>
      simp only [List.zipWith_cons_cons, List.sum_cons]
      have := ih (fun x hx => h x (List.mem_cons_of_mem _ hx)) v
      have ha := h a (List.mem_cons_self ..)
      positivity

private theorem integral_pos {ws : List ℝ} (h : ∀ a ∈ ws, 0 < a) {v : List ℂ} (hv : v.length = ws.length) (hs : sq v ≠ 0) : 0 < integral ws v := by
  induction ws generalizing v with
  | nil => rw [List.length_eq_zero_iff.1 hv] at hs; exact (hs rfl).elim
  | cons a ws ih =>
    cases v with
    | nil => simp at hv
    | cons z v =>
      have e : integral (a :: ws) (z :: v) = a * ‖z‖ ^ 2 + integral ws v := by unfold integral; simp
      have ha := h a (List.mem_cons_self ..)
      have hws : ∀ x ∈ ws, 0 < x := fun x hx => h x (List.mem_cons_of_mem _ hx)
      rw [e]
      by_cases h0 : sq v = 0
      · have hz : z ≠ 0 := by
          rintro rfl
          apply hs
          rw [sq_cons, h0]; simp
        have := integral_nonneg hws v
        have : 0 < ‖z‖ := norm_pos_iff.2 hz
        positivity
      · have := ih hws (by simpa using hv) h0
        positivity

private theorem integral_map (ws : List ℝ) (k : ℂ) (v : List ℂ) : integral ws (v.map (k * ·)) = ‖k‖ ^ 2 * integral ws v := by
  unfold integral
  induction ws generalizing v with
  | nil => simp
  | cons a ws ih =>
    cases v with
    | nil => simp
    | cons z v =>
      simp only [List.map_cons, List.zipWith_cons_cons, List.sum_cons]
      rw [ih, norm_mul]
      ring

private theorem norm_eq {simps : List ℂ → ℂ} {ws : List ℝ} (h : SimpsOk simps ws) {v : List ℂ} (hv : v.length = ws.length) :
    norm simps v = (Real.sqrt (integral ws v) : ℝ) := by
  unfold norm
  rw [inner_eq h hv, Real.sqrt_eq_rpow, Complex.ofReal_cpow (integral_nonneg h.1 v)]
  norm_num

private theorem loop_renorm {P : Propagator} {b : Basis} (hP : P.basis = .new b) (hb : b.Fine) (hr : P.Real) {ws : List ℝ} (hs : SimpsOk P.simps ws)
    (hl : ws.length = b.xs.length) (t0 dt : ℝ) (k i : ℕ) {s u : PState} (hw : s.wfn.length = b.xs.length) (h0 : sq s.wfn ≠ 0)
    {q : ℝ} (hq : 0 < q) (hsq : s.coeff = q) (hu : u.wfn = s.wfn.map (s.coeff * ·)) :
    ∃ ys zs, P.loop t0 dt true k i s = .ok ys ∧ P.loop t0 dt false k i u = .ok zs ∧
      List.Forall₂ (fun y z => y.1 = z.1 ∧ z.2.wfn = y.2.wfn.map (y.2.coeff * ·) ∧ integral ws y.2.wfn = 1 ∧
        y.2.coeff = ((Real.sqrt (integral ws z.2.wfn) : ℝ) : ℂ)) ys zs := by
  induction k generalizing i s u q with
  | zero => exact ⟨[], [], rfl, rfl, .nil⟩
  | succ k ih =>
    obtain ⟨w', a1, a2, a3, a4, -⟩ := step_ok hP hb dt (t0 + i * dt) hw
    have a3 := a3 hr
    have hI : 0 < integral ws w' := integral_pos hs.1 (by rw [a2, hl]) (by rw [a3]; exact h0)
    have hR : 0 < Real.sqrt (integral ws w') := Real.sqrt_pos.2 hI
    set R := Real.sqrt (integral ws w') with hRdef
    have hRc : (R : ℂ) ≠ 0 := by exact_mod_cast hR.ne'
    have hnorm : norm P.simps w' = (R : ℝ) := norm_eq hs (by rw [a2, hl])
    set s' : PState := ⟨w'.map (· / (R : ℂ)), s.coeff * R⟩ with hs'
    have hdiv : w'.map (· / (R : ℂ)) = w'.map ((R : ℂ)⁻¹ * ·) := List.map_congr_left fun x _ => by rw [div_eq_mul_inv, mul_comm]
    have c1 : P.step dt (t0 + i * dt) u.wfn = .ok (w'.map (s.coeff * ·)) := by rw [hu]; exact a4 _
    have c2 : w'.map (s.coeff * ·) = s'.wfn.map (s'.coeff * ·) := by
      rw [hs']
      dsimp only
      rw [hdiv, map_mul_mul]
      refine List.map_congr_left fun x _ => ?_
      field_simp
    have i1 : integral ws s'.wfn = 1 := by
      rw [hs']
      dsimp only
      rw [hdiv, integral_map, norm_inv, Complex.norm_real, Real.norm_eq_abs, abs_of_pos hR, inv_pow, hRdef, Real.sq_sqrt hI.le, inv_mul_cancel₀ hI.ne']
    have i2 : s'.coeff = ((Real.sqrt (integral ws (w'.map (s.coeff * ·))) : ℝ) : ℂ) := by
      rw [integral_map, hsq, Complex.norm_real, Real.norm_eq_abs, abs_of_pos hq, Real.sqrt_mul (by positivity), Real.sqrt_sq hq.le, ← hRdef, hs']
      dsimp only
      rw [hsq]
      push_cast
      rfl
    obtain ⟨ys, zs, y1, y2, y3⟩ := ih (i + 1) (s := s') (u := { u with wfn := w'.map (s.coeff * ·) }) (by rw [hs']; simp [a2]) (by
        rw [hs']
        dsimp only
        rw [hdiv, sq_map, a3]
        exact mul_ne_zero (Complex.normSq_pos.2 (inv_ne_zero hRc)).ne' h0) (q := q * R) (mul_pos hq hR) (by rw [hs']; dsimp only; rw [hsq]; push_cast; rfl) c2
    refine ⟨(t0 + i * dt + dt, s') :: ys, (t0 + i * dt + dt, { u with wfn := w'.map (s.coeff * ·) }) :: zs, ?_, ?_, .cons ⟨rfl, c2, i1, i2⟩ y3⟩
    · unfold Propagator.loop
      dsimp only
      rw [a1, ok_bind]
      simp only [if_true]
      have : P.normalize { s with wfn := w' } = s' := by
        unfold Propagator.normalize
        dsimp only
        rw [hnorm]
      rw [this, y1]; rfl
    · unfold Propagator.loop
      dsimp only
      rw [c1, ok_bind]
      simp only [Bool.false_eq_true, if_false]
      rw [y2]; rfl

/-- With renormalization, for real functions and an initial wave function that is not zero everywhere: every wave function after the first has
the norm 1; times `renormalization_coeff` it is the wave function of the propagation without renormalization, and `renormalization_coeff` is the
norm of that one. -/
theorem C116_renormalize {P : Propagator} {b : Basis} (hP : P.basis = .new b) (hb : b.Fine) (hr : P.Real) {ws : List ℝ} (hs : SimpsOk P.simps ws)
    (hl : ws.length = b.xs.length) (t0 dt : ℝ) (maxIter : ℕ) {init : List ℂ} (hw : init.length = b.xs.length) (h0 : ∃ z ∈ init, z ≠ 0) :
    ∃ ys zs, P.call t0 dt maxIter true (.new init) = .ok ((t0, .new init) :: ys) ∧ P.call t0 dt maxIter false (.new init) = .ok ((t0, .new init) :: zs) ∧
      List.Forall₂ (fun y z => y.1 = z.1 ∧ z.2.wfn = y.2.wfn.map (y.2.coeff * ·) ∧ integral ws y.2.wfn = 1 ∧
        y.2.coeff = ((Real.sqrt (integral ws z.2.wfn) : ℝ) : ℂ)) ys zs := by
  have hsq : sq init ≠ 0 := by
    obtain ⟨z, hz, hz0⟩ := h0
    clear hw
    induction init with
    | nil => simp at hz
    | cons x init ih =>
      rw [sq_cons]
      have h1 := Complex.normSq_nonneg x
      have h2 := sq_nonneg' init
      rcases List.mem_cons.1 hz with rfl | hz
      · have := Complex.normSq_pos.2 hz0; positivity
      · have h3 := ih hz
        have : 0 < sq init := lt_of_le_of_ne h2 (Ne.symm h3)
        positivity
  obtain ⟨ys, zs, y1, y2, y3⟩ := loop_renorm hP hb hr hs hl t0 dt maxIter 0 (s := .new init) (u := .new init) hw hsq one_pos
    (by simp [PState.new]) (by simp [PState.new])
  refine ⟨ys, zs, ?_, ?_, y3⟩
  · unfold Propagator.call; rw [y1]; rfl
  · unfold Propagator.call; rw [y2]; rfl

/-! ### Examples -/

/-- A harmonic oscillator on four points. -/
noncomputable def exProp : Propagator := ⟨.new (.new .coordinate (-20) 20 4 1), fun _ x => x.re ^ 2 / 2, fun _ p => p.re ^ 2 / 2, fun v => v.sum⟩

theorem exProp_fine : (Basis.new .coordinate (-20) 20 4 1).Fine :=
  ⟨⟨_, width_new (by omega), by norm_num⟩, by rw [length_new]; omega, by simp [Basis.new]⟩

theorem exProp_real : exProp.Real := by
  intro c _ t
  refine ⟨fun x _ => ?_, fun x _ => ?_⟩ <;> simp [exProp, ← Complex.ofReal_pow]

example : ∃ ys, exProp.call 0 (1 / 10) 1000 false (.new [0, 1, Complex.I, 0]) = .ok ys ∧ ys.length = 1001 ∧
    ∀ j (hj : j < ys.length), prob ys[j].2.wfn = 2 := by
  obtain ⟨ys, h1, h2, -, h3⟩ := C116_norm (P := exProp) rfl exProp_fine 0 (1 / 10) 1000 (init := [0, 1, Complex.I, 0]) (by rw [length_new]; rfl)
  refine ⟨ys, h1, h2, fun j hj => ?_⟩
  rw [(h3 j hj).2.2.2 exProp_real]
  norm_num [prob]

example : ∃ ys last zs, exProp.call 0 (1 / 10) 1000 false (.new [0, 1, Complex.I, 0]) = .ok ys ∧ ys.getLast? = some last ∧
    exProp.call 5 (-(1 / 10)) 1000 false (.new last.2.wfn) = .ok zs ∧ zs.map (·.2.wfn) = (ys.map (·.2.wfn)).reverse :=
  C116_reversible rfl exProp_fine (fun _ _ => rfl) (fun _ _ => rfl) 0 5 (1 / 10) 1000 (by rw [length_new]; rfl)

example : SimpsOk exProp.simps [1, 1, 1, 1] := by
  refine ⟨by simp, fun v hv => ?_⟩
  match v, hv with
  | [a, b, c, d], _ => simp [exProp]

end Grids
