import Verif.Lemmas.DirectSolve3
import Verif.Props.C69

/-!
C70: `direct_step` with a solver of `scipy.integrate`.

The specification is in `Spec/DirectSolve.lean`: what the log of the calls must look like (`Follows`).
-/

open Py

namespace DirectSolve

open Heap ML

variable {K T R Z : Type} [Zero T] [Field R] [StarRing R]

omit [Zero T] [Field R] [StarRing R] in
private theorem clock_time (c : Config T R) (t : T) : c.time t = clock c t := by
  unfold Config.time clock
  cases c.imaginary <;> rfl

/-- A log can be continued. -/
private def Leads (c : Config T R) (F : Forest) (cur frame : Obj T R) (inv : Dict ℕ (Nd R)) (new : List (Event T R)) (cur' frame' : Obj T R)
    (inv' : Dict ℕ (Nd R)) : Prop :=
  ∀ log fin, Follows c F cur' (some (frame', inv')) log fin → Follows c F cur (some (frame, inv)) (new ++ log) fin

private theorem Leads.trans {c : Config T R} {F : Forest} {a fa b fb d fd : Obj T R} {ia ib id : Dict ℕ (Nd R)} {l m : List (Event T R)}
    (h1 : Leads c F a fa ia l b fb ib) (h2 : Leads c F b fb ib m d fd id) : Leads c F a fa ia (l ++ m) d fd id := fun log fin h => by
  rw [List.append_assoc]; exact h1 _ _ (h2 _ _ h)

/-- What is known of a state that is reached from another one. -/
private def Step (c : Config T R) (F : Forest) (s0 cur frame : Obj T R) (st : State T R) (new : List (Event T R)) (cur' frame' : Obj T R)
    (st' : State T R) : Prop :=
  st'.log = st.log ++ new ∧ Live c F s0 cur' frame' st' ∧ Leads c F cur frame st.inv new cur' frame' st'.inv

private theorem Step.refl {c : Config T R} {F : Forest} {s0 cur frame : Obj T R} {st : State T R} (hl : Live c F s0 cur frame st) :
    Step c F s0 cur frame st [] cur frame st := ⟨by simp, hl, fun _ _ h => h⟩

private theorem run_ok {c : Config T R} {F : Forest} {s0 : Obj T R} (hr : Ready s0 F) (htot : Total c.lin) {P : Z → Prop} {E : Err → Prop}
    (p : Evals T R Z) (hp : p.Fits (size s0.heap s0.root F) P E) :
    ∀ {cur frame : Obj T R} {st : State T R}, Live c F s0 cur frame st → ∃ st' r new cur' frame', run c p st = (st', r) ∧
      Step c F s0 cur frame st new cur' frame' st' ∧ p.Trace new r ∧ (∀ z, r = .ok z → P z) ∧ ∀ e, r = .error e → E e := by
  induction p with
  | ret z => exact fun hl => ⟨_, _, _, _, _, rfl, .refl hl, .ret z, fun z' h => by cases h; exact hp, fun e h => by cases h⟩
  | raise e => exact fun hl => ⟨_, _, _, _, _, rfl, .refl hl, .raise e, fun z' h => (by cases h), fun e' h => by cases h; exact hp⟩
  | eval t y next ih =>
    intro cur frame st hl
    obtain ⟨h1, h2⟩ := hp
    obtain ⟨st1, d, e1, e2, e3, e4, e5, e6⟩ := diff_ok hr htot hl t h1
    rw [clock_time] at e4 e6
    obtain ⟨st', r, new, cur', frame', f1, ⟨g1, g2, g3⟩, f3, f4⟩ := ih d (h2 d e2) e4
    refine ⟨st', r, .eval t y d :: new, cur', frame', by rw [run, e1]; exact f1, ⟨by rw [g1, e3]; simp, g2, fun log fin h => ?_⟩, .eval t y d f3, f4⟩
    rw [List.cons_append]
    refine ⟨⟨frame, st.inv, rfl, e6⟩, ?_⟩
    rw [← e5]
    exact g3 log fin h

private theorem loop_ok {c : Config T R} {F : Forest} {s0 : Obj T R} (hr : Ready s0 F) (htot : Total c.lin)
    (hq : (∃ t ∈ s0.heap.tensors s0.root F, (s0.heap.node t).normalized = true) → SqrtOk c.sqrt) {o : Solver K T R Z} {P : Z → Prop} {E : Err → Prop}
    (ho : o.Fits s0 F P E) (fuel : ℕ) : ∀ (n : ℕ) {cur frame : Obj T R} {st : State T R} {z : Z}, Live c F s0 cur frame st → P z →
      ∃ st' z' r new cur' frame', Ode.loop (calls c o) c.cmfSteps c.maxOdeSteps fuel n (st, z) = ((st', z'), r) ∧
        Step c F s0 cur frame st new cur' frame' st' ∧ o.Drives c.cmfSteps c.maxOdeSteps n z new r ∧
        ∀ e, r = .error e → E e ∨ e = .runtimeWarning ∨ e = .outOfFuel := by
  induction fuel with
  | zero => exact fun n cur frame st z hl hz => ⟨st, z, _, _, _, _, rfl, .refl hl, .fuel n z, fun e h => by cases h; exact .inr (.inr rfl)⟩
  | succ fuel ih =>
    intro n cur frame st z hl hz
    rw [Ode.loop]
    split
    · rename_i q
      exact ⟨st, z, _, _, _, _, rfl, .refl hl, .finished n q, fun e h => by cases h⟩
    rename_i q
    have hrun : o.status z = .running := not_not.1 q
    by_cases hlim : n % c.cmfSteps = 0 ∧ c.maxOdeSteps ≤ n
    · unfold Ode.seq Ode.body Ode.seq
      rw [if_pos hlim.1]
      unfold Ode.checkpoint
      rw [if_pos hlim.2]
      exact ⟨st, z, _, _, _, _, rfl, .refl hl, .limit hrun hlim.1 hlim.2, fun e h => by cases h; exact .inr (.inl rfl)⟩
    have hlim' : n % c.cmfSteps = 0 → (n : ℤ) < c.maxOdeSteps := fun h => by
      by_contra h'
      exact hlim ⟨h, not_lt.1 h'⟩
    -- the checkpoint
    obtain ⟨st1, new1, cur1, frame1, a1, ⟨c1, c2, c3⟩, a3⟩ : ∃ st1 new1 cur1 frame1,
        (if n % c.cmfSteps = 0 then Ode.checkpoint (calls c o) c.maxOdeSteps n else fun s => (s, .ok ())) (st, z) =
        ((st1, z), .ok ()) ∧ Step c F s0 cur frame st new1 cur1 frame1 st1 ∧ Refresh c.cmfSteps n new1 := by
      unfold Refresh
      split
      · rename_i q0
        unfold Ode.checkpoint
        rw [if_neg (not_le.2 (hlim' q0))]
        simp only [calls]
        obtain ⟨st1, b1, b2, b3⟩ := reform_ok (c := c) hr htot hl.kin hl.marks
        rw [b1]
        refine ⟨st1, [.reform st.obj st1.inv], st.obj, st.obj, rfl, ⟨b2, b3, fun log fin h => ?_⟩, ⟨_, _, rfl⟩⟩
        exact ⟨hl.net, hl.time, b3.inv, h⟩
      · exact ⟨st, _, _, _, rfl, .refl hl, rfl⟩
    unfold Ode.seq Ode.body Ode.seq
    rw [a1]
    simp only
    obtain ⟨st2, r2, new2, cur2, frame2, b1, ⟨d1, d2, d3⟩, b2, b3, b4⟩ := run_ok hr htot (o.step z) (ho.step z hz) c2
    have hstep : (calls c o).step (st1, z) = match run c (o.step z) st1 with
      | (st, .error e) => ((st, z), .error e)
      | (st, .ok z) => ((st, z), .ok ()) := rfl
    rw [hstep, b1]
    cases r2 with
    | error e =>
      exact ⟨st2, z, _, new1 ++ new2, cur2, frame2, rfl, ⟨by rw [d1, c1, List.append_assoc], d2, c3.trans d3⟩, .raise hrun hlim' a3 b2,
        fun e' h => by cases h; exact .inl (b4 _ rfl)⟩
    | ok z2 =>
      simp only
      have hz2 := b3 z2 rfl
      obtain ⟨st3, f1, f2, f3, f4, f5⟩ := update_ok hr hq d2 (ho.length z2 hz2) (ho.regular z2 hz2)
      have hupd : (calls c o).updater (st2, z2) = match update c (o.y z2) st2 with
        | .error e => ((st2, z2), .error e)
        | .ok st => ((st, z2), .ok ()) := rfl
      rw [hupd, f1]
      simp only
      obtain ⟨st', z', r, new4, cur4, frame4, g1, ⟨j1, j2, j3⟩, g2, g3⟩ := ih (n + 1) f4 hz2
      refine ⟨st', z', r, new1 ++ new2 ++ .update (o.y z2) st3.obj :: new4, cur4, frame4, g1, ⟨by rw [j1, f2, d1, c1]; simp, j2, ?_⟩,
        .step hrun hlim' a3 b2 g2, g3⟩
      refine (c3.trans d3).trans fun log fin h => ⟨f5, ?_⟩
      rw [← f3]
      exact j3 log fin h

/-- `direct_step` with any solver of `scipy.integrate`: the calls are those of the solver, with the time and the arrays of the network at the beginning
(`Session`). Whatever the solver does, `diff` never changes the network, and what it returns is the right-hand side
of the equations of motion at the arrays it is given, with the mean fields and inverse densities of the network at the last `reformer()`; that network, and the one
at the end, is the network before the step or the one with the arrays of the last `updater(y)`, normalized where a tensor is marked (`Follows`). The only
exceptions are those of the solver, and that for too many steps. -/
theorem C70_scipy_step {c : Config T R} {F : Forest} {s : Obj T R} (hr : Ready s F) (htot : Total c.lin) (hcmf : c.cmfSteps ≠ 0)
    (hq : (∃ t ∈ s.heap.tensors s.root F, (s.heap.node t).normalized = true) → SqrtOk c.sqrt) {o : Solver K T R Z} {P : Z → Prop} {E : Err → Prop}
    (ho : o.Fits s F P E) (fuel : ℕ) (tau : K) :
    ∃ st r, directStep c o fuel tau s = (st, r) ∧ o.Session c F s tau st.log r ∧ Follows c F s none st.log st.obj ∧
      ∀ e, r = .error e → E e ∨ e = .runtimeWarning ∨ e = .outOfFuel := by
  obtain ⟨st1, a1, a2, a3⟩ := reform_ok (c := c) (st := ⟨s, [], []⟩) hr htot (SameNet.rfl' s).kin hr.norm
  have ht1 := a3.kin.ttn hr.ttn
  obtain ⟨d, b1⟩ := vectorize_parts (useAux := false) ht1 (a3.kin.rooted hr.rooted).1 (SplitProp.Good.fuel ht1)
    (p := fun t => (st1.obj.heap.array t).getD ⟨[], []⟩) (fun t hm => by
      obtain ⟨A, hA⟩ := ht1.full t hm
      unfold arrayOrAux
      simp [hA.array])
  set y0 := (st1.obj.heap.tensors st1.obj.root F).flatMap fun t => ((st1.obj.heap.array t).getD ⟨[], []⟩).data with hy0
  have hlen : y0.length = size s.heap s.root F := by
    rw [(parts_self ht1).length ht1, a3.kin.size]
  have hy1 : y0 = (s.heap.tensors s.root F).flatMap fun t => ((s.heap.array t).getD ⟨[], []⟩).data := by
    rw [hy0, a3.net.tensors]
    exact List.flatMap_congr fun t hm => by rw [a3.net.array t (mem_tensors.1 hm).2]
  have hparts : Parts s.heap s.root F y0 (fun t => (s.heap.array t).getD ⟨[], []⟩) := by
    rw [hy1]; exact parts_self hr.ttn
  have harr : ∀ t ∈ s.heap.tensors s.root F, s.heap.array t = some ((s.heap.array t).getD ⟨[], []⟩) := fun t hm => by
    obtain ⟨A, hA⟩ := hr.ttn.full t hm
    rw [hA.array]; rfl
  have htime : st1.obj.time = s.time := a3.time
  obtain ⟨st2, r2, new2, cur2, frame2, c1, ⟨d1, d2, d3⟩, c2, c3, c4⟩ := run_ok hr htot _ (ho.init (st1.obj.time.getD 0) y0 tau hlen) a3
  have fin : ∀ st' new cur' frame', Step c F s s s st1 new cur' frame' st' →
      st'.log = .reform s st1.inv :: new ∧ Follows c F s none st'.log st'.obj := by
    rintro st' new cur' frame' ⟨d1, d2, d3⟩
    have h0 : st'.log = .reform s st1.inv :: new := by rw [d1, a2]; rfl
    refine ⟨h0, ?_⟩
    rw [h0]
    refine ⟨SameNet.rfl' s, rfl, a3.inv, ?_⟩
    have := d3 [] st'.obj ⟨d2.net, d2.time⟩
    rw [List.append_nil] at this
    exact this
  unfold directStep
  rw [a1]
  simp only
  rw [b1]
  simp only
  rw [c1]
  rw [htime] at c2
  cases r2 with
  | error e =>
    obtain ⟨f1, f2⟩ := fin st2 new2 cur2 frame2 ⟨d1, d2, d3⟩
    exact ⟨st2, _, rfl, ⟨_, _, _, hparts, harr, .inl ⟨_, _, c2, f1, rfl⟩⟩, f2, fun e' h => by cases h; exact .inl (c4 _ rfl)⟩
  | ok z =>
    simp only
    obtain ⟨st3, z3, r3, new3, cur3, frame3, e1, ⟨g1, g2, g3⟩, e3, e4⟩ := loop_ok hr htot hq ho fuel 1 d2 (c3 z rfl)
    unfold Ode.solveOde
    rw [if_neg hcmf, e1]
    obtain ⟨f1, f2⟩ := fin st3 (new2 ++ new3) cur3 frame3 ⟨by rw [g1, d1, List.append_assoc], g2, d3.trans g3⟩
    exact ⟨st3, r3, rfl, ⟨_, _, _, hparts, harr, .inr ⟨_, _, _, c2, e3, f1⟩⟩, f2, e4⟩

/-- With one tensor only: the derivatives that the solver is given are the right-hand side `H φ / coef - E φ` of the equation of motion of the
state `φ` it asks for, with the operators at the time of the object in some `reformer()`. (Missing: the operators at the time the solver asks for; that
is false, see `C70_stale_time_violated`. It is the right-hand side if the operators do not depend on time.) -/
theorem C70_one_tensor_partial {c : Config T R} {F : Forest} {s : Obj T R} (hr : Ready s F) (htot : Total c.lin) (hcmf : c.cmfSteps ≠ 0)
    (hone : ∀ l ∈ F.ids, s.heap.isLeaf l = true) (hcoef : ∀ t, c.coef t ≠ 0)
    (hq : (∃ t ∈ s.heap.tensors s.root F, (s.heap.node t).normalized = true) → SqrtOk c.sqrt) {o : Solver K T R Z} {P : Z → Prop} {E : Err → Prop}
    (ho : o.Fits s F P E) (fuel : ℕ) (tau : K) {A : Nd R} (hA : s.heap.array s.root = some A) :
    ∀ t y d, .eval t y d ∈ (directStep c o fuel tau s).1.log → ∃ s' inv, .reform s' inv ∈ (directStep c o fuel tau s).1.log ∧
      ∀ x, (∀ p ∈ s.heap.leafList s.root F, x p.1 < p.2) → variation s F s.root (some ⟨A.shape, d⟩) x =
        generator { s with time := s'.time } F (c.coef (clock c t)) c.initEnergy (variation s F s.root (some ⟨A.shape, y⟩)) x := by
  obtain ⟨st, r, h1, -, h3, -⟩ := C70_scipy_step hr htot hcmf hq ho fuel tau
  rw [h1]
  intro t y d he
  obtain ⟨s', inv, k, g2, g3⟩ := Follows.evals (pre := []) h3 (SameNet.rfl' s).kin (fun s inv h => by cases h) he
  refine ⟨s', inv, g2, fun x hx => ?_⟩
  have ht' := k.ttn hr.ttn
  obtain ⟨A', hA', hs'⟩ : ∃ A', s'.heap.array s'.root = some A' ∧ A'.shape = A.shape := by
    have := k.shape s.root hr.ttn.leaf
    rw [hA] at this
    obtain ⟨A', h1, h2⟩ := Option.map_eq_some_iff.1 this
    exact ⟨A', by rw [k.root]; exact h1, h2⟩
  have := frozen_one ht' (k.rooted hr.rooted).1 (fun l hl => by rw [k.leaf]; exact hone l hl) (hcoef _) g3 hA' (x := x)
    (by rw [k.leafList hr.ttn]; exact hx)
  rw [hs', generator_one k.toSameShape hr.ttn, variation_one k.toSameShape hr.ttn hone, variation_one k.toSameShape hr.ttn hone] at this
  exact this

/-! The midpoint rule as a solver, with `tau` steps; the derivatives are asked for at the times `a` and `b`. Its state is the number of steps that are
left and the vector. -/

def midpoint (a b : T) (dt : R) : Solver ℕ T R (ℕ × List R) where
  init := fun _ y tau => .ret (tau, y)
  status := fun z => if z.1 = 0 then .finished else .running
  step := fun z => .eval a z.2 fun k => .eval b (List.zipWith (fun u v => u + dt / 2 * v) z.2 k) fun k =>
    .ret (z.1 - 1, List.zipWith (fun u v => u + dt * v) z.2 k)
  y := fun z => z.2

omit [Zero T] in
theorem midpoint_fits {s : Obj T R} {F : Forest} (hm : ∀ t ∈ s.heap.tensors s.root F, (s.heap.node t).normalized = false) (a b : T) (dt : R) :
    (midpoint a b dt).Fits s F (fun z => z.2.length = size s.heap s.root F) (fun _ => False) where
  init := fun _ _ _ h => h
  step := fun z hz => ⟨hz, fun d hd => ⟨by rw [List.length_zipWith, hz, hd, min_self], fun e he => by
    show (List.zipWith _ _ _).length = _
    rw [List.length_zipWith, hz, he, min_self]⟩⟩
  length := fun _ h => h
  regular := fun z _ p _ t ht hq => by rw [hm t ht] at hq; cases hq

/-- `inv` of 2 × 2 matrices; it returns other matrices as they are. -/
def exLin2 : Linalg ℚ where
  pinv2 := fun d => if d.shape = [2, 2] then exLin.pinv2 d else .ok d
  inv := fun _ => .error .valueError
  usePinv := true
  regularErr := 0

theorem exLin2_total : Total exLin2 := by
  intro n d hd hs
  unfold Linalg.invert exLin2
  simp only [if_true]
  split
  · rename_i q
    rw [q] at hs
    obtain rfl : 2 = n := by simpa using hs
    exact ⟨_, rfl, rfl⟩
  · exact ⟨d, rfl, hs⟩

/-- The network of C69 with two tensors. -/
theorem exRk2_start : Ready exRk2 exTwoForest where
  ttn := exRk2_ready.ttn
  rooted := exRk2_ready.rooted
  norm := exRk2_ready.norm
  axes := exRk2_ready.axes
  leaf := exRk2_ready.leaf
  fits := by
    intro time term ht p hp
    have := exRk2_ready.fits term ht p hp
    have e : opOn time term p.1 = opOn exRk2.now term p.1 := by
      have ht' : term ∈ exRk2.hList := ht
      simp only [exRk2, exEom, List.mem_cons, List.not_mem_nil, or_false] at ht'
      rcases ht' with rfl | rfl <;> rfl
    rw [e]; exact this
  terms := exRk2_ready.terms

theorem exRk2_marks : ∀ t ∈ exRk2.heap.tensors exRk2.root exTwoForest, (exRk2.heap.node t).normalized = false := by decide +kernel

def exConf : Config ℕ ℚ := ⟨false, id, fun _ => 1, none, exLin2, 1, 100⟩

/-- Two steps of the midpoint rule. -/
example : ∃ st r, directStep exConf (midpoint 0 1 (1/10)) 5 2 exRk2 = (st, r) ∧ Follows exConf exTwoForest exRk2 none st.log st.obj ∧
    ∀ e, r = .error e → e = .runtimeWarning ∨ e = .outOfFuel := by
  obtain ⟨st, r, h1, -, h3, h4⟩ := C70_scipy_step exRk2_start exLin2_total (c := exConf) (by decide) (fun ⟨t, ht, h⟩ => by
    rw [exRk2_marks t ht] at h; cases h) (midpoint_fits exRk2_marks 0 1 (1/10)) 5 2
  exact ⟨st, r, h1, h3, fun e h => (h4 e h).resolve_left id⟩

/-- The log has the `reformer()` at the beginning, and two evaluations, an `updater` and, before the second step, another `reformer()` for each step. -/
example : (directStep exConf (midpoint 0 1 (1/10)) 5 2 exRk2).1.log.map (fun e => match e with
      | .reform _ _ => 'r' | .eval _ _ _ => 'e' | .update _ _ => 'u') = ['r', 'r', 'e', 'e', 'u', 'r', 'e', 'e', 'u'] ∧
    (directStep exConf (midpoint 0 1 (1/10)) 5 2 exRk2).2 = .ok () := by decide +kernel

/-- The derivative that the equations of motion prescribe for the arrays `y`: as `direct_step` computes it for the network with these arrays. -/
def rhs (fuel : ℕ) (lin : Linalg R) (coef : R) (initEnergy : Option R) (y : List R) (s : Obj T R) : Res (List R) := do
  let h ← s.heap.tensorize fuel s.root y
  let s ← derivative fuel lin coef initEnergy { s with heap := h }
  let (d, _) ← s.heap.vectorize fuel s.root true
  pure d

/-- With two tensors, the solver is not given the right-hand side of the equations of motion at the vector it asks for: mean fields and inverse
densities are those of the vector at the last `reformer()`. The network is that of C69, there are no normalization marks and the inverse is exact. -/
theorem C70_stale_fields_violated : ∃ (c : Config ℕ ℚ) (s : Obj ℕ ℚ) (F : Forest) (o : Solver ℕ ℕ ℚ (ℕ × List ℚ)) (P : ℕ × List ℚ → Prop),
    Ready s F ∧ Total c.lin ∧ c.cmfSteps = 1 ∧ o.Fits s F P (fun _ => False) ∧ ∃ t y d d', .eval t y d ∈ (directStep c o 5 1 s).1.log ∧
      rhs s.heap.next c.lin (c.coef (clock c t)) c.initEnergy y s = .ok d' ∧ d ≠ d' := by
  have h : ((directStep exConf (midpoint 0 1 (1/10)) 5 1 exRk2).1.log.any fun e => match e with
      | .eval _ y d => (rhs exRk2.heap.next exLin2 1 none y exRk2).toOption.any fun d' => decide (d ≠ d')
      | _ => false) = true := by decide +kernel
  obtain ⟨e, he, hp⟩ := List.any_eq_true.1 h
  cases e with
  | reform s inv => cases hp
  | update y s => cases hp
  | eval t y d =>
    simp only at hp
    cases hd : rhs exRk2.heap.next exLin2 1 none y exRk2 with
    | error e => rw [hd] at hp; cases hp
    | ok d' =>
      rw [hd] at hp
      exact ⟨exConf, exRk2, exTwoForest, midpoint 0 1 (1/10), _, exRk2_start, exLin2_total, rfl, midpoint_fits exRk2_marks 0 1 (1/10),
        t, y, d, d', he, hd, by simpa [Except.toOption] using hp⟩

/-- One tensor; the Hamiltonian at time `t` swaps the two states and multiplies them by `t`. -/
def exDriven : Obj ℚ SplitProp.Gq :=
  ⟨SplitProp.exQ, 0, [], some [[(1, .fn fun t => ⟨[2, 2], [0, ⟨t, 0⟩, ⟨t, 0⟩, 0]⟩)]], some 0, []⟩

theorem exDriven_ready : Ready exDriven SplitProp.exQForest where
  ttn := SplitProp.exQ_ready.ttn
  rooted := SplitProp.exQ_ready.rooted
  norm := SplitProp.exQ_ready.norm
  axes := SplitProp.exQ_ready.axes
  leaf := by
    intro term ht p hp
    simp only [exDriven, Obj.allTerms, List.nil_append, List.mem_cons, List.not_mem_nil, or_false] at ht
    subst ht
    simp only [List.mem_cons, List.not_mem_nil, or_false] at hp
    subst hp
    decide +kernel
  fits := by
    intro time term ht p hp
    simp only [exDriven, Obj.allTerms, List.nil_append, List.mem_cons, List.not_mem_nil, or_false] at ht
    subst ht
    have : exDriven.heap.leafList exDriven.root SplitProp.exQForest = [(1, 2)] := by decide +kernel
    rw [this] at hp
    simp only [List.mem_cons, List.not_mem_nil, or_false] at hp
    subst hp
    exact ⟨rfl, rfl⟩
  terms := by simp [exDriven, Obj.allTerms]

theorem exDriven_marks : ∀ t ∈ exDriven.heap.tensors exDriven.root SplitProp.exQForest, (exDriven.heap.node t).normalized = false := by
  decide +kernel

def exDrivenConf : Config ℚ SplitProp.Gq := ⟨false, id, fun _ => ⟨0, 1⟩, none, ⟨fun d => .ok d, fun d => .ok d, true, 0⟩, 1, 100⟩

theorem exDriven_total : Total exDrivenConf.lin := fun _ d _ hs => ⟨d, rfl, hs⟩

example : ∀ t y d, .eval t y d ∈ (directStep exDrivenConf (midpoint (1/2) 1 1) 5 2 exDriven).1.log →
    ∃ s' inv, .reform s' inv ∈ (directStep exDrivenConf (midpoint (1/2) 1 1) 5 2 exDriven).1.log ∧
      ∀ x, (∀ p ∈ exDriven.heap.leafList exDriven.root SplitProp.exQForest, x p.1 < p.2) →
        variation exDriven SplitProp.exQForest exDriven.root (some ⟨[2], d⟩) x =
          generator { exDriven with time := s'.time } SplitProp.exQForest ⟨0, 1⟩ none
            (variation exDriven SplitProp.exQForest exDriven.root (some ⟨[2], y⟩)) x :=
  C70_one_tensor_partial exDriven_ready exDriven_total (c := exDrivenConf) (by decide) (by decide +kernel) (fun _ => show (⟨0, 1⟩ : SplitProp.Gq) ≠ 0 by decide +kernel)
    (fun ⟨t, ht, h⟩ => by rw [exDriven_marks t ht] at h; cases h) (midpoint_fits exDriven_marks (1/2) 1 1) 5 2 (A := ⟨[2], [1, 0]⟩) rfl

/-- Even with one tensor, the operators are not those at the time the solver asks for: they are those at the time of the last evaluation before the
last `reformer()`, here `H(0) = 0` for the derivative at time 1/2. -/
theorem C70_stale_time_violated : ∃ (c : Config ℚ SplitProp.Gq) (s : Obj ℚ SplitProp.Gq) (F : Forest) (o : Solver ℕ ℚ SplitProp.Gq (ℕ × List SplitProp.Gq))
    (P : ℕ × List SplitProp.Gq → Prop) (A : Nd SplitProp.Gq), Ready s F ∧ Total c.lin ∧ c.cmfSteps = 1 ∧ o.Fits s F P (fun _ => False) ∧
      (∀ l ∈ F.ids, s.heap.isLeaf l = true) ∧ s.heap.array s.root = some A ∧ ∃ t y d x, .eval t y d ∈ (directStep c o 5 1 s).1.log ∧
        (∀ p ∈ s.heap.leafList s.root F, x p.1 < p.2) ∧ variation s F s.root (some ⟨A.shape, d⟩) x ≠
          generator { s with time := clock c t } F (c.coef (clock c t)) c.initEnergy (variation s F s.root (some ⟨A.shape, y⟩)) x := by
  have h : ((directStep exDrivenConf (midpoint (1/2) 1 1) 5 1 exDriven).1.log.any fun e => match e with
      | .eval t y d => decide (variation exDriven SplitProp.exQForest 0 (some ⟨[2], d⟩) (fun _ => 1) ≠
          generator { exDriven with time := some t } SplitProp.exQForest ⟨0, 1⟩ none (variation exDriven SplitProp.exQForest 0 (some ⟨[2], y⟩)) fun _ => 1)
      | _ => false) = true := by decide +kernel
  obtain ⟨e, he, hp⟩ := List.any_eq_true.1 h
  cases e with
  | reform s inv => cases hp
  | update y s => cases hp
  | eval t y d =>
    exact ⟨exDrivenConf, exDriven, SplitProp.exQForest, midpoint (1/2) 1 1, _, ⟨[2], [1, 0]⟩, exDriven_ready, exDriven_total, rfl,
      midpoint_fits exDriven_marks (1/2) 1 1, (by decide +kernel), rfl, t, y, d, fun _ => 1, he, (by decide +kernel), of_decide_eq_true hp⟩

end DirectSolve
