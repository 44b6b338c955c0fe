import Verif.Lemmas.Idle
import Verif.Spec.OdeReal
import Verif.Props.C127

/-!
C131: `ode_in_real`.
-/

open scoped BigOperators
open Py

namespace OdeReal

open Heap ML Sweep SplitProp

variable {K T : Type} [Zero T]

theorem pack_wf (y : List ℂ) : (pack y).Wf := by simp [pack, Nd.Wf, two_mul]

omit [Zero T] in
theorem never_of_keeps {n : ℕ} (p : PlanR T) (hp : p.Keeps [2, n]) : (toPlan p).Never n := by
  induction p with
  | stop => trivial
  | eval t x next ih =>
    unfold toPlan
    split
    · exact fun d => ih _ (hp _)
    · trivial
  | update x next ih =>
    obtain ⟨h1, h2, h3⟩ := hp
    refine ⟨fun h0 q => ?_, ih h3⟩
    have : x.data.length = x.shape.prod := h1
    rw [h2] at this
    simp at this q
    omega
  | reform next ih => exact ih hp

theorem config_never (c : SplitProp.Config K T ℂ) {solver : T → Nd ℝ → K → PlanR T} (hs : ∀ t0 y0 tau, (solver t0 y0 tau).Keeps y0.shape) (t0 : T)
    (y : List ℂ) (tau : K) : ((config c solver).solver t0 y tau).Never y.length := never_of_keeps _ (hs t0 (pack y) tau)

/-- **C131, violated.** With `ode_in_real=True` the sweeps of the projector splitting do nothing and do not say so: whatever the solver (if the solution it holds
has the shape of the initial values it was given, or if it does not accept them at all) and whatever the network and the terms, every list of sweeps
returns normally, with the same root, and with the state the network had before. -/
theorem C131_sweeps_violated [Field K] (c : SplitProp.Config K T ℂ) (h1 : SvdShape c.svd) (h2 : SvdIso c.svd) (h3 : SvdExact c.svd) (h1' : SvdShape c.svdU)
    (h2' : SvdIso c.svdU) (h3' : SvdExact c.svdU) (solver : T → Nd ℝ → K → PlanR T) (hs : ∀ t0 y0 tau, (solver t0 y0 tau).Keeps y0.shape)
    {s : State K (Ext T ℂ) ℂ} {F : Forest} (ht : s.heap.IsTTN s.root F) (hr : s.heap.Rooted s.root F)
    (hp : s.heap.PlainNames (s.heap.tensors s.root F)) (st : Start s.ext s.heap) (hcalls : s.ext.calls = []) {fuel : ℕ}
    (hfu : F.ids.length < fuel) (cmds : List (Cmd K)) :
    ∃ s', cmds.foldlM (Cmd.exec (hooks (config c solver)) fuel) s = .ok s' ∧ s'.root = s.root ∧ s'.heap.IsTTN s.root F ∧
      (s'.heap.leafList s.root F).Perm (s.heap.leafList s.root F) ∧
      ∀ x : ℕ → ℕ, (∀ p ∈ s.heap.leafList s.root F, x p.1 < p.2) → s'.heap.treeAmp s.root F x = s.heap.treeAmp s.root F x := by
  have g : Good (Call.Right (config c solver)) s.heap.next s.ext s.heap s.root :=
    ⟨Nat.le_refl _, st.fList, st.const, st.leaf, st.fits, st.empty, st.marks, by rw [hcalls]; intro call hcall; cases hcall⟩
  have k : Still s.heap s.root F s.heap s.root := fun F' ht' => by
    obtain rfl := ht.tree.unique ht'.tree
    exact ⟨.refl _, fun _ _ => rfl⟩
  obtain ⟨s', e1, e2, -, e3, -, e4, e5⟩ := cmds_ok (goodI_still s.heap.next (config c solver) h1 h2 h3 h1' h2' h3' (config_never c hs) s.heap s.root F)
    hfu cmds s ht hr hp ⟨g, k⟩
  have q := e5 F (e2 ▸ e3)
  rw [e2] at q
  exact ⟨s', e1, e2, e3, q.leaves, q.amp⟩

/-- **C131, one propagation.** The same for the propagation of one tensor, `_split_prop`: it returns normally, and every array is the one it was. -/
theorem C131_split_prop_violated (c : SplitProp.Config K T ℂ) (solver : T → Nd ℝ → K → PlanR T) (hs : ∀ t0 y0 tau, (solver t0 y0 tau).Keeps y0.shape)
    {s : State K (Ext T ℂ) ℂ} {F : Forest} (ht : s.heap.IsTTN s.root F) (hr : s.heap.Rooted s.root F) (st : Start s.ext s.heap)
    (hcalls : s.ext.calls = []) (henv : s.ext.env = []) (tau : K) (cache : Bool) :
    ∃ s', splitProp (hooks (config c solver)) tau cache s s.root = .ok s' ∧ s'.root = s.root ∧ ∀ u, s'.heap.array u = s.heap.array u := by
  have g : Good (Call.Right (config c solver)) s.heap.next s.ext s.heap s.root :=
    ⟨Nat.le_refl _, st.fList, st.const, st.leaf, st.fits, st.empty, st.marks, by rw [hcalls]; intro call hcall; cases hcall⟩
  have f : Fine (Call.Right (config c solver)) s.heap.next s.ext s.heap s.root := by
    refine ⟨g, fun F' _ n term _ e _ v hv => ?_, fun k v hv => ?_⟩
    · rw [show (s.ext.obj s.heap s.root).env = [] from henv] at hv; cases hv
    · rw [henv] at hv; cases hv
  obtain ⟨x', h', e1, -, -, e4, -⟩ := evolve_still (h0 := s.heap) (r0 := s.root) (F0 := F) (config c solver) (config_never c hs) tau cache ht hr f
  refine ⟨⟨h', s.root, x', s.log ++ [⟨s.root, s.heap.linkages s.root, tau⟩]⟩, ?_, rfl, e4⟩
  unfold splitProp
  rw [if_neg (by simp [hr.1])]
  have : (hooks (config c solver)).evolve s.ext s.heap s.root tau cache = .ok (x', h') := e1
  simp only [this]
  rfl

theorem unpack_get (x : Nd ℝ) (n : ℕ) (hx : x.Wf) (hs : x.shape = [2, n]) : unpack x n = complexOf n x := by
  have hl : x.data.length = 2 * n := by have : x.data.length = x.shape.prod := hx; rw [this, hs]; simp
  unfold unpack complexOf
  refine List.ext_getElem (by simp; omega) fun i h1 h2 => ?_
  have hi : i < n := by simpa using h2
  simp only [List.getElem_zipWith, List.getElem_map, List.getElem_range, List.getElem_take, List.getElem_drop]
  have g0 : x.get [0, i] = x.data[i]'(by omega) := by simp [Nd.get, ravel, hs, List.getElem?_eq_getElem (show i < x.data.length by omega)]
  have g1 : x.get [1, i] = x.data[n + i]'(by omega) := by simp [Nd.get, ravel, hs, List.getElem?_eq_getElem (show n + i < x.data.length by omega)]
  rw [g0, g1, mul_comm, ← Complex.mk_eq_add_mul_I]

theorem complexOf_pack (y : List ℂ) : complexOf y.length (pack y) = y := by
  unfold complexOf
  refine List.ext_getElem (by simp) fun i h1 h2 => ?_
  simp only [List.getElem_map, List.getElem_range]
  have hi : i < y.length := h2
  apply Complex.ext
  · simp [pack, Nd.get, ravel, hi, List.getElem?_append]
  · simp [pack, Nd.get, ravel, hi, List.getElem?_append]

/-- **C131, the part that holds.** The wrapped right-hand side is the right one. When the solver calls it with an array of two rows `x`, with as many columns as
the tensor has entries, it gets an array `v` of two rows with which it goes on, and read as complex numbers `v` is the derivative at `x`: the coefficient times `v` is the gradient of
the energy minus the initial energy times `x`. No array is changed by the call. What is missing: the results, see `C131_sweeps_violated`. -/
theorem C131_diff_partial (c : SplitProp.Config K T ℂ) (solver : T → Nd ℝ → K → PlanR T)
    {s : State K (Ext T ℂ) ℂ} {F : Forest} (ht : s.heap.IsTTN s.root F) (hr : s.heap.Rooted s.root F) (st : Start s.ext s.heap)
    (hcalls : s.ext.calls = []) (henv : s.ext.env = []) (cache : Bool) {A : Nd ℂ} (hA : s.heap.array s.root = some A) (time : T) {x : Nd ℝ} (hx : x.Wf)
    (hxs : x.shape = [2, A.shape.prod]) (next : Nd ℝ → PlanR T) :
    ∃ e' h' v G, run (config c solver) s.root cache (toPlan (.eval time x next)) (s.ext, s.heap) =
        run (config c solver) s.root cache (toPlan (next v)) (e', h') ∧ v.Wf ∧ v.shape = x.shape ∧ (∀ u, h'.array u = s.heap.array u) ∧
      IsGradient { s.ext.obj (s.heap.setArray s.root (some ⟨A.shape, complexOf A.shape.prod x⟩)) s.root with
        time := if c.imaginary then none else some time } F s.root ⟨A.shape, complexOf A.shape.prod x⟩ s.ext.hList G ∧
      (c.coef (if c.imaginary then none else some time) ≠ 0 → ∀ k < A.shape.prod, c.coef (if c.imaginary then none else some time) *
        (complexOf A.shape.prod v).getD k 0 = G.data.getD k 0 - c.initEnergy.getD 0 * (complexOf A.shape.prod x).getD k 0) := by
  have g : Good (Call.Right (config c solver)) s.heap.next s.ext s.heap s.root :=
    ⟨Nat.le_refl _, st.fList, st.const, st.leaf, st.fits, st.empty, st.marks, by rw [hcalls]; intro call hcall; cases hcall⟩
  have f : Fine (Call.Right (config c solver)) s.heap.next s.ext s.heap s.root := by
    refine ⟨g, fun F' _ n term _ e _ v hv => ?_, fun k v hv => ?_⟩
    · rw [show (s.ext.obj s.heap s.root).env = [] from henv] at hv; cases hv
    · rw [henv] at hv; cases hv
  obtain ⟨A', hA'⟩ := ht.full s.root (mem_tensors.2 ⟨.inl rfl, ht.leaf⟩)
  obtain rfl : A = A' := Option.some.inj (hA.symm.trans hA'.array)
  have hu := unpack_get x A.shape.prod hx hxs
  have hy : (complexOf A.shape.prod x).length = A.shape.prod := by simp [complexOf]
  obtain ⟨x3, h3, d, G, q1, q2, -, q4, -, q6, -, -, q9, q10⟩ := eval_step (config c solver) cache ht hr f hA' time hy fun d => toPlan (next (pack d))
  rw [hy] at q9 q10
  have hd : complexOf A.shape.prod (pack d) = d := by rw [← q9]; exact complexOf_pack d
  refine ⟨x3, h3, pack d, G, ?_, pack_wf d, by rw [hxs, ← q9]; rfl, fun u => ?_, q6, ?_⟩
  · rw [← q1]
    conv_lhs => rw [toPlan]
    rw [hxs]
    simp only [hu]
  · by_cases q : u = s.root
    · rw [q, q4, hA]
    · exact q2.other u q
  · rw [hd]; exact q10

/-! Instance: the network of C127, with explicit Euler steps on pairs of real numbers. -/

/-- One explicit Euler step. -/
def exRealEuler (t0 : ℝ) (y0 : Nd ℝ) (tau : ℝ) : PlanR ℝ :=
  .eval t0 y0 fun d => .update ⟨y0.shape, (List.range y0.shape.prod).map fun k => y0.data.getD k 0 + tau * d.data.getD k 0⟩ .stop

theorem exRealEuler_keeps (t0 : ℝ) (y0 : Nd ℝ) (tau : ℝ) : (exRealEuler t0 y0 tau).Keeps y0.shape :=
  fun _ => ⟨by simp [Nd.Wf], rfl, trivial⟩

theorem exSpins_rooted : exSpins.Rooted 0 exTwoForest :=
  ⟨rfl, by decide +kernel⟩

theorem exSpins_plain : exSpins.PlainNames (exSpins.tensors 0 exTwoForest) := by
  rw [exSpins_tensors]
  intro t ht n hn
  simp only [List.mem_cons, List.not_mem_nil, or_false] at ht
  rcases ht with rfl | rfl
  · have : n = ['a'] := (Option.some.inj hn).symm
    subst this; decide
  · have : n = ['b'] := (Option.some.inj hn).symm
    subst this; decide

example (cmds : List (Cmd ℝ)) : ∃ s', cmds.foldlM (Cmd.exec (hooks (config exSpinCfg exRealEuler)) 5) exSpinState = .ok s' ∧
    s'.root = 0 ∧ s'.heap.IsTTN 0 exTwoForest ∧ (s'.heap.leafList 0 exTwoForest).Perm (exSpins.leafList 0 exTwoForest) ∧
    ∀ x : ℕ → ℕ, (∀ p ∈ exSpins.leafList 0 exTwoForest, x p.1 < p.2) → s'.heap.treeAmp 0 exTwoForest x = exSpins.treeAmp 0 exTwoForest x :=
  C131_sweeps_violated exSpinCfg trivialSvd_shape trivialSvd_iso trivialSvd_exact trivialSvd_shape trivialSvd_iso trivialSvd_exact exRealEuler
    exRealEuler_keeps (s := exSpinState) exSpins_ttn exSpins_rooted exSpins_plain exSpin_start rfl (by decide) cmds

example (tau time : ℝ) (next : Nd ℝ → PlanR ℝ) :=
  C131_diff_partial exSpinCfg exRealEuler (s := exSpinState) exSpins_ttn exSpins_rooted exSpin_start rfl rfl true exSpins_full.1.array time
    (x := ⟨[2, 4], [tau, 1, 2, 3, 4, 5, 6, 7]⟩) (by simp [Nd.Wf]) rfl next

/-- No terms, but an energy shift of 1, in imaginary time. -/
noncomputable def exShiftState : State ℝ (Ext ℝ ℂ) ℂ := ⟨exSpins, 0, ⟨[], none, none, [], []⟩, []⟩

theorem exShift_start : Start exShiftState.ext exSpins where
  fList := rfl
  const := fun _ q => by cases q
  leaf := fun _ q => by cases q
  fits := fun _ q => by cases q
  empty := exSpin_start.empty
  marks := exSpin_start.marks

/-- One explicit Euler step `y - tau * dy`, on complex numbers. -/
noncomputable def exShiftCfg : SplitProp.Config ℝ ℝ ℂ where
  imaginary := true
  sqrt z := (Real.sqrt z.re : ℂ)
  coef := fun _ => 1
  initEnergy := some 1
  solver t0 y0 tau := .eval t0 y0 fun d => .update (List.zipWith (fun y d => y - (tau : ℂ) * d) y0 d) .stop
  svd := trivialSvd
  svdU := trivialSvd

/-- The same on pairs of real numbers. -/
def exShiftReal (t0 : ℝ) (y0 : Nd ℝ) (tau : ℝ) : PlanR ℝ :=
  .eval t0 y0 fun d => .update ⟨y0.shape, (List.range y0.shape.prod).map fun k => y0.data.getD k 0 - tau * d.data.getD k 0⟩ .stop

/-- **C131, a case.** A state for which an Euler step gives twice the tensor with `ode_in_real=False` and changes nothing with `ode_in_real=True`, although the solver makes
the same step on pairs of real numbers. -/
theorem C131_case_violated : (∃ s', splitProp (hooks exShiftCfg) 1 true exShiftState 0 = .ok s' ∧
      s'.heap.array 0 = some ⟨[2, 2], [6/5, 0, 0, 8/5 * Complex.I]⟩) ∧
    ∃ s', splitProp (hooks (config exShiftCfg exShiftReal)) 1 true exShiftState 0 = .ok s' ∧
      s'.heap.array 0 = some ⟨[2, 2], [3/5, 0, 0, 4/5 * Complex.I]⟩ := by
  constructor
  · have hA := exSpins_full.1
    have f : Fine (Call.Right exShiftCfg) exSpins.next exShiftState.ext exSpins 0 := by
      refine ⟨⟨Nat.le_refl _, rfl, exShift_start.const, exShift_start.leaf, exShift_start.fits, exShift_start.empty, exShift_start.marks, ?_⟩, ?_, ?_⟩
      · intro call hcall; cases hcall
      · intro F' _ n term _ e _ v hv; cases hv
      · intro k v hv; cases hv
    obtain ⟨x3, h3, d, G, q1, q2, q3, q4, -, q6, q7, q8, q9, q10⟩ := eval_step exShiftCfg true exSpins_ttn exSpins_rooted f hA (0 : ℝ)
      (y := [3/5, 0, 0, 4/5 * Complex.I]) rfl fun d => .update (List.zipWith (fun y d => y - ((1 : ℝ) : ℂ) * d) [3/5, 0, 0, 4/5 * Complex.I] d) .stop
    have hG : G = ⟨[2, 2], [0, 0, 0, 0]⟩ := by
      refine gradient_unique q6 ?_ q7 rfl q8 rfl
      intro B hB hs
      simp [ML.inner, sumIdx, Nd.get, ravel, exShiftState, Finset.sum_range_succ]
    have hd : d = [-(3/5), 0, 0, -(4/5 * Complex.I)] := by
      refine List.ext_getElem (by simpa using q9) fun k h1 h2 => ?_
      have hk : k < 4 := by simpa using h2
      have := q10 one_ne_zero k hk
      rw [show exShiftCfg.coef (if exShiftCfg.imaginary then none else some 0) = 1 from rfl, show exShiftCfg.initEnergy = some 1 from rfl, hG] at this
      rw [List.getD_eq_getElem _ _ h1] at this
      obtain rfl | rfl | rfl | rfl : k = 0 ∨ k = 1 ∨ k = 2 ∨ k = 3 := by omega
      all_goals simpa using this
    have hn : (h3.node 0).normalized = false := (q2.node 0).2.2.2.trans rfl
    refine ⟨⟨h3.setArray 0 (some ⟨[2, 2], [6/5, 0, 0, 8/5 * Complex.I]⟩), 0, x3, [⟨0, exSpins.linkages 0, 1⟩]⟩, ?_, by
      show (h3.setArray 0 _).array 0 = _
      rw [Heap.array_setArray, if_pos rfl]⟩
    have hu : run exShiftCfg 0 true (.update (List.zipWith (fun y d => y - ((1 : ℝ) : ℂ) * d) [3/5, 0, 0, 4/5 * Complex.I] d) .stop) (x3, h3) =
        .ok (x3, h3.setArray 0 (some ⟨[2, 2], [6/5, 0, 0, 8/5 * Complex.I]⟩)) := by
      have hz : List.zipWith (fun y d => y - ((1 : ℝ) : ℂ) * d) [3/5, 0, 0, 4/5 * Complex.I] d = [6/5, 0, 0, 8/5 * Complex.I] := by
        rw [hd]
        simp
        constructor <;> ring
      rw [hz]
      unfold run
      rw [q4]
      simp only
      rw [if_pos (show [6/5, 0, 0, 8/5 * Complex.I].length = [2, 2].prod from rfl)]
      have : (h3.setArray 0 (some ⟨[2, 2], [6/5, 0, 0, 8/5 * Complex.I]⟩)).normalize exShiftCfg.sqrt 0 (!exShiftCfg.imaginary) =
          .ok (h3.setArray 0 (some ⟨[2, 2], [6/5, 0, 0, 8/5 * Complex.I]⟩), none) := by
        unfold Heap.normalize
        rw [Heap.array_setArray, if_pos rfl]
        simp only
        rw [if_pos ⟨by rw [node_setArray, if_pos rfl]; exact hn, rfl⟩]
      rw [this]
      rfl
    have he : evolve exShiftCfg exShiftState.ext exSpins 0 1 true = .ok (x3, h3.setArray 0 (some ⟨[2, 2], [6/5, 0, 0, 8/5 * Complex.I]⟩)) := by
      unfold evolve
      rw [hA.array]
      exact q1.trans hu
    unfold splitProp
    rw [if_neg (by simp [exShiftState, exSpins_rooted.1])]
    have : (hooks exShiftCfg).evolve exShiftState.ext exShiftState.heap 0 1 true = _ := he
    rw [this]
    rfl
  · obtain ⟨s', e1, -, e3⟩ := C131_split_prop_violated exShiftCfg exShiftReal (fun _ _ _ _ => ⟨by simp [Nd.Wf], rfl, trivial⟩) (s := exShiftState) exSpins_ttn
      exSpins_rooted exShift_start rfl rfl 1 true
    exact ⟨s', e1, (e3 0).trans exSpins_full.1.array⟩

end OdeReal
