import Verif.Lemmas.Full9
import Verif.Lemmas.FullSvd
import Verif.Props.C133

/-!
C134: with complete bases in all directions the one-site sweeps are exact.
-/

open scoped BigOperators
open Py

namespace SplitProp

open Heap ML Sweep

variable {T : Type} [Zero T]

/-- The network at the start. -/
theorem whole_start {s : State ℝ (Ext T ℂ) ℂ} {F : Forest} (ht : s.heap.IsTTN s.root F) (hfull : FullRoot (s.ext.obj s.heap s.root) F)
    (hcomp : s.heap.CompleteTree s.root F) : Whole (s.ext.obj s.heap s.root) F s.heap s.root F := by
  refine ⟨ht, fun e he hl => ?_, ?_⟩
  · have hb : e ∈ s.heap.bonds s.root F := List.mem_filter.2 ⟨he, by simp [hl]⟩
    obtain ⟨-, q1, q2⟩ := ht.isNet.isLink e hb
    obtain ⟨A, hA⟩ := ht.full _ q1
    obtain ⟨B, hB⟩ := ht.full _ q2
    obtain ⟨c1, c2⟩ := hcomp e he hl A B hA.array hB.array
    exact ⟨A, B, hA, hB, c2, c1, ht.dims e hb⟩
  · obtain ⟨A, h1, h2⟩ := hfull
    obtain ⟨B, hB⟩ := ht.full s.root (mem_tensors.2 ⟨.inl rfl, ht.leaf⟩)
    have : s.heap.array s.root = some A := h1
    rw [hB.array] at this
    obtain rfl := Option.some.inj this
    exact ⟨B, hB, h2⟩

theorem cmds_exact {cf : Config ℝ T ℂ} {coef : ℂ} {s0 : Obj T ℂ} {F0 : Forest} {N : ℕ} {E : ℂ} {h0 : Heap ℂ} {r0 : ℕ}
    (S : Setup cf coef s0 F0) {F : Forest} (W : Whole s0 F0 h0 r0 F) {fuel : ℕ} (hfu : F.depth < fuel) (cmds : List (Cmd ℝ))
    (hc : ∀ cmd ∈ cmds, (∃ tau b, cmd = .split tau b) ∨ ∃ snd tau, cmd = .rSplit snd tau)
    {v : Fin (leafDims s0 F0).prod → ℂ} {s : State ℝ (Ext T ℂ) ℂ} (on : OnJ cf N s0 F0 E h0 r0 v s) (hs : s.root = r0) :
    ∃ s', cmds.foldlM (Cmd.exec (hooks cf) fuel) s = .ok s' ∧ s'.root = r0 ∧
      OnJ cf N s0 F0 E h0 r0 ((NormedSpace.exp ((cmds.map Cmd.time).sum • genMatrix s0 F0 coef (cf.initEnergy.getD 0))).mulVec v) s' := by
  induction cmds generalizing s v with
  | nil => exact ⟨s, rfl, hs, by simpa using on⟩
  | cons cmd cmds ih =>
    obtain ⟨s1, e1, e2, on1⟩ : ∃ s1, Cmd.exec (hooks cf) fuel s cmd = .ok s1 ∧ s1.root = r0 ∧
        On cf N s0 F0 E h0 r0 ((NormedSpace.exp (cmd.time • genMatrix s0 F0 coef (cf.initEnergy.getD 0))).mulVec v) s1 := by
      rcases hc cmd (List.mem_cons_self ..) with ⟨tau, b, rfl⟩ | ⟨snd, tau, rfl⟩
      · exact S.splitStep W on hs hfu tau b
      · cases snd with
        | false => exact S.rStep W on hs hfu tau
        | true => exact S.rStep2 W on hs hfu tau
    obtain ⟨s', f1, f2, on2⟩ := ih (fun c q => hc c (List.mem_cons_of_mem _ q)) on1.toJ e2
    refine ⟨s', ?_, f2, ?_⟩
    · rw [List.foldlM_cons, e1]; exact f1
    · rw [Matrix.mulVec_mulVec, ← Matrix.exp_add_of_commute _ _ (((Commute.refl _).smul_left _).smul_right _), ← add_smul, add_comm] at on2
      rw [List.map_cons, List.sum_cons]
      exact on2

/-- **C134.** If each tensor spans the whole space of its branch, the root has as many entries as there are configurations of the leaves and the
decompositions drop nothing, then any sequence of steps of `split_step` (forward or backward) and `r_split_step` (of first or second order) with an
exact integrator changes the state into `exp(t (H - init_energy) / coef)` times the state, where `t` is the sum of the times. -/
theorem C134_sweeps (c : Config ℝ T ℂ) (h1 : SvdShape c.svd) (h2 : SvdIso c.svd) (h3 : SvdExact c.svd) (h4 : SvdFull c.svd)
    (hs : c.solver = exactSolver) (hq : c.sqrt 1 = 1) {coef : ℂ} (h0 : coef ≠ 0)
    (hcoef : ∀ time : Option T, time.isNone = c.imaginary → c.coef time = coef)
    (he : coef * star (c.initEnergy.getD 0) = -(star coef * c.initEnergy.getD 0))
    {s : State ℝ (Ext T ℂ) ℂ} {F : Forest} (ht : s.heap.IsTTN s.root F) (hr : s.heap.Rooted s.root F)
    (hp : s.heap.PlainNames (s.heap.tensors s.root F)) (st : Start s.ext s.heap) (hcalls : s.ext.calls = [])
    (hcan : s.heap.CanonicalTree s.root F) (hg : Generates (s.ext.obj s.heap s.root) F coef)
    (hn : dot (s.ext.obj s.heap s.root) F (s.heap.treeAmp s.root F) (s.heap.treeAmp s.root F) = 1)
    (hfull : FullRoot (s.ext.obj s.heap s.root) F) (hcomp : s.heap.CompleteTree s.root F)
    {fuel : ℕ} (hfu : F.ids.length < fuel) (cmds : List (Cmd ℝ))
    (hc : ∀ cmd ∈ cmds, (∃ tau b, cmd = .split tau b) ∨ ∃ snd tau, cmd = .rSplit snd tau) :
    ∃ s', cmds.foldlM (Cmd.exec (hooks c) fuel) s = .ok s' ∧ s'.root = s.root ∧ s'.heap.IsTTN s.root F ∧
      amps (s.ext.obj s.heap s.root) F (s'.heap.treeAmp s.root F) =
        (NormedSpace.exp ((cmds.map Cmd.time).sum • genMatrix (s.ext.obj s.heap s.root) F coef (c.initEnergy.getD 0))).mulVec
          (amps (s.ext.obj s.heap s.root) F (s.heap.treeAmp s.root F)) := by
  obtain ⟨g, k⟩ := start_keep c ht st hcalls hcan hn
  have S : Setup c coef (s.ext.obj s.heap s.root) F := ⟨hs, h0, hcoef, he, hq, ht, st.fList, hg, h1, h2, h3, h4⟩
  have on : OnJ c s.heap.next (s.ext.obj s.heap s.root) F
      (element (s.ext.obj s.heap s.root) F (s.heap.treeAmp s.root F) (s.heap.treeAmp s.root F)) s.heap s.root
      (amps (s.ext.obj s.heap s.root) F (s.heap.treeAmp s.root F)) s :=
    ⟨⟨⟨F, ht, hr, hp⟩, fun _ _ => rfl, fun _ _ => rfl, Nat.le_refl _, .refl, g, k⟩, fun _ _ _ => rfl, fun F' ht' => by
      obtain rfl := ht.tree.unique ht'.tree; rfl⟩
  obtain ⟨s', e1, e2, on'⟩ := cmds_exact S (whole_start ht hfull hcomp) (lt_of_le_of_lt F.depth_le hfu) cmds hc on rfl
  have t' : s'.heap.IsTTN s.root F := by
    obtain ⟨F', t', -, -⟩ := on'.inv.ttn
    rw [e2] at t'
    have : IsTree s'.heap s.root none F := ht.tree.congr ht.links.wf t'.links.wf on'.inv.acc fun c hc => on'.inv.leaf c (ht.ids_lt hc)
    obtain rfl := t'.tree.unique this
    exact t'
  refine ⟨s', e1, e2, t', ?_⟩
  have := on'.amp F (e2 ▸ t')
  rw [e2] at this
  exact this

/-- **C134, second order.** So does a step of `snd_order_step` with `split_step`, over its whole time. -/
theorem C134_second (c : Config ℝ T ℂ) (h1 : SvdShape c.svd) (h2 : SvdIso c.svd) (h3 : SvdExact c.svd) (h4 : SvdFull c.svd)
    (hs : c.solver = exactSolver) (hq : c.sqrt 1 = 1) {coef : ℂ} (h0 : coef ≠ 0)
    (hcoef : ∀ time : Option T, time.isNone = c.imaginary → c.coef time = coef)
    (he : coef * star (c.initEnergy.getD 0) = -(star coef * c.initEnergy.getD 0))
    {s : State ℝ (Ext T ℂ) ℂ} {F : Forest} (ht : s.heap.IsTTN s.root F) (hr : s.heap.Rooted s.root F)
    (hp : s.heap.PlainNames (s.heap.tensors s.root F)) (st : Start s.ext s.heap) (hcalls : s.ext.calls = [])
    (hcan : s.heap.CanonicalTree s.root F) (hg : Generates (s.ext.obj s.heap s.root) F coef)
    (hn : dot (s.ext.obj s.heap s.root) F (s.heap.treeAmp s.root F) (s.heap.treeAmp s.root F) = 1)
    (hfull : FullRoot (s.ext.obj s.heap s.root) F) (hcomp : s.heap.CompleteTree s.root F)
    {fuel : ℕ} (hfu : F.ids.length < fuel) (tau : ℝ) :
    ∃ s', sndOrderStep (splitStep (hooks c) fuel) tau s = .ok s' ∧ s'.root = s.root ∧ s'.heap.IsTTN s.root F ∧
      amps (s.ext.obj s.heap s.root) F (s'.heap.treeAmp s.root F) =
        (NormedSpace.exp (tau • genMatrix (s.ext.obj s.heap s.root) F coef (c.initEnergy.getD 0))).mulVec
          (amps (s.ext.obj s.heap s.root) F (s.heap.treeAmp s.root F)) := by
  obtain ⟨s', e1, e2, e3, e4⟩ := C134_sweeps c h1 h2 h3 h4 hs hq h0 hcoef he ht hr hp st hcalls hcan hg hn hfull hcomp hfu
    [.split (tau / 2) false, .split (tau / 2) true] (by
      intro cmd q
      simp only [List.mem_cons, List.not_mem_nil, or_false] at q
      rcases q with rfl | rfl
      · exact .inl ⟨_, _, rfl⟩
      · exact .inl ⟨_, _, rfl⟩)
  refine ⟨s', ?_, e2, e3, ?_⟩
  · rw [← e1, List.foldlM_cons]
    unfold sndOrderStep
    simp only [Cmd.exec]
    congr 1
    funext s1
    rw [List.foldlM_cons]
    simp only [Cmd.exec, List.foldlM_nil, bind_pure]
  · rw [e4]
    simp [Cmd.time]

theorem cmds_exactU {cf : Config ℝ T ℂ} {coef : ℂ} {s0 : Obj T ℂ} {F0 : Forest} {N : ℕ} {E : ℂ} {h0 : Heap ℂ} {r0 : ℕ}
    (S : SetupU cf coef s0 F0) {F : Forest} (W : Whole s0 F0 h0 r0 F) (hb : h0.bonds r0 F ≠ []) {fuel : ℕ} (hfu : F.ids.length < fuel) (cmds : List (Cmd ℝ))
    {v : Fin (leafDims s0 F0).prod → ℂ} {s : State ℝ (Ext T ℂ) ℂ} (on : OnJ cf N s0 F0 E h0 r0 v s) (hs : s.root = r0) :
    ∃ s', cmds.foldlM (Cmd.exec (hooks cf) fuel) s = .ok s' ∧ s'.root = r0 ∧
      OnJ cf N s0 F0 E h0 r0 ((NormedSpace.exp ((cmds.map Cmd.time).sum • genMatrix s0 F0 coef (cf.initEnergy.getD 0))).mulVec v) s' := by
  have hdep : F.depth < fuel := lt_of_le_of_lt F.depth_le hfu
  induction cmds generalizing s v with
  | nil => exact ⟨s, rfl, hs, by simpa using on⟩
  | cons cmd cmds ih =>
    obtain ⟨s1, e1, e2, on1⟩ : ∃ s1, Cmd.exec (hooks cf) fuel s cmd = .ok s1 ∧ s1.root = r0 ∧
        On cf N s0 F0 E h0 r0 ((NormedSpace.exp (cmd.time • genMatrix s0 F0 coef (cf.initEnergy.getD 0))).mulVec v) s1 := by
      cases cmd with
      | split tau b => exact S.splitStep W on hs hdep tau b
      | unite tau =>
        have := S.uniteStep W on hs hfu tau
        rw [if_neg hb] at this
        exact this
      | rSplit snd tau =>
        cases snd with
        | false => exact S.rStep W on hs hdep tau
        | true => exact S.rStep2 W on hs hdep tau
    obtain ⟨s', f1, f2, on2⟩ := ih on1.toJ e2
    refine ⟨s', ?_, f2, ?_⟩
    · rw [List.foldlM_cons, e1]; exact f1
    · rw [Matrix.mulVec_mulVec, ← Matrix.exp_add_of_commute _ _ (((Commute.refl _).smul_left _).smul_right _), ← add_smul, add_comm] at on2
      rw [List.map_cons, List.sum_cons]
      exact on2

theorem start_onJ (c : Config ℝ T ℂ) {s : State ℝ (Ext T ℂ) ℂ} {F : Forest} (ht : s.heap.IsTTN s.root F) (hr : s.heap.Rooted s.root F)
    (hp : s.heap.PlainNames (s.heap.tensors s.root F)) (st : Start s.ext s.heap) (hcalls : s.ext.calls = [])
    (hcan : s.heap.CanonicalTree s.root F)
    (hn : dot (s.ext.obj s.heap s.root) F (s.heap.treeAmp s.root F) (s.heap.treeAmp s.root F) = 1) :
    OnJ c s.heap.next (s.ext.obj s.heap s.root) F
      (element (s.ext.obj s.heap s.root) F (s.heap.treeAmp s.root F) (s.heap.treeAmp s.root F)) s.heap s.root
      (amps (s.ext.obj s.heap s.root) F (s.heap.treeAmp s.root F)) s := by
  obtain ⟨g, k⟩ := start_keep c ht st hcalls hcan hn
  exact ⟨⟨⟨F, ht, hr, hp⟩, fun _ _ => rfl, fun _ _ => rfl, Nat.le_refl _, .refl, g, k⟩, fun _ _ _ => rfl, fun F' ht' => by
      obtain rfl := ht.tree.unique ht'.tree; rfl⟩

theorem OnJ.final {cf : Config ℝ T ℂ} {N : ℕ} {s0 : Obj T ℂ} {F0 : Forest} {E : ℂ} {h0 : Heap ℂ} {r0 : ℕ} {v : Fin (leafDims s0 F0).prod → ℂ}
    {s' : State ℝ (Ext T ℂ) ℂ} (on : OnJ cf N s0 F0 E h0 r0 v s') {F : Forest} (ht : h0.IsTTN r0 F) (e : s'.root = r0) :
    s'.heap.IsTTN r0 F ∧ amps s0 F0 (s'.heap.treeAmp r0 F) = v := by
  have t' : s'.heap.IsTTN r0 F := by
    obtain ⟨F', t', -, -⟩ := on.inv.ttn
    rw [e] at t'
    have : IsTree s'.heap r0 none F := ht.tree.congr ht.links.wf t'.links.wf on.inv.acc fun c hc => on.inv.leaf c (ht.ids_lt hc)
    obtain rfl := t'.tree.unique this
    exact t'
  refine ⟨t', ?_⟩
  have := on.amp F (e ▸ t')
  rw [e] at this
  exact this

/-- **C134, pairs.** If there are two tensors or more, and the decomposition of the pairs is exact and drops nothing either, then any sequence of sweeps is
exact, those over pairs of tensors (`unite_step`) among them. -/
theorem C134_pairs (c : Config ℝ T ℂ) (h1 : SvdShape c.svd) (h2 : SvdIso c.svd) (h3 : SvdExact c.svd) (h4 : SvdFull c.svd)
    (h1' : SvdShape c.svdU) (h2' : SvdIso c.svdU) (h3' : SvdExact c.svdU) (h4' : SvdFull c.svdU)
    (hs : c.solver = exactSolver) (hq : c.sqrt 1 = 1) {coef : ℂ} (h0 : coef ≠ 0)
    (hcoef : ∀ time : Option T, time.isNone = c.imaginary → c.coef time = coef)
    (he : coef * star (c.initEnergy.getD 0) = -(star coef * c.initEnergy.getD 0))
    {s : State ℝ (Ext T ℂ) ℂ} {F : Forest} (ht : s.heap.IsTTN s.root F) (hr : s.heap.Rooted s.root F)
    (hp : s.heap.PlainNames (s.heap.tensors s.root F)) (st : Start s.ext s.heap) (hcalls : s.ext.calls = [])
    (hcan : s.heap.CanonicalTree s.root F) (hg : Generates (s.ext.obj s.heap s.root) F coef)
    (hn : dot (s.ext.obj s.heap s.root) F (s.heap.treeAmp s.root F) (s.heap.treeAmp s.root F) = 1)
    (hfull : FullRoot (s.ext.obj s.heap s.root) F) (hcomp : s.heap.CompleteTree s.root F)
    (hb : s.heap.bonds s.root F ≠ []) {fuel : ℕ} (hfu : F.ids.length < fuel) (cmds : List (Cmd ℝ)) :
    ∃ s', cmds.foldlM (Cmd.exec (hooks c) fuel) s = .ok s' ∧ s'.root = s.root ∧ s'.heap.IsTTN s.root F ∧
      amps (s.ext.obj s.heap s.root) F (s'.heap.treeAmp s.root F) =
        (NormedSpace.exp ((cmds.map Cmd.time).sum • genMatrix (s.ext.obj s.heap s.root) F coef (c.initEnergy.getD 0))).mulVec
          (amps (s.ext.obj s.heap s.root) F (s.heap.treeAmp s.root F)) := by
  have S : SetupU c coef (s.ext.obj s.heap s.root) F := ⟨⟨hs, h0, hcoef, he, hq, ht, st.fList, hg, h1, h2, h3, h4⟩, h1', h2', h3', h4'⟩
  obtain ⟨s', e1, e2, on'⟩ := cmds_exactU S (whole_start ht hfull hcomp) hb hfu cmds (start_onJ c ht hr hp st hcalls hcan hn) rfl
  exact ⟨s', e1, e2, on'.final ht e2⟩

/-- **C134, one tensor.** A network of one tensor is not propagated at all by `unite_step`: whatever the time, the state is the one at the start. -/
theorem C134_single (c : Config ℝ T ℂ) (h1 : SvdShape c.svd) (h2 : SvdIso c.svd) (h3 : SvdExact c.svd) (h4 : SvdFull c.svd)
    (h1' : SvdShape c.svdU) (h2' : SvdIso c.svdU) (h3' : SvdExact c.svdU) (h4' : SvdFull c.svdU)
    (hs : c.solver = exactSolver) (hq : c.sqrt 1 = 1) {coef : ℂ} (h0 : coef ≠ 0)
    (hcoef : ∀ time : Option T, time.isNone = c.imaginary → c.coef time = coef)
    (he : coef * star (c.initEnergy.getD 0) = -(star coef * c.initEnergy.getD 0))
    {s : State ℝ (Ext T ℂ) ℂ} {F : Forest} (ht : s.heap.IsTTN s.root F) (hr : s.heap.Rooted s.root F)
    (hp : s.heap.PlainNames (s.heap.tensors s.root F)) (st : Start s.ext s.heap) (hcalls : s.ext.calls = [])
    (hcan : s.heap.CanonicalTree s.root F) (hg : Generates (s.ext.obj s.heap s.root) F coef)
    (hn : dot (s.ext.obj s.heap s.root) F (s.heap.treeAmp s.root F) (s.heap.treeAmp s.root F) = 1)
    (hfull : FullRoot (s.ext.obj s.heap s.root) F) (hcomp : s.heap.CompleteTree s.root F)
    (hb : s.heap.bonds s.root F = []) {fuel : ℕ} (hfu : F.ids.length < fuel) (tau : ℝ) :
    ∃ s', uniteStep (hooks c) fuel tau false s = .ok s' ∧ s'.root = s.root ∧ s'.heap.IsTTN s.root F ∧
      amps (s.ext.obj s.heap s.root) F (s'.heap.treeAmp s.root F) = amps (s.ext.obj s.heap s.root) F (s.heap.treeAmp s.root F) := by
  have S : SetupU c coef (s.ext.obj s.heap s.root) F := ⟨⟨hs, h0, hcoef, he, hq, ht, st.fList, hg, h1, h2, h3, h4⟩, h1', h2', h3', h4'⟩
  obtain ⟨s', e1, e2, on'⟩ := S.uniteStep (whole_start ht hfull hcomp) (start_onJ c ht hr hp st hcalls hcan hn) rfl hfu tau
  rw [if_pos hb] at on'
  exact ⟨s', e1, e2, on'.toJ.final ht e2⟩

/-! ### Example: the two spins of C127 and C133 -/

/-- The integrator with a decomposition that keeps all singular values. -/
noncomputable def exFullCfg : Config ℝ ℝ ℂ := { exSpinCfg with svd := Classical.choose exists_fullSvd, svdU := Classical.choose exists_fullSvd }

theorem exSpin_complete : exSpins.CompleteTree 0 exTwoForest := by
  intro e he hl A B hA hB
  simp only [exTwoForest, Forest.edges, List.append_nil, List.cons_append, List.nil_append, List.mem_cons, List.not_mem_nil, or_false] at he
  rcases he with rfl | rfl | rfl
  · have h1 : exSpins.array 0 = some ⟨[2, 2], [3/5, 0, 0, 4/5 * Complex.I]⟩ := rfl
    have h2 : exSpins.array 1 = some ⟨[2, 2], [1, 0, 0, 1]⟩ := rfl
    rw [h1] at hA
    rw [h2] at hB
    obtain rfl := Option.some.inj hA
    obtain rfl := Option.some.inj hB
    exact ⟨rfl, by simp⟩
  · exact absurd (show exSpins.isLeaf 3 = true by decide +kernel) (by simp [show exSpins.isLeaf 3 = false from hl])
  · exact absurd (show exSpins.isLeaf 2 = true by decide +kernel) (by simp [show exSpins.isLeaf 2 = false from hl])

example (a b : ℝ) : ∃ s', [Cmd.split a false, Cmd.rSplit false b, Cmd.split b true, Cmd.rSplit true a].foldlM (Cmd.exec (hooks exFullCfg) 5) exSpinState = .ok s' ∧ s'.root = 0 ∧
    s'.heap.IsTTN 0 exTwoForest ∧
    amps (exSpinState.ext.obj exSpins 0) exTwoForest (s'.heap.treeAmp 0 exTwoForest) =
      (NormedSpace.exp ((a + (b + (b + (a + 0)))) • genMatrix (exSpinState.ext.obj exSpins 0) exTwoForest 1 (exSpinCfg.initEnergy.getD 0))).mulVec
        (amps (exSpinState.ext.obj exSpins 0) exTwoForest (exSpins.treeAmp 0 exTwoForest)) := by
  obtain ⟨q1, q2, q3, q4⟩ := Classical.choose_spec exists_fullSvd
  refine C134_sweeps exFullCfg q1 q2 q3 q4 rfl (by simp [exFullCfg, exSpinCfg]) one_ne_zero exSpin_coef (by simp [exFullCfg, exSpinCfg])
    (s := exSpinState) exSpins_ttn ⟨rfl, ?_⟩ ?_ exSpin_start rfl exSpin_canon exSpin_generates exSpin_norm ⟨_, rfl, ?_⟩ exSpin_complete (by decide) _ ?_
  · show ∀ e ∈ exSpins.bonds 0 exTwoForest, (exSpins.node e.2.2.1).axis = some e.2.2.2
    decide +kernel
  · show exSpins.PlainNames (exSpins.tensors 0 exTwoForest)
    rw [exSpins_tensors]
    intro t ht n hn
    simp only [List.mem_cons, List.not_mem_nil, or_false] at ht
    rcases ht with rfl | rfl
    · have : n = ['a'] := (Option.some.inj hn).symm
      subst this; decide
    · have : n = ['b'] := (Option.some.inj hn).symm
      subst this; decide
  · show [2, 2].prod = ((exSpins.leafList 0 exTwoForest).map Prod.snd).prod
    rw [exSpin_leaves]; rfl
  · intro cmd hc
    simp only [List.mem_cons, List.not_mem_nil, or_false] at hc
    rcases hc with rfl | rfl | rfl | rfl
    · exact .inl ⟨_, _, rfl⟩
    · exact .inr ⟨_, _, rfl⟩
    · exact .inl ⟨_, _, rfl⟩
    · exact .inr ⟨_, _, rfl⟩

example (a b : ℝ) : ∃ s', [Cmd.unite a, Cmd.rSplit false b, Cmd.unite b, Cmd.split a true].foldlM (Cmd.exec (hooks exFullCfg) 5) exSpinState = .ok s' ∧ s'.root = 0 ∧
    s'.heap.IsTTN 0 exTwoForest ∧
    amps (exSpinState.ext.obj exSpins 0) exTwoForest (s'.heap.treeAmp 0 exTwoForest) =
      (NormedSpace.exp ((a + (b + (b + (a + 0)))) • genMatrix (exSpinState.ext.obj exSpins 0) exTwoForest 1 (exSpinCfg.initEnergy.getD 0))).mulVec
        (amps (exSpinState.ext.obj exSpins 0) exTwoForest (exSpins.treeAmp 0 exTwoForest)) := by
  obtain ⟨q1, q2, q3, q4⟩ := Classical.choose_spec exists_fullSvd
  refine C134_pairs exFullCfg q1 q2 q3 q4 q1 q2 q3 q4 rfl (by simp [exFullCfg, exSpinCfg]) one_ne_zero exSpin_coef (by simp [exFullCfg, exSpinCfg])
    (s := exSpinState) exSpins_ttn ⟨rfl, ?_⟩ ?_ exSpin_start rfl exSpin_canon exSpin_generates exSpin_norm ⟨_, rfl, ?_⟩ exSpin_complete ?_ (by decide) _
  · show ∀ e ∈ exSpins.bonds 0 exTwoForest, (exSpins.node e.2.2.1).axis = some e.2.2.2
    decide +kernel
  · show exSpins.PlainNames (exSpins.tensors 0 exTwoForest)
    rw [exSpins_tensors]
    intro t ht n hn
    simp only [List.mem_cons, List.not_mem_nil, or_false] at ht
    rcases ht with rfl | rfl
    · have : n = ['a'] := (Option.some.inj hn).symm
      subst this; decide
    · have : n = ['b'] := (Option.some.inj hn).symm
      subst this; decide
  · show [2, 2].prod = ((exSpins.leafList 0 exTwoForest).map Prod.snd).prod
    rw [exSpin_leaves]; rfl
  · show exSpins.bonds 0 exTwoForest ≠ []
    decide +kernel

example (tau : ℝ) : ∃ s', uniteStep (hooks exFullCfg) 5 tau false exPairState = .ok s' ∧ s'.root = 0 ∧ s'.heap.IsTTN 0 exPairForest ∧
    amps (exPairState.ext.obj exPair 0) exPairForest (s'.heap.treeAmp 0 exPairForest) =
      amps (exPairState.ext.obj exPair 0) exPairForest (exPair.treeAmp 0 exPairForest) := by
  obtain ⟨q1, q2, q3, q4⟩ := Classical.choose_spec exists_fullSvd
  have hleaf : ∀ e ∈ exPairForest.edges 0, exPair.isLeaf e.2.2.1 = true := by decide +kernel
  refine C134_single exFullCfg q1 q2 q3 q4 q1 q2 q3 q4 rfl (by simp [exFullCfg, exSpinCfg]) one_ne_zero exSpin_coef (by simp [exFullCfg, exSpinCfg])
    (s := exPairState) exPair_ttn ⟨rfl, ?_⟩ ?_ exPair_start rfl ?_ exPair_generates exPair_norm ⟨_, rfl, ?_⟩ ?_ ?_ (by decide) tau
  · show ∀ e ∈ exPair.bonds 0 exPairForest, (exPair.node e.2.2.1).axis = some e.2.2.2
    decide +kernel
  · show exPair.PlainNames (exPair.tensors 0 exPairForest)
    rw [exPair_tensors]
    intro t ht n hn
    rw [List.mem_singleton.1 ht] at hn
    have : n = ['a'] := (Option.some.inj hn).symm
    subst this; decide
  · show exPair.CanonicalTree 0 exPairForest
    unfold CanonicalTree
    rw [bonds_one exPair_one]; simp
  · show [2, 2].prod = ((exPair.leafList 0 exPairForest).map Prod.snd).prod
    rw [exPair_leaves]; rfl
  · intro e he hl
    exact absurd (hleaf e he) (by simp [show exPair.isLeaf e.2.2.1 = false from hl])
  · show exPair.bonds 0 exPairForest = []
    decide +kernel

end SplitProp
