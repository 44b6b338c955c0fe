import Verif.Lemmas.Full3
import Verif.Spec.FullSweep
import Verif.Props.C132
import Verif.Props.C107

/-!
C133: with complete bases the equations of motion are exact.
-/

open scoped BigOperators
open Py

namespace ML

open Heap

variable {T R : Type} [Zero T] [Field R] [StarRing R]

/-- **C133, direct propagation.** If the array of the root has as many entries as there are configurations of the leaves, then the derivative
that `direct_step` computes is exactly that of `coef dψ/dt = (H - coef init_energy) ψ`, at every configuration; whatever the inverses of the densities are. -/
theorem C133_direct {s : Obj T R} {F : Forest} (hr : DirectReady s F) (hfull : FullRoot s F) {lin : Linalg R} (hlin : lin.Works s F)
    {coef : R} (hcoef : coef ≠ 0) (initEnergy : Option R) {fuel : ℕ} (hf : F.ids.length < fuel) :
    ∃ s', derivative fuel lin coef initEnergy s = .ok s' ∧ ∀ idx, Valid (leafDims s F) idx →
      coef * velocity s s' F (config s F idx) =
        apply s F (s.heap.treeAmp s.root F) (config s F idx) - coef * initEnergy.getD 0 * s.heap.treeAmp s.root F (config s F idx) := by
  obtain ⟨s2, inv, s', a1, a2, a3, a4, a5, a6, -⟩ := derivative_core hr hlin hcoef initEnergy hf
  refine ⟨s', a1, ?_⟩
  have hm : s.root ∈ s.heap.tensors s.root F := mem_tensors.2 ⟨.inl rfl, hr.ttn.leaf⟩
  have key : ∀ A B : Nd R, s.heap.array s.root = some A → B.Wf → B.shape = A.shape →
      coef * dot s F (velocity s s' F) (variation s F s.root (some B)) =
          element s F (s.heap.treeAmp s.root F) (variation s F s.root (some B)) -
            coef * initEnergy.getD 0 * dot s F (s.heap.treeAmp s.root F) (variation s F s.root (some B)) := by
    intro A B hA hB hBs
    have hl : s2.heap.isLeaf s.root = false := by rw [a2.sim.isLeaf]; exact hr.ttn.leaf
    have key := a5.root (A := A) (B := B) (by rw [a2.root, a2.sim.array hl]; exact hA) hB hBs
    rw [a2.root, vel_eq hr.ttn a2 a6, a2.dot hr.ttn, a2.dot hr.ttn, a2.element hr.ttn] at key
    have h2 := a2.amp hr.ttn
    rw [a2.root] at h2
    rw [h2, a2.variation hr.ttn hm hA hB hBs] at key
    exact key
  refine eq_of_dots' (f := fun x => coef * velocity s s' F x) (g := fun x => apply s F (s.heap.treeAmp s.root F) x -
    coef * initEnergy.getD 0 * s.heap.treeAmp s.root F x) hr.ttn hr.can hfull fun A B hA hB hBs => ?_
  have k := key A B hA hB hBs
  have e1 := dot_add s F coef 0 (velocity s s' F) (velocity s s' F) (variation s F s.root (some B))
  have e2 := dot_add s F 1 (-(coef * initEnergy.getD 0)) (apply s F (s.heap.treeAmp s.root F)) (s.heap.treeAmp s.root F) (variation s F s.root (some B))
  simp only [zero_mul, add_zero] at e1
  rw [e1, k, element_apply]
  simp only [one_mul, neg_mul, ← sub_eq_add_neg] at e2
  rw [e2]

/-- **C133, with the regularized inverses of the code.** With `pinv=False` and a positive `regular_err` the derivative exists and is exact whatever
the ranks of the densities are: the regularization has no effect on the state. -/
theorem C133_regular {s : Obj T ℂ} {F : Forest} (hr : DirectReady s F) (hfull : FullRoot s F) {lin : Linalg ℂ} {eps : ℝ} (h0 : 0 < eps) (hlin : lin.Regular eps)
    {coef : ℂ} (hcoef : coef ≠ 0) (initEnergy : Option ℂ) {fuel : ℕ} (hf : F.ids.length < fuel) :
    ∃ s', derivative fuel lin coef initEnergy s = .ok s' ∧ ∀ idx, Valid (leafDims s F) idx →
      coef * velocity s s' F (config s F idx) =
        apply s F (s.heap.treeAmp s.root F) (config s F idx) - coef * initEnergy.getD 0 * s.heap.treeAmp s.root F (config s F idx) :=
  C133_direct hr hfull (works_of_regular hr.ttn h0 hlin) hcoef initEnergy hf

/-! ### Two spins -/

open SplitProp

/-- Two spins, the second behind a tensor of its own: the root is a 2 x 2 array, and there are four configurations. -/
theorem exFlat_full : FullRoot exFlatObj exTwoForest := by
  refine ⟨⟨[2, 2], [1, 0, 0, 0]⟩, rfl, ?_⟩
  have e1 : leafDims exFlatObj exTwoForest = (exFlat.leafList 0 exTwoForest).map Prod.snd := rfl
  rw [e1, exFlat_sim.2.2.2, exSpin_leaves]
  rfl

example : ∃ s', derivative 100 exRegLin 1 (some 3) exFlatObj = .ok s' ∧ ∀ idx, Valid (leafDims exFlatObj exTwoForest) idx →
    1 * velocity exFlatObj s' exTwoForest (config exFlatObj exTwoForest idx) =
      apply exFlatObj exTwoForest (exFlatObj.heap.treeAmp exFlatObj.root exTwoForest) (config exFlatObj exTwoForest idx) -
        1 * 3 * exFlatObj.heap.treeAmp exFlatObj.root exTwoForest (config exFlatObj exTwoForest idx) :=
  C133_regular exFlat_ready exFlat_full (by positivity) exRegLin_regular one_ne_zero (some 3) (by decide +kernel)

end ML

namespace SplitProp

open Heap ML Sweep

variable {T : Type} [Zero T]

/-- The beginning of a run. -/
theorem Track.start (c : Config ℝ T ℂ) {s : State ℝ (Ext T ℂ) ℂ} {F : Forest} (ht : s.heap.IsTTN s.root F) (hr : s.heap.Rooted s.root F)
    (st : Start s.ext s.heap) (hcalls : s.ext.calls = []) (hcan : s.heap.CanonicalTree s.root F)
    (hn : dot (s.ext.obj s.heap s.root) F (s.heap.treeAmp s.root F) (s.heap.treeAmp s.root F) = 1) (hfull : FullRoot (s.ext.obj s.heap s.root) F) :
    Track c s.heap.next (s.ext.obj s.heap s.root) F
      (element (s.ext.obj s.heap s.root) F (s.heap.treeAmp s.root F) (s.heap.treeAmp s.root F)) s.ext s.heap := by
  obtain ⟨g, k⟩ := start_keep c ht st hcalls hcan hn
  exact ⟨ht, hr, g, k, rfl, hfull, fun _ => rfl⟩

/-- **C133, propagation of the root.** If the array of the root has as many entries as there are configurations of the leaves, then
`_form_env()` and `_split_prop(root, tau)` with an exact integrator change the state into `exp(tau (H - init_energy) / coef)` times the state. -/
theorem C133_root (c : Config ℝ T ℂ) (hs : c.solver = exactSolver) (hq : c.sqrt 1 = 1) {coef : ℂ} (h0 : coef ≠ 0)
    (hcoef : ∀ time : Option T, time.isNone = c.imaginary → c.coef time = coef)
    (he : coef * star (c.initEnergy.getD 0) = -(star coef * c.initEnergy.getD 0))
    {s : State ℝ (Ext T ℂ) ℂ} {F : Forest} (ht : s.heap.IsTTN s.root F) (hr : s.heap.Rooted s.root F)
    (st : Start s.ext s.heap) (hcalls : s.ext.calls = []) (hcan : s.heap.CanonicalTree s.root F) (hg : Generates (s.ext.obj s.heap s.root) F coef)
    (hn : dot (s.ext.obj s.heap s.root) F (s.heap.treeAmp s.root F) (s.heap.treeAmp s.root F) = 1) (hfull : FullRoot (s.ext.obj s.heap s.root) F)
    (tau : ℝ) (cache : Bool) :
    ∃ s1 s', Sweep.formEnv (hooks c) s = .ok s1 ∧ Sweep.splitProp (hooks c) tau cache s1 s1.root = .ok s' ∧ s'.root = s.root ∧ s'.heap.IsTTN s.root F ∧
      amps (s.ext.obj s.heap s.root) F (s'.heap.treeAmp s.root F) =
        (NormedSpace.exp (tau • genMatrix (s.ext.obj s.heap s.root) F coef (c.initEnergy.getD 0))).mulVec
          (amps (s.ext.obj s.heap s.root) F (s.heap.treeAmp s.root F)) := by
  obtain ⟨x1, h1, x2, h2, e1, e2, e3, e4, e5, e6⟩ :=
    Track.next hs h0 hcoef he hq ht st.fList hg (Track.start c ht hr st hcalls hcan hn hfull) tau cache
  refine ⟨{ s with ext := x1, heap := h1 }, ⟨h2, s.root, x2, s.log ++ [⟨s.root, h1.linkages s.root, tau⟩]⟩, ?_, ?_, rfl, e5.ttn, e6⟩
  · unfold Sweep.formEnv
    show (do let (x, h) ← SplitProp.formEnv c s.ext s.heap s.root; pure { s with ext := x, heap := h } : Res (State ℝ (Ext T ℂ) ℂ)) = _
    erw [e1]; rfl
  · unfold Sweep.splitProp
    dsimp only
    rw [if_neg (by rw [not_not, (e2.node _).2.2.1]; exact hr.1)]
    rw [show (hooks c).evolve x1 h1 s.root tau cache = .ok (x2, h2) from e4]; rfl

theorem euler_nil {p : ℕ → Bool} {F : Forest} (h : ∀ l ∈ F.ids, p l = false) (a : ℕ) : F.euler p a = [] := by
  induction F generalizing a with
  | nil => rfl
  | cons i j id sub rest ih1 ih2 =>
    rw [Forest.euler, if_neg (by rw [h id (by simp [Forest.ids])]; simp), ih2 fun l q => h l (by simp [Forest.ids, q])]
    rfl

theorem single_exec (c : Config ℝ T ℂ) {s : State ℝ (Ext T ℂ) ℂ} {F : Forest} (hr : s.heap.Rooted s.root F)
    (hone : ∀ l ∈ F.ids, s.heap.isLeaf l = true) {x1 x2 : Ext T ℂ} {h1 h2 : Heap ℂ} {tau : ℝ} (e1 : formEnv c s.ext s.heap s.root = .ok (x1, h1)) (e2 : OnlyCaches s.heap h1)
    (e3 : h1.IsTTN s.root F) (e4 : evolve c x1 h1 s.root tau true = .ok (x2, h2))
    (hch2 : h2.children s.root none false = []) {fuel : ℕ} (hfu : F.ids.length < fuel) :
    (∀ b, splitStep (hooks c) fuel tau b s = .ok ⟨h2, s.root, x2, s.log ++ [⟨s.root, h1.linkages s.root, tau⟩]⟩) ∧
      ∀ snd, rSplitStep (hooks c) snd fuel tau s = .ok ⟨h2, s.root, x2, s.log ++ [⟨s.root, h1.linkages s.root, tau⟩]⟩ := by
  have f1 : Sweep.formEnv (hooks c) s = .ok { s with ext := x1, heap := h1 } := by
    unfold Sweep.formEnv
    show (do let (x, h) ← SplitProp.formEnv c s.ext s.heap s.root; pure { s with ext := x, heap := h } : Res (State ℝ (Ext T ℂ) ℂ)) = _
    erw [e1]; rfl
  have f2 : Sweep.splitProp (hooks c) tau true { s with ext := x1, heap := h1 } s.root = .ok ⟨h2, s.root, x2, s.log ++ [⟨s.root, h1.linkages s.root, tau⟩]⟩ := by
    unfold Sweep.splitProp
    dsimp only
    rw [if_neg (by rw [not_not, (e2.node _).2.2.1]; exact hr.1)]
    rw [show (hooks c).evolve x1 h1 s.root tau true = .ok (x2, h2) from e4]; rfl
  have hl : ∀ l ∈ F.ids, h1.isLeaf l = true := fun l q => ((e2.node l).1).trans (hone l q)
  have hax : (h1.node s.root).axis = none := (e2.node _).2.2.1.trans hr.1
  have hch : h1.children s.root none false = [] := by
    rw [children_false, e3.tree.heads, List.filter_eq_nil_iff]
    intro q hq
    simp [hl _ (Forest.mem_heads_ids hq)]
  refine ⟨fun b => ?_, fun snd => ?_⟩
  · have hd := decorated_tree e3.tree false (fuel := fuel) (lt_of_le_of_lt (Forest.depth_le F) hfu)
    have he : F.euler (fun t => false || !(h1.isLeaf t)) s.root = [] := euler_nil (fun l q => by simp [hl l q]) s.root
    unfold splitStep
    rw [f1]
    simp only [ok_bind]
    rw [hax, hd, he]
    cases b
    · simp only [ok_bind, Bool.false_eq_true, if_false, List.foldlM_nil, pure_bind]
      exact f2
    · simp only [ok_bind, if_true, List.reverse_nil, List.foldlM_nil]
      rw [f2]; rfl
  · obtain ⟨f, rfl⟩ : ∃ f, fuel = f + 1 := ⟨fuel - 1, by omega⟩
    have hb : ∀ (s' : State ℝ (Ext T ℂ) ℂ) recur t b, s'.heap.children s.root none false = [] → branchProp (hooks c) recur s.root none t b s' = .ok s' := by
      intro s' recur t b q
      unfold branchProp
      rw [q]
      cases b <;> rfl
    unfold rSplitStep
    rw [f1]
    simp only [ok_bind]
    cases snd
    · unfold rSplit
      simp only [Bool.false_eq_true, if_false]
      rw [hb _ _ _ _ hch]
      exact f2
    · unfold rSplit
      simp only [if_true]
      rw [hb _ _ _ _ hch]
      simp only [ok_bind]
      rw [f2]
      simp only [ok_bind]
      refine hb _ _ _ _ ?_
      exact hch2

/-- **C133, a single tensor.** If the network is one tensor with leaves, then any sequence of steps of `split_step` (forward or backward) and
`r_split_step` (first or second order) with an exact integrator is the exact propagation over the sum of the times. -/
theorem C133_single (c : Config ℝ T ℂ) (hs : c.solver = exactSolver) (hq : c.sqrt 1 = 1) {coef : ℂ} (h0 : coef ≠ 0)
    (hcoef : ∀ time : Option T, time.isNone = c.imaginary → c.coef time = coef)
    (he : coef * star (c.initEnergy.getD 0) = -(star coef * c.initEnergy.getD 0))
    {s : State ℝ (Ext T ℂ) ℂ} {F : Forest} (ht : s.heap.IsTTN s.root F) (hr : s.heap.Rooted s.root F) (hone : ∀ l ∈ F.ids, s.heap.isLeaf l = true)
    (st : Start s.ext s.heap) (hcalls : s.ext.calls = []) (hg : Generates (s.ext.obj s.heap s.root) F coef)
    (hn : dot (s.ext.obj s.heap s.root) F (s.heap.treeAmp s.root F) (s.heap.treeAmp s.root F) = 1)
    {fuel : ℕ} (hfu : F.ids.length < fuel) (cmds : List (Cmd ℝ)) (hu : ∀ tau, Cmd.unite tau ∉ cmds) :
    ∃ s', cmds.foldlM (Cmd.exec (hooks c) fuel) s = .ok s' ∧ s'.root = s.root ∧ s'.heap.IsTTN s.root F ∧
      amps (s.ext.obj s.heap s.root) F (s'.heap.treeAmp s.root F) =
        (NormedSpace.exp ((cmds.map Cmd.time).sum • genMatrix (s.ext.obj s.heap s.root) F coef (c.initEnergy.getD 0))).mulVec
          (amps (s.ext.obj s.heap s.root) F (s.heap.treeAmp s.root F)) := by
  have hcan : s.heap.CanonicalTree s.root F := by
    intro e he'
    obtain ⟨q1, q2⟩ := List.mem_filter.1 he'
    rw [hone _ (Forest.edges_tgt q1)] at q2
    cases q2
  have hfull : FullRoot (s.ext.obj s.heap s.root) F := full_one (s := s.ext.obj s.heap s.root) ht hone fun e _ q => st.empty _ q
  have tr := Track.start c ht hr st hcalls hcan hn hfull
  obtain ⟨s0, hs0⟩ : ∃ s0, s0 = s.ext.obj s.heap s.root := ⟨_, rfl⟩
  have hroot : s.root = s0.root := by rw [hs0]; rfl
  have hheap : s.heap = s0.heap := by rw [hs0]; rfl
  rw [← hs0] at tr hg ⊢
  have ht0 : s0.heap.IsTTN s0.root F := by rw [← hheap, ← hroot]; exact ht
  have hf0 : s0.fList = none := by rw [hs0]; exact st.fList
  have hone0 : ∀ l ∈ F.ids, s0.heap.isLeaf l = true := by rw [← hheap]; exact hone
  obtain ⟨E, hE⟩ : ∃ E, E = element s0 F (s.heap.treeAmp s.root F) (s.heap.treeAmp s.root F) := ⟨_, rfl⟩
  rw [← hE] at tr
  obtain ⟨N, hN⟩ : ∃ N, N = s.heap.next := ⟨_, rfl⟩
  rw [← hN] at tr
  rw [hroot]
  clear hE hN hcan hn hfull hcalls st hs0 hheap ht hr hone
  induction cmds generalizing s with
  | nil =>
    refine ⟨s, rfl, hroot, tr.ttn, ?_⟩
    simp
  | cons cmd cmds ih =>
    obtain ⟨x1, h1, x2, h2, e1, e2, e3, e4, e5, e6⟩ := Track.next hs h0 hcoef he hq ht0 hf0 hg tr cmd.time true
    rw [← hroot] at e1 e3 e4
    have hch2 : h2.children s.root none false = [] := by
      rw [children_false, hroot, e5.ttn.tree.heads, List.filter_eq_nil_iff]
      intro q hq
      simp [e5.leafs, hone0 _ (Forest.mem_heads_ids hq)]
    obtain ⟨p1, p2⟩ := single_exec c (hroot ▸ tr.rooted) (fun l q => (tr.leafs l).trans (hone0 l q)) e1 e2 e3 e4 hch2 hfu
    have hex : Cmd.exec (hooks c) fuel s cmd = .ok ⟨h2, s.root, x2, s.log ++ [⟨s.root, h1.linkages s.root, cmd.time⟩]⟩ := by
      cases cmd with
      | split tau b => exact p1 b
      | unite tau => exact absurd (List.mem_cons_self ..) (hu tau)
      | rSplit snd tau => exact p2 snd
    obtain ⟨s', q1, q2, q3, q4⟩ := ih (fun tau q => hu tau (List.mem_cons_of_mem _ q))
      (s := ⟨h2, s.root, x2, s.log ++ [⟨s.root, h1.linkages s.root, cmd.time⟩]⟩) hroot e5
    refine ⟨s', ?_, q2, q3, ?_⟩
    · rw [List.foldlM_cons, hex]; exact q1
    · rw [q4]
      dsimp only
      rw [e6, Matrix.mulVec_mulVec, List.map_cons, List.sum_cons, add_comm, add_smul,
        Matrix.exp_add_of_commute _ _ (((Commute.refl _).smul_left _).smul_right _)]

/-! ### Examples -/

theorem exSpin_coef : ∀ time : Option ℝ, time.isNone = exSpinCfg.imaginary → exSpinCfg.coef time = 1 := by
  intro time h
  cases time with
  | none => cases h
  | some t => rfl

/-- The entangled state of two spins of C127: the second spin is behind a tensor of its own, and the root has four entries. -/
example (tau : ℝ) : ∃ s1 s', Sweep.formEnv (hooks exSpinCfg) exSpinState = .ok s1 ∧ Sweep.splitProp (hooks exSpinCfg) tau true s1 s1.root = .ok s' ∧
    s'.root = 0 ∧ s'.heap.IsTTN 0 exTwoForest ∧
    amps (exSpinState.ext.obj exSpins 0) exTwoForest (s'.heap.treeAmp 0 exTwoForest) =
      (NormedSpace.exp (tau • genMatrix (exSpinState.ext.obj exSpins 0) exTwoForest 1 (exSpinCfg.initEnergy.getD 0))).mulVec
        (amps (exSpinState.ext.obj exSpins 0) exTwoForest (exSpins.treeAmp 0 exTwoForest)) := by
  refine C133_root exSpinCfg rfl (by simp [exSpinCfg]) one_ne_zero exSpin_coef (by simp [exSpinCfg]) (s := exSpinState) exSpins_ttn ⟨rfl, ?_⟩ exSpin_start rfl
    exSpin_canon exSpin_generates exSpin_norm ⟨_, rfl, ?_⟩ tau true
  · show ∀ e ∈ exSpins.bonds 0 exTwoForest, (exSpins.node e.2.2.1).axis = some e.2.2.2
    decide +kernel
  · show [2, 2].prod = ((exSpins.leafList 0 exTwoForest).map Prod.snd).prod
    rw [exSpin_leaves]; rfl

/-- One tensor with two spins in the state `(|00> + |11>) / √2`, and `-i σz` on the first. -/
noncomputable def exPairState : State ℝ (Ext ℝ ℂ) ℂ := ⟨exPair, 0, ⟨[[(1, .mat ⟨[2, 2], [-Complex.I, 0, 0, Complex.I]⟩)]], none, some 0, [], []⟩, []⟩

theorem exPair_acc_eq {t k l j : ℕ} (h : exPair.acc t k = some (l, j)) : (t, k, l, j) ∈ [(0, 0, 1, 0), (0, 1, 2, 0), (1, 0, 0, 0), (2, 0, 0, 1)] := by
  have hlt : t < 3 := (exPair_ttn.links.lt h).1
  have hm := (mem_linkages exPair_ttn.links.wf).2 h
  have key : ∀ t < 3, ∀ p ∈ exPair.linkages t, (t, p) ∈ [(0, 0, 1, 0), (0, 1, 2, 0), (1, 0, 0, 0), (2, 0, 0, 1)] := by
    decide +kernel
  exact key t hlt _ hm

theorem exPair_start : Start exPairState.ext exPair where
  fList := rfl
  const := by
    intro term ht p hp t t'
    simp only [exPairState, List.mem_cons, List.not_mem_nil, or_false] at ht
    subst ht
    simp only [List.mem_cons, List.not_mem_nil, or_false] at hp
    subst hp; rfl
  leaf := by
    intro term ht p hp
    simp only [exPairState, List.mem_cons, List.not_mem_nil, or_false] at ht
    subst ht
    simp only [List.mem_cons, List.not_mem_nil, or_false] at hp
    subst hp; exact ⟨rfl, by decide +kernel⟩
  fits := by
    intro term ht t k l j hl hlf
    have hm := exPair_acc_eq hl
    simp only [exPairState, List.mem_cons, List.not_mem_nil, or_false, Prod.mk.injEq] at ht hm
    subst ht
    rcases hm with ⟨rfl, rfl, rfl, rfl⟩ | ⟨rfl, rfl, rfl, rfl⟩ | ⟨rfl, rfl, rfl, rfl⟩ | ⟨rfl, rfl, rfl, rfl⟩
    · exact ⟨by simp [Nd.Wf, TermOp.at], rfl⟩
    · rfl
    · cases hlf
    · cases hlf
  empty := by
    intro l hl
    rcases l with _ | _ | _ | l
    · cases hl
    · rfl
    · rfl
    · rfl
  marks := by
    intro t k hk hx
    obtain ⟨⟨l, j⟩, h⟩ := Option.ne_none_iff_exists'.1 hk
    have hm := exPair_acc_eq h
    simp only [List.mem_cons, List.not_mem_nil, or_false, Prod.mk.injEq] at hm
    rcases hm with ⟨rfl, rfl, rfl, rfl⟩ | ⟨rfl, rfl, rfl, rfl⟩ | ⟨rfl, rfl, rfl, rfl⟩ | ⟨rfl, rfl, rfl, rfl⟩
    · exact absurd rfl hx
    · exact absurd rfl hx
    · intro A _ q; cases q
    · intro A _ q; cases q

theorem exPair_norm : dot (exPairState.ext.obj exPair 0) exPairForest (exPair.treeAmp 0 exPairForest) (exPair.treeAmp 0 exPairForest) = 1 := by
  have h1 : variation (exPairState.ext.obj exPair 0) exPairForest 0 (some ⟨[2, 2], [rt2, 0, 0, rt2]⟩) =
      exPair.treeAmp 0 exPairForest := funext fun w => amp_self exPair_full.array exPairForest w
  rw [← h1]
  refine (dot_coord (s := exPairState.ext.obj exPair 0) (Y := ⟨[2, 2], [rt2, 0, 0, rt2]⟩) exPair_ttn
    (by unfold CanonicalTree; rw [show (exPairState.ext.obj exPair 0).heap = exPair from rfl, bonds_one exPair_one]; simp)
    (fun e _ q => exPair_start.empty _ q) exPair_full exPair_full.wf rfl).trans ?_
  have h2 : rt2 * star rt2 = 1 / 2 := by
    unfold rt2
    rw [Complex.star_def, Complex.conj_ofReal, ← Complex.ofReal_mul, ← mul_inv, Real.mul_self_sqrt (by norm_num)]
    simp
  have h3 : normSq 4 [rt2, 0, 0, rt2] = rt2 * star rt2 + rt2 * star rt2 := by
    simp [normSq, Finset.sum_range_succ]
  refine h3.trans ?_
  rw [h2]; norm_num

theorem exPair_generates : Generates (exPairState.ext.obj exPair 0) exPairForest 1 := by
  intro x y hx hy
  replace hx : ∀ p ∈ exPair.leafList 0 exPairForest, x p.1 < p.2 := hx
  replace hy : ∀ p ∈ exPair.leafList 0 exPairForest, y p.1 < p.2 := hy
  rw [exPair_leaves] at hx hy
  have a1 := hx (1, 2) (by simp)
  have b1 := hy (1, 2) (by simp)
  simp only at a1 b1
  have key : ∀ x y : ℕ → ℕ, hEntry (exPairState.ext.obj exPair 0) exPairForest x y =
      (⟨[2, 2], [-Complex.I, 0, 0, Complex.I]⟩ : Nd ℂ).get [x 1, y 1] * (if x 2 = y 2 then (1 : ℂ) else 0) := by
    intro x y
    unfold hEntry termEntry
    have e1 : (exPairState.ext.obj exPair 0).allTerms none = [[(1, .mat ⟨[2, 2], [-Complex.I, 0, 0, Complex.I]⟩)]] := rfl
    have e2 : (exPairState.ext.obj exPair 0).heap.leafList (exPairState.ext.obj exPair 0).root exPairForest = [(1, 2), (2, 2)] := exPair_leaves
    rw [e1, e2]
    simp [opOn, TermOp.at, opEntry]
  rw [key, key]
  obtain p1 | p1 : x 1 = 0 ∨ x 1 = 1 := by omega
  all_goals obtain p3 | p3 : y 1 = 0 ∨ y 1 = 1 := by omega
  all_goals rw [p1, p3]
  all_goals by_cases q : x 2 = y 2
  all_goals simp [Nd.get, ravel, q, eq_comm]

example (a b : ℝ) : ∃ s', [Cmd.split a true, Cmd.rSplit true b, Cmd.split b false].foldlM (Cmd.exec (hooks exSpinCfg) 5) exPairState = .ok s' ∧ s'.root = 0 ∧
    s'.heap.IsTTN 0 exPairForest ∧
    amps (exPairState.ext.obj exPair 0) exPairForest (s'.heap.treeAmp 0 exPairForest) =
      (NormedSpace.exp ((a + (b + (b + 0))) • genMatrix (exPairState.ext.obj exPair 0) exPairForest 1 (exSpinCfg.initEnergy.getD 0))).mulVec
        (amps (exPairState.ext.obj exPair 0) exPairForest (exPair.treeAmp 0 exPairForest)) := by
  refine C133_single exSpinCfg rfl (by simp [exSpinCfg]) one_ne_zero exSpin_coef (by simp [exSpinCfg]) (s := exPairState) exPair_ttn ⟨rfl, ?_⟩ exPair_one exPair_start rfl
    exPair_generates exPair_norm (by decide) _ (by simp)
  rw [show exPairState.heap = exPair from rfl, bonds_one exPair_one]; simp

end SplitProp
