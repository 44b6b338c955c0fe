import Verif.Lemmas.Full6
import Verif.Props.C52

/-! Whole steps over a network with complete bases, for C134. -/

open scoped BigOperators
open Py

namespace SplitProp

open Heap ML Sweep

variable {T : Type} [Zero T] {cf : Config ℝ T ℂ} {coef : ℂ} {s0 : Obj T ℂ} {F0 : Forest} {N : ℕ} {E : ℂ} {h0 : Heap ℂ} {r0 : ℕ}
  {v : Fin (leafDims s0 F0).prod → ℂ}

/-- Propagation of a full root. -/
theorem Setup.root (S : Setup cf coef s0 F0) (hi : h0.LinkInv) {s : State ℝ (Ext T ℂ) ℂ} (on : On cf N s0 F0 E h0 r0 v s) {A0 : Nd ℂ} (hA0 : h0.Full s.root A0)
    (hlt : s.root < h0.next) (hfull : A0.shape.prod = (leafDims s0 F0).prod) (tau : ℝ) (c : Bool) :
    ∃ s', splitProp (hooks cf) tau c s s.root = .ok s' ∧ s'.root = s.root ∧
      On cf N s0 F0 E h0 r0 ((NormedSpace.exp (tau • genMatrix s0 F0 coef (cf.initEnergy.getD 0))).mulVec v) s' := by
  obtain ⟨F, ht, hr, -⟩ := on.inv.ttn
  obtain ⟨A, hA⟩ := ht.full s.root (mem_tensors.2 ⟨.inl rfl, ht.leaf⟩)
  have hAs : A.shape = A0.shape := shape_eq hA0 hA (fun k => on.inv.acc _ k) fun k => on.dims _ k hlt
  have hB := (on.based S.fList ht).orth hA
  rw [hAs] at hB
  obtain ⟨s', e1, e2, -, -, -, y, e6, on'⟩ := S.prop hi on tau c ht hA hAs
  refine ⟨s', e1, e2, ?_⟩
  rw [Matrix.mulVec_mulVec, exp_frame hfull _ hB, ← Matrix.mulVec_mulVec, ← e6] at on'
  exact on'

/-- Between the steps. -/
structure OnJ (cf : Config ℝ T ℂ) (N : ℕ) (s0 : Obj T ℂ) (F0 : Forest) (E : ℂ) (h0 : Heap ℂ) (r0 : ℕ) (v : Fin (leafDims s0 F0).prod → ℂ)
    (s : State ℝ (Ext T ℂ) ℂ) : Prop where
  inv : Inv (fun x h r => Good (Call.Right cf) N x h r ∧ Keep s0 F0 E x h r) h0 r0 s
  dims : ∀ c k, c < h0.next → s.heap.hdim (c, k) = h0.hdim (c, k)
  amp : ∀ F, s.heap.IsTTN s.root F → amps s0 F0 (s.heap.treeAmp s.root F) = v

theorem On.toJ {s : State ℝ (Ext T ℂ) ℂ} (on : On cf N s0 F0 E h0 r0 v s) : OnJ cf N s0 F0 E h0 r0 v s :=
  ⟨⟨on.inv.ttn, on.inv.acc, on.inv.leaf, on.inv.mono, on.inv.lnk, on.inv.inv.1.toGood, on.inv.inv.2⟩, on.dims, on.amp⟩

/-- `_form_env`. -/
theorem Setup.formEnv (S : Setup cf coef s0 F0) {s : State ℝ (Ext T ℂ) ℂ} (on : OnJ cf N s0 F0 E h0 r0 v s) :
    ∃ s1, Sweep.formEnv (hooks cf) s = .ok s1 ∧ s1.root = s.root ∧ On cf N s0 F0 E h0 r0 v s1 := by
  obtain ⟨F, ht, hr, hp⟩ := on.inv.ttn
  obtain ⟨x, h, e, g, hI⟩ := (S.goodS N E).formEnv s.ext s.heap s.root F ht hr on.inv.inv
  obtain ⟨x', h', ex, iv, ht', hr', hl', -⟩ := formEnv_ok (S.goodS N E) ht hr hp on.inv.inv
  have ex' : Sweep.formEnv (hooks cf) s = .ok { s with ext := x, heap := h } := by
    unfold Sweep.formEnv
    rw [e]; rfl
  rw [ex] at ex'
  obtain ⟨rfl, rfl⟩ : x = x' ∧ h = h' := by
    have := Except.ok.inj ex'
    simp only [State.mk.injEq, true_and, and_true] at this
    exact ⟨this.2.symm, this.1.symm⟩
  have hacc : ∀ c k, h.acc c k = s.heap.acc c k := fun c k => by rw [Heap.acc_def, Heap.acc_def, g.access]
  refine ⟨_, ex, rfl, ⟨iv.ttn, fun c k => (hacc c k).trans (on.inv.acc c k), fun c hc => (hl' c).trans (on.inv.leaf c hc), ?_, on.inv.lnk, hI⟩,
    fun c k hc => ?_, fun F' hF' => ?_⟩
  · show h0.next ≤ h.next
    rw [g.next]; exact on.inv.mono
  · rw [← on.dims c k hc]
    exact hdim_congr (g.array c) k
  · obtain rfl := ht'.tree.unique hF'.tree
    rw [← on.amp F ht]
    congr 1
    exact funext fun w => treeAmp_congr g.array hacc hl' s.root F w

/-- The tree of the start. -/
theorem On.tree {s : State ℝ (Ext T ℂ) ℂ} (on : On cf N s0 F0 E h0 r0 v s) {F : Forest} (ht : h0.IsTTN s.root F) : s.heap.IsTTN s.root F ∧ s.heap.Rooted s.root F := by
  obtain ⟨F', t', r', -⟩ := on.inv.ttn
  have : IsTree s.heap s.root none F := ht.tree.congr ht.links.wf t'.links.wf on.inv.acc fun c hc => on.inv.leaf c (ht.ids_lt hc)
  obtain rfl := t'.tree.unique this
  exact ⟨t', r'⟩

/-- What the steps need of the network at the start. -/
structure Whole (s0 : Obj T ℂ) (F0 : Forest) (h0 : Heap ℂ) (r0 : ℕ) (F : Forest) : Prop where
  ttn : h0.IsTTN r0 F
  edges : ∀ e ∈ F.edges r0, h0.isLeaf e.2.2.1 = false → EdgeOk h0 e
  full : ∃ A, h0.Full r0 A ∧ A.shape.prod = (leafDims s0 F0).prod

/-- `split_step`. -/
theorem Setup.splitStep (S : Setup cf coef s0 F0) {F : Forest} (W : Whole s0 F0 h0 r0 F) {s : State ℝ (Ext T ℂ) ℂ} (on : OnJ cf N s0 F0 E h0 r0 v s)
    (hs : s.root = r0) {fuel : ℕ} (hfu : F.depth < fuel) (tau : ℝ) (backward : Bool) :
    ∃ s', Sweep.splitStep (hooks cf) fuel tau backward s = .ok s' ∧ s'.root = r0 ∧
      On cf N s0 F0 E h0 r0 ((NormedSpace.exp (tau • genMatrix s0 F0 coef (cf.initEnergy.getD 0))).mulVec v) s' := by
  subst hs
  obtain ⟨s1, e1, e2, on1⟩ := S.formEnv on
  have hi := W.ttn.links
  obtain ⟨A, hA, hAf⟩ := W.full
  obtain ⟨t1, r1⟩ := on1.tree (by rw [e2]; exact W.ttn)
  have hh := fun i id j (q : (i, id, j) ∈ F.heads) => W.ttn.tree.acc_of_mem_heads W.ttn.links.wf q
  have hd := Heap.decorated_tree t1.tree false hfu
  have heu : F.euler (fun t => false || !(s1.heap.isLeaf t)) s1.root = F.euler (fun t => !(h0.isLeaf t)) s.root := by
    rw [e2]
    have key : ∀ (G : Forest) (a : ℕ), (∀ c ∈ G.ids, s1.heap.isLeaf c = h0.isLeaf c) →
        G.euler (fun t => false || !(s1.heap.isLeaf t)) a = G.euler (fun t => !(h0.isLeaf t)) a := by
      intro G
      induction G with
      | nil => intros; rfl
      | cons i j id sub rest ih1 ih2 =>
        intro a hG
        simp only [Forest.euler]
        rw [ih1 id fun c hc => hG c (by simp [Forest.ids, hc]), ih2 a fun c hc => hG c (by simp [Forest.ids, hc])]
        simp only [hG id (by simp [Forest.ids]), Bool.false_or]
    exact key F s.root fun c hc => on1.inv.leaf c (W.ttn.ids_lt (List.mem_cons_of_mem _ hc))
  rw [heu] at hd
  cases backward with
  | false =>
    obtain ⟨s2, f1, f2, on2⟩ := S.fwd hi tau fuel F s.root W.ttn.tree.rep hh W.ttn.leaf W.edges on1 e2
    obtain ⟨s3, g1, g2, on3⟩ := S.root hi on2 (A0 := A) (by rw [f2]; exact hA) (by rw [f2]; exact W.ttn.lt) hAf tau true
    refine ⟨s3, ?_, g2.trans f2, on3⟩
    unfold Sweep.splitStep
    rw [e1]
    simp only [ok_bind]
    rw [r1.1, hd]
    simp only [ok_bind, Bool.false_eq_true, if_false]
    rw [f1]
    exact g1
  | true =>
    obtain ⟨s2, g1, g2, on2⟩ := S.root hi on1 (A0 := A) (by rw [e2]; exact hA) (by rw [e2]; exact W.ttn.lt) hAf tau true
    obtain ⟨s3, f1, f2, on3⟩ := S.bwd hi tau fuel F s.root W.ttn.tree.rep hh W.ttn.leaf W.edges on2 (g2.trans e2)
    refine ⟨s3, ?_, f2, on3⟩
    unfold Sweep.splitStep
    rw [e1]
    simp only [ok_bind]
    rw [r1.1, hd]
    simp only [ok_bind, if_true]
    rw [g1]
    exact f1

/-- The loop of `branch_prop` in `r_split_step` of first order. -/
theorem Setup.loop (S : Setup cf coef s0 F0) (hi : h0.LinkInv) (tau : ℝ) (F : Forest) (a : ℕ) (ha : h0.isLeaf a = false)
    (recur : ℕ → ℕ → State ℝ (Ext T ℂ) ℂ → Res (State ℝ (Ext T ℂ) ℂ))
    (hh : ∀ i id j, (i, id, j) ∈ F.heads → h0.acc a i = some (id, j)) (hc : ∀ e ∈ F.edges a, h0.isLeaf e.2.2.1 = false → EdgeOk h0 e)
    (hrec : ∀ i j id sub, F.Has i j id sub → h0.isLeaf id = false → ∀ s : State ℝ (Ext T ℂ) ℂ, On cf N s0 F0 E h0 r0 v s → s.root = id →
      ∃ s', recur id j s = splitProp (hooks cf) tau true s' id ∧ s'.root = id ∧ On cf N s0 F0 E h0 r0 v s')
    {s : State ℝ (Ext T ℂ) ℂ} (on : On cf N s0 F0 E h0 r0 v s) (hs : s.root = a) :
    ∃ s', branchLoop (hooks cf) recur none (some (splitProp (hooks cf) (-tau) false)) a (F.heads.filter fun x => !(h0.isLeaf x.2.1)) s = .ok s' ∧
      s'.root = a ∧ On cf N s0 F0 E h0 r0 v s' := by
  induction F generalizing s with
  | nil => exact ⟨s, rfl, hs, on⟩
  | cons i j id sub rest ih1 ih2 =>
    clear ih1
    have hb := hh i id j (by simp [Forest.heads])
    have hrest : ∀ i' id' j', (i', id', j') ∈ rest.heads → h0.acc a i' = some (id', j') := fun i' id' j' q =>
      hh i' id' j' (by simp [Forest.heads, q])
    have ih := @ih2 hrest (fun e he => hc e (by simp [Forest.edges, he])) (fun i' j' id' sub' q => hrec i' j' id' sub' (.inr q))
    simp only [Forest.heads, List.filter_cons]
    by_cases hl : h0.isLeaf id = false
    · simp only [hl, Bool.not_false, if_true]
      subst hs
      obtain ⟨A, B, c1, c2, c3, c4, c5⟩ := hc (s.root, i, id, j) (by simp [Forest.edges]) hl
      obtain ⟨s1, e1, e2, e3⟩ := S.walk hi on hb hl c5 c1 c3 0
      obtain ⟨s2, f1, f2, f3⟩ := hrec i j id sub (.inl ⟨rfl, rfl, rfl, rfl⟩) hl s1 e3 e2
      subst f2
      obtain ⟨s3, s4, g1, g2, k1, k2, k3⟩ := S.up hi f3 (hi.sym _ _ _ _ hb) ha c5.symm c2 c4 tau true false 0
      obtain ⟨s5, l1, l2, l3⟩ := ih k3 k2
      refine ⟨s5, ?_, l2, l3⟩
      rw [branchLoop, e1]
      simp only [ok_bind]
      rw [f1, g1]
      simp only [ok_bind]
      rw [k1]
      exact l1
    · have hl' : h0.isLeaf id = true := by simpa using hl
      simp only [hl', Bool.not_true, Bool.false_eq_true, if_false]
      exact ih on hs

theorem Has.edges {i j id : ℕ} {sub F : Forest} (h : F.Has i j id sub) (a : ℕ) : ∀ e ∈ sub.edges id, e ∈ F.edges a := by
  induction F with
  | nil => exact h.elim
  | cons i' j' id' sub' rest _ ih =>
    intro e he
    rcases h with ⟨rfl, rfl, rfl, rfl⟩ | h
    · simp [Forest.edges, he]
    · have := ih h e he
      simp [Forest.edges, this]

/-- `r_split_step` of first order, up to the propagation of `a`. -/
theorem Setup.rFirst (S : Setup cf coef s0 F0) (hi : h0.LinkInv) (fuel : ℕ) (tau : ℝ) (F : Forest) (a : ℕ)
    (axis : Option ℕ) (hfu : F.depth < fuel) (hch : h0.children a axis true = F.heads) (hrep : F.RepIn h0)
    (hh : ∀ i id j, (i, id, j) ∈ F.heads → h0.acc a i = some (id, j)) (ha : h0.isLeaf a = false) (hlt : a < h0.next)
    (hc : ∀ e ∈ F.edges a, h0.isLeaf e.2.2.1 = false → EdgeOk h0 e)
    {s : State ℝ (Ext T ℂ) ℂ} (on : On cf N s0 F0 E h0 r0 v s) (hs : s.root = a) :
    ∃ s', rSplit (hooks cf) false fuel tau a axis s = splitProp (hooks cf) tau true s' a ∧ s'.root = a ∧ On cf N s0 F0 E h0 r0 v s' := by
  induction fuel generalizing F a axis s with
  | zero => omega
  | succ f ih =>
    have hch' : h0.children a axis false = F.heads.filter fun x => !(h0.isLeaf x.2.1) := by
      rw [Heap.children_false, hch]
    obtain ⟨s1, e1, e2, e3⟩ := S.loop hi tau F a ha (fun t j => rSplit (hooks cf) false f tau t (some j)) hh hc (fun i j id sub hf hl s on hs => by
      obtain ⟨q1, q2⟩ := Has.repIn_sub hf hrep
      have := Has.depth hf
      exact ih sub id (some j) (by omega) q1 q2 (heads_sub hi.wf q1) hl (hi.lt (hh i id j hf.mem_heads)).2
        (fun e he => hc e (Has.edges hf a e he)) on hs) on hs
    refine ⟨s1, ?_, e2, e3⟩
    rw [rSplit]
    simp only [Bool.false_eq_true, if_false]
    have q : branchProp (hooks cf) (fun t j => rSplit (hooks cf) false f tau t (some j)) a axis tau false s = .ok s1 := by
      unfold branchProp
      rw [on.inv.children hi hlt, hch']
      exact e1
    rw [q]
    rfl

/-- `r_split_step` of first order. -/
theorem Setup.rStep (S : Setup cf coef s0 F0) {F : Forest} (W : Whole s0 F0 h0 r0 F) {s : State ℝ (Ext T ℂ) ℂ} (on : OnJ cf N s0 F0 E h0 r0 v s)
    (hs : s.root = r0) {fuel : ℕ} (hfu : F.depth < fuel) (tau : ℝ) :
    ∃ s', rSplitStep (hooks cf) false fuel tau s = .ok s' ∧ s'.root = r0 ∧
      On cf N s0 F0 E h0 r0 ((NormedSpace.exp (tau • genMatrix s0 F0 coef (cf.initEnergy.getD 0))).mulVec v) s' := by
  subst hs
  obtain ⟨s1, e1, e2, on1⟩ := S.formEnv on
  have hi := W.ttn.links
  obtain ⟨A, hA, hAf⟩ := W.full
  have hh := fun i id j (q : (i, id, j) ∈ F.heads) => W.ttn.tree.acc_of_mem_heads W.ttn.links.wf q
  obtain ⟨s2, f1, f2, on2⟩ := S.rFirst hi fuel tau F s.root none hfu W.ttn.tree.heads W.ttn.tree.rep hh W.ttn.leaf W.ttn.lt W.edges on1 e2
  obtain ⟨s3, g1, g2, on3⟩ := S.root hi on2 (A0 := A) (by rw [f2]; exact hA) (by rw [f2]; exact W.ttn.lt) hAf tau true
  refine ⟨s3, ?_, g2.trans f2, on3⟩
  unfold rSplitStep
  rw [e1]
  simp only [ok_bind]
  rw [e2, f1, ← f2]
  exact g1

end SplitProp
