import Verif.Lemmas.EnvRange

/-! `r_split_step` of second order over a network with complete bases, for C134. -/

open scoped BigOperators
open Py

namespace SplitProp

open Heap ML Sweep

variable {T : Type} [Zero T] {cf : Config ℝ T ℂ} {coef : ℂ} {s0 : Obj T ℂ} {F0 : Forest} {N : ℕ} {E : ℂ} {h0 : Heap ℂ} {r0 : ℕ}
  {v : Fin (leafDims s0 F0).prod → ℂ}

/-- Only arrays of the tensors in `L` have changed. -/
def Rest (h0 : Heap ℂ) (L : List ℕ) (s s' : State ℝ (Ext T ℂ) ℂ) : Prop := ∀ c, c < h0.next → c ∉ L → s'.heap.array c = s.heap.array c

omit [Zero T] in
theorem Rest.trans {L L1 L2 : List ℕ} {s s1 s2 : State ℝ (Ext T ℂ) ℂ} (h1 : Rest h0 L1 s s1) (h2 : Rest h0 L2 s1 s2) (q1 : ∀ c ∈ L1, c ∈ L)
    (q2 : ∀ c ∈ L2, c ∈ L) : Rest h0 L s s2 :=
  fun c hc hL => (h2 c hc fun q => hL (q2 c q)).trans (h1 c hc fun q => hL (q1 c q))

theorem Setup.propRest (S : Setup cf coef s0 F0) {s s' : State ℝ (Ext T ℂ) ℂ} (on : On cf N s0 F0 E h0 r0 v s) {tau : ℝ} {c : Bool}
    (e : splitProp (hooks cf) tau c s s.root = .ok s') : Rest h0 [s.root] s s' := by
  obtain ⟨F, h1, h2, -⟩ := on.inv.ttn
  obtain ⟨x, h', e', g, hI⟩ := splitProp_ok (S.goodS N E) (tau := tau) (c := c) h1 h2 on.inv.inv
  have := Except.ok.inj (e.symm.trans e')
  subst this
  exact fun c _ hc => g.other c (by simpa using hc)

theorem Setup.moveRest (S : Setup cf coef s0 F0) (hi : h0.LinkInv) {s s' : State ℝ (Ext T ℂ) ℂ} (on : On cf N s0 F0 E h0 r0 v s) {a fin j : ℕ}
    (hb0 : h0.acc s.root a = some (fin, j)) (hl0 : h0.isLeaf fin = false) {o : Option (ℝ × Bool)} {fuel : ℕ}
    (e : Sweep.move (hooks cf) fuel s s.root a (opOf (hooks cf) o) = .ok s') : Rest h0 [s.root, fin] s s' := by
  obtain ⟨s'', e1, e2, iv', F, h1, mid, F1, st, ht, hr, hp, m, mt, hr1, -, hI1, o1, gc, oI, -, op, mv⟩ :=
    move_detail (S.goodS N E) hi on.inv hb0 hl0 o fuel
  have := Except.ok.inj (e.symm.trans e1)
  subst this
  intro c hc hL
  simp only [List.mem_cons, List.not_mem_nil, or_false, not_or] at hL
  exact (mv.otherAxis c hL.1 hL.2 (by have := on.inv.mono; have := m.fresh; omega)).2

/-- The tree as seen from a tensor below. -/
theorem tree_below {a : ℕ} {Fa : Forest} (ht : h0.IsTTN a Fa) {i j id : ℕ} {sub : Forest} (hf : Fa.Has i j id sub) (hl : h0.isLeaf id = false) :
    ∃ Ft psub, h0.IsTTN id Ft ∧ Ft.Has j i a psub ∧ Ft.rem j = sub := by
  have hb := ht.tree.acc_of_mem_heads ht.links.wf hf.mem_heads
  have hm : id ∈ h0.tensors a Fa := mem_tensors.2 ⟨.inr (hf.sublist.subset List.mem_cons_self), hl⟩
  obtain ⟨Ft, f1, -⟩ := ht.reroot hm
  obtain ⟨psub, hp⟩ := Forest.exists_has (f1.head_of_acc (ht.links.sym _ _ _ _ hb))
  obtain ⟨q1, q2⟩ := Has.repIn_sub hf ht.tree.rep
  refine ⟨Ft, psub, f1, hp, Forest.ext_of_rep ?_ (Forest.repIn_rem j f1.tree.rep) q2⟩
  rw [Forest.heads_rem, ← f1.tree.heads, ← q1]
  unfold Heap.children
  simp [hl, List.filter_filter]

theorem children_rem {a p : ℕ} {Fa : Forest} (ht : h0.IsTTN a Fa) : h0.children a (some p) true = (Fa.rem p).heads := by
  rw [Forest.heads_rem, ← ht.tree.heads]
  unfold Heap.children
  simp [ht.leaf]

/-- The variations span the same states as long as nothing beyond the link has changed. -/
theorem Setup.sameFrame (S : Setup cf coef s0 F0) {v' : Fin (leafDims s0 F0).prod → ℂ} {s s' : State ℝ (Ext T ℂ) ℂ} (on : On cf N s0 F0 E h0 r0 v s)
    (on' : On cf N s0 F0 E h0 r0 v' s') {a : ℕ} (hs : s.root = a) (hs' : s'.root = a) {Fa : Forest} (ht : h0.IsTTN a Fa) {p pj pid : ℕ} {psub : Forest}
    (hf : Fa.Has p pj pid psub) {A0 : Nd ℂ} (hA0 : h0.Full a A0) (hc : ∀ e ∈ (Fa.rem p).edges a, h0.isLeaf e.2.2.1 = false → EdgeOk h0 e)
    (hr : Rest h0 (a :: (Fa.rem p).ids) s s') :
    ∃ U : Matrix (Fin A0.shape.prod) (Fin A0.shape.prod) ℂ, frameB s0 F0 s'.heap a Fa A0.shape A0.shape.prod = frameB s0 F0 s.heap a Fa A0.shape A0.shape.prod * U := by
  have hb := ht.tree.acc_of_mem_heads ht.links.wf hf.mem_heads
  have hw := ht.links.wf
  have hrem : ∀ c ∈ (Fa.rem p).ids, c ∈ Fa.ids := fun c hc => (Forest.ids_rem hf ht.heads_sorted).mem_iff.2 (by simp [hc])
  have hlt : ∀ c ∈ a :: Fa.ids, c < h0.next := fun c hc => ht.ids_lt hc
  have hp : p < A0.ndim := (hA0.acc p).1 (by rw [hb]; simp)
  have hcount := leafCount hw (Fa.rem p) a (Forest.repIn_rem p ht.tree.rep) (by rw [← children_rem ht]; exact pairwise_children hw _ _ _)
    (fun i id j q => ht.tree.acc_of_mem_heads hw (by rw [Forest.heads_rem] at q; exact (List.mem_filter.1 q).1)) ht.links.sym hc (Forest.leafEnd_rem p ht.tree.leafEnd)
  have hlist : ((Fa.rem p).heads.map fun x => h0.hdim (a, x.1)) = A0.shape.eraseIdx p := by
    have : ((Fa.rem p).heads.map fun x => h0.hdim (a, x.1)) = ((Fa.rem p).heads.map (fun x => x.1)).map fun k => h0.hdim (a, k) := by rw [List.map_map]; rfl
    rw [this, ← children_rem ht, hA0.keys_some hw hp, ← List.eraseIdx_map]
    congr 1
    refine List.ext_getElem (by simp [Nd.ndim]) fun k q1 q2 => ?_
    rw [List.getElem_map, List.getElem_range, hdim_full hA0.array, List.getD_eq_getElem _ _ q2]
  rw [hlist] at hcount
  obtain ⟨t1, -⟩ := on.tree (by rw [hs]; exact ht)
  obtain ⟨t2, -⟩ := on'.tree (by rw [hs']; exact ht)
  have b := on.based S.fList t1
  rw [hs] at t1 b
  rw [hs'] at t2
  obtain ⟨A, hA⟩ := t1.full a (mem_tensors.2 ⟨.inl rfl, t1.leaf⟩)
  obtain ⟨A', hA'⟩ := t2.full a (mem_tensors.2 ⟨.inl rfl, t2.leaf⟩)
  have hAs : A.shape = A0.shape := shape_eq hA0 hA (fun k => on.inv.acc _ k) fun k => on.dims _ k ht.lt
  have hAs' : A'.shape = A0.shape := shape_eq hA0 hA' (fun k => on'.inv.acc _ k) fun k => on'.dims _ k ht.lt
  have ho := b.orth hA
  rw [hAs] at ho
  have hL : s.heap.leafList a (Fa.rem p) = h0.leafList a (Fa.rem p) := by
    unfold leafList
    have hm : ∀ e ∈ (Fa.rem p).edges a, e.1 < h0.next ∧ e.2.2.1 < h0.next := fun e he => by
      obtain ⟨q1, q2⟩ := TreeSum.edges_mem he
      refine ⟨?_, hlt _ (List.mem_cons_of_mem _ (hrem _ q2))⟩
      rcases q1 with q1 | q1
      · rw [q1]; exact ht.lt
      · exact hlt _ (List.mem_cons_of_mem _ (hrem _ q1))
    rw [List.filter_congr fun e he => on.inv.leaf _ (hm e he).2]
    exact List.map_congr_left fun e he => by rw [on.dims _ _ (hm e (List.mem_filter.1 he).1).1]
  have hnd := (List.nodup_cons.1 ht.tree.nodup)
  have hnd2 := ((Forest.ids_rem hf ht.heads_sorted).nodup_iff.1 hnd.2)
  have hbr : ∀ c ∈ pid :: psub.ids, c ∈ Fa.ids := fun c hc => (Forest.ids_rem hf ht.heads_sorted).mem_iff.2 (List.mem_append.2 (.inl hc))
  refine frame_range t1 t2 hA hA' hAs hAs' hf (fun c hc => ?_) (fun c hc k => ?_) (fun c hc => ?_) (by rw [hL]; exact hcount) (b.range S.ttn) _ _
    (fun _ _ => rfl) (fun _ _ => rfl) ho
  · rw [on.inv.leaf c (hlt c hc), on'.inv.leaf c (hlt c hc)]
  · rw [on.dims c k (hlt c hc), on'.dims c k (hlt c hc)]
  · refine hr c (hlt c (List.mem_cons_of_mem _ (hbr c hc))) fun q => ?_
    rcases List.mem_cons.1 q with q | q
    · exact hnd.1 (q ▸ hbr c hc)
    · exact (List.disjoint_of_nodup_append hnd2) hc q

/-- What a propagation of the whole branch of `t` does: it propagates the state by `tau`, in the states that the variations of `t` span. -/
def Turned (cf : Config ℝ T ℂ) (coef : ℂ) (N : ℕ) (s0 : Obj T ℂ) (F0 : Forest) (E : ℂ) (h0 : Heap ℂ) (r0 : ℕ) (v : Fin (leafDims s0 F0).prod → ℂ)
    (t : ℕ) (tau : ℝ) (s s' : State ℝ (Ext T ℂ) ℂ) : Prop :=
  ∃ Ft, h0.IsTTN t Ft ∧ ∀ A0, h0.Full t A0 → ∃ (B : Matrix (Fin (leafDims s0 F0).prod) (Fin A0.shape.prod) ℂ) (y : Fin A0.shape.prod → ℂ),
    B.conjTranspose * B = 1 ∧ v = B.mulVec y ∧
    On cf N s0 F0 E h0 r0 (B.mulVec ((NormedSpace.exp (tau • (B.conjTranspose * (genMatrix s0 F0 coef (cf.initEnergy.getD 0) * B)))).mulVec y)) s' ∧
    (∃ U : Matrix (Fin A0.shape.prod) (Fin A0.shape.prod) ℂ, frameB s0 F0 s.heap t Ft A0.shape A0.shape.prod = B * U) ∧
    ∃ U : Matrix (Fin A0.shape.prod) (Fin A0.shape.prod) ℂ, frameB s0 F0 s'.heap t Ft A0.shape A0.shape.prod = B * U

/-- The branch of `t` is propagated, and back over its link. -/
theorem Setup.up2 (S : Setup cf coef s0 F0) (hi : h0.LinkInv) {s s1 : State ℝ (Ext T ℂ) ℂ} {tau : ℝ} {a fin j t : ℕ} (tn : Turned cf coef N s0 F0 E h0 r0 v t tau s s1)
    (hs1 : s1.root = t)
    (hb0 : h0.acc t a = some (fin, j)) (hl0 : h0.isLeaf fin = false) (hd0 : h0.hdim (t, a) = h0.hdim (fin, j)) {A0 : Nd ℂ} (hA0 : h0.Full t A0)
    (hw : A0.shape.getD a 1 = (A0.shape.eraseIdx a).prod) (c' : Bool) (fuel : ℕ) :
    ∃ s', Sweep.move (hooks cf) fuel s1 t a (some (splitProp (hooks cf) (-tau) c')) = .ok s' ∧ s'.root = fin ∧ On cf N s0 F0 E h0 r0 v s' ∧
      Rest h0 [t, fin] s1 s' := by
  subst hs1
  obtain ⟨Ft, ht, q⟩ := tn
  obtain ⟨B, y, hB, hv, on1, -, U, hU⟩ := q A0 hA0
  have hlt := hi.lt hb0
  have han : a < A0.shape.length := (hA0.acc a).1 (by rw [hb0]; simp)
  obtain ⟨t1, -⟩ := on1.tree ht
  obtain ⟨A, hA⟩ := t1.full s1.root (mem_tensors.2 ⟨.inl rfl, t1.leaf⟩)
  have hAs : A.shape = A0.shape := shape_eq hA0 hA (fun k => on1.inv.acc _ k) fun k => on1.dims _ k hlt.1
  obtain ⟨s', f1, f2, n, C, z, w, hn, hC, p1, -, p2, on2, hQ, -⟩ := S.move hi on1 hb0 hl0 hd0 hA0 hw.le (some (-tau, c')) fuel
  refine ⟨s', f1, f2, ?_, S.moveRest hi on1 hb0 hl0 f1⟩
  obtain ⟨Q, hQ⟩ := hQ Ft A A0.shape t1 hA hAs
  rw [hU, Matrix.mul_assoc] at hQ
  have hn' : A0.shape.prod = n := by
    rw [hn, hdim_full hA0.array, prod_eraseIdx han, ← hw]
  have := exp_cancel hn' B C hB hC (U * Q) hQ _ tau y z p1
  rw [← p2 (-tau) c' rfl, ← hv] at this
  rw [this] at on2
  exact on2

/-- Back over a link, and the branch at its end is propagated. -/
theorem Setup.down2 (S : Setup cf coef s0 F0) (hi : h0.LinkInv) {s : State ℝ (Ext T ℂ) ℂ} (on : On cf N s0 F0 E h0 r0 v s) {a fin j : ℕ}
    (hb0 : h0.acc s.root a = some (fin, j)) (hl0 : h0.isLeaf fin = false) (hd0 : h0.hdim (s.root, a) = h0.hdim (fin, j)) {A0 B0 : Nd ℂ} (hA0 : h0.Full s.root A0)
    (hw : A0.shape.getD a 1 ≤ (A0.shape.eraseIdx a).prod) (hB0 : h0.Full fin B0) (hw' : B0.shape.getD j 1 = (B0.shape.eraseIdx j).prod) (tau : ℝ) (c' : Bool) (fuel : ℕ) :
    ∃ s1 v1, Sweep.move (hooks cf) fuel s s.root a (some (splitProp (hooks cf) (-tau) c')) = .ok s1 ∧ s1.root = fin ∧ On cf N s0 F0 E h0 r0 v1 s1 ∧
      Rest h0 [s.root, fin] s s1 ∧ ∀ s', Turned cf coef N s0 F0 E h0 r0 v1 fin tau s1 s' → On cf N s0 F0 E h0 r0 v s' := by
  have hlt := hi.lt hb0
  obtain ⟨s1, f1, f2, n, C, z, w, hn, hC, p1, -, p2, on1, -, hQ⟩ := S.move hi on hb0 hl0 hd0 hA0 hw (some (-tau, c')) fuel
  refine ⟨s1, _, f1, f2, on1, S.moveRest hi on hb0 hl0 f1, fun s' tn => ?_⟩
  obtain ⟨Ft, ht, q⟩ := tn
  obtain ⟨B, y, hB, hv, on2, ⟨U, hU⟩, -⟩ := q B0 hB0
  obtain ⟨t1, -⟩ := on1.tree (by rw [f2]; exact ht)
  rw [f2] at t1
  obtain ⟨A, hA⟩ := t1.full fin (mem_tensors.2 ⟨.inl rfl, t1.leaf⟩)
  have hAs : A.shape = B0.shape := shape_eq hB0 hA (fun k => on1.inv.acc _ k) fun k => on1.dims _ k hlt.2
  have hjn : j < B0.shape.length := (hB0.acc j).1 (by rw [hi.sym _ _ _ _ hb0]; simp)
  obtain ⟨Q, hQ⟩ := hQ Ft A B0.shape t1 hA hAs
  rw [hU, Matrix.mul_assoc] at hQ
  have hn' : B0.shape.prod = n := by
    rw [hn, hd0, hdim_full hB0.array, prod_eraseIdx hjn, ← hw']
  rw [p2 (-tau) c' rfl] at hv
  have := exp_cancel' hn' B C hB hC (U * Q) hQ _ tau z y hv
  rw [this, ← p1] at on2
  exact on2

/-- A recursive call of `r_split_step` at a tensor below. -/
def RecurOk (cf : Config ℝ T ℂ) (coef : ℂ) (N : ℕ) (s0 : Obj T ℂ) (F0 : Forest) (E : ℂ) (h0 : Heap ℂ) (r0 : ℕ) (tau : ℝ)
    (recur : ℕ → ℕ → State ℝ (Ext T ℂ) ℂ → Res (State ℝ (Ext T ℂ) ℂ)) (id j : ℕ) (sub : Forest) : Prop :=
  ∀ (v : Fin (leafDims s0 F0).prod → ℂ) (s : State ℝ (Ext T ℂ) ℂ), On cf N s0 F0 E h0 r0 v s → s.root = id →
    ∃ s', recur id j s = .ok s' ∧ s'.root = id ∧ Rest h0 (id :: sub.ids) s s' ∧ Turned cf coef N s0 F0 E h0 r0 v id tau s s'

/-- The first loop of `branch_prop` gives the state back. -/
theorem Setup.loopF (S : Setup cf coef s0 F0) (hi : h0.LinkInv) (tau : ℝ) (F : Forest) (a : ℕ) (ha : h0.isLeaf a = false)
    (recur : ℕ → ℕ → State ℝ (Ext T ℂ) ℂ → Res (State ℝ (Ext T ℂ) ℂ))
    (hh : ∀ i id j, (i, id, j) ∈ F.heads → h0.acc a i = some (id, j)) (hc : ∀ e ∈ F.edges a, h0.isLeaf e.2.2.1 = false → EdgeOk h0 e)
    (hrec : ∀ i j id sub, F.Has i j id sub → h0.isLeaf id = false → RecurOk cf coef N s0 F0 E h0 r0 tau recur id j sub)
    {s : State ℝ (Ext T ℂ) ℂ} (on : On cf N s0 F0 E h0 r0 v s) (hs : s.root = a) :
    ∃ s', branchLoop (hooks cf) recur none (some (splitProp (hooks cf) (-tau) false)) a (F.heads.filter fun x => !(h0.isLeaf x.2.1)) s = .ok s' ∧
      s'.root = a ∧ On cf N s0 F0 E h0 r0 v s' ∧ Rest h0 (a :: F.ids) s s' := by
  induction F generalizing s with
  | nil => exact ⟨s, rfl, hs, on, fun _ _ _ => rfl⟩
  | cons i j id sub rest ih1 ih2 =>
    clear ih1
    have hb := hh i id j (by simp [Forest.heads])
    have hrest : ∀ i' id' j', (i', id', j') ∈ rest.heads → h0.acc a i' = some (id', j') := fun i' id' j' q =>
      hh i' id' j' (by simp [Forest.heads, q])
    have ih := @ih2 hrest (fun e he => hc e (by simp [Forest.edges, he])) (fun i' j' id' sub' q => hrec i' j' id' sub' (.inr q))
    simp only [Forest.heads, List.filter_cons]
    by_cases hl : h0.isLeaf id = false
    · simp only [hl, Bool.not_false, if_true]
      subst hs
      obtain ⟨A, B, c1, c2, c3, c4, c5⟩ := hc (s.root, i, id, j) (by simp [Forest.edges]) hl
      obtain ⟨s1, e1, e2, e3⟩ := S.walk hi on hb hl c5 c1 c3 0
      have r1 := S.moveRest hi on hb hl (o := none) e1
      obtain ⟨s2, f1, f2, r2, f3⟩ := hrec i j id sub (.inl ⟨rfl, rfl, rfl, rfl⟩) hl v s1 e3 e2
      obtain ⟨s4, k1, k2, k3, r3⟩ := S.up2 hi f3 f2 (hi.sym _ _ _ _ hb) ha c5.symm c2 c4 false 0
      obtain ⟨s5, l1, l2, l3, r4⟩ := ih k3 k2
      refine ⟨s5, ?_, l2, l3, ?_⟩
      · rw [branchLoop, e1]
        simp only [ok_bind]
        rw [f1]
        simp only [ok_bind]
        rw [k1]
        exact l1
      · refine Rest.trans (r1.trans r2 (L := s.root :: id :: sub.ids) ?_ ?_) (r3.trans r4 (L := s.root :: id :: rest.ids) ?_ ?_) ?_ ?_ <;>
          · intro c hc
            simp only [Forest.ids, List.mem_cons, List.mem_append, List.not_mem_nil, or_false] at hc ⊢
            tauto
    · have hl' : h0.isLeaf id = true := by simpa using hl
      simp only [hl', Bool.not_true, Bool.false_eq_true, if_false]
      obtain ⟨s5, l1, l2, l3, r4⟩ := ih on hs
      exact ⟨s5, l1, l2, l3, fun c hc q => r4 c hc fun q' => q (by simp only [Forest.ids, List.mem_cons, List.mem_append] at q' ⊢; tauto)⟩

/-- And so does the second. -/
theorem Setup.loopB (S : Setup cf coef s0 F0) (hi : h0.LinkInv) (tau : ℝ) (F : Forest) (a : ℕ) (ha : h0.isLeaf a = false)
    (recur : ℕ → ℕ → State ℝ (Ext T ℂ) ℂ → Res (State ℝ (Ext T ℂ) ℂ))
    (hh : ∀ i id j, (i, id, j) ∈ F.heads → h0.acc a i = some (id, j)) (hc : ∀ e ∈ F.edges a, h0.isLeaf e.2.2.1 = false → EdgeOk h0 e)
    (hrec : ∀ i j id sub, F.Has i j id sub → h0.isLeaf id = false → RecurOk cf coef N s0 F0 E h0 r0 tau recur id j sub)
    {s : State ℝ (Ext T ℂ) ℂ} (on : On cf N s0 F0 E h0 r0 v s) (hs : s.root = a) :
    ∃ s', branchLoop (hooks cf) recur (some (splitProp (hooks cf) (-tau) false)) none a (F.heads.filter fun x => !(h0.isLeaf x.2.1)) s = .ok s' ∧
      s'.root = a ∧ On cf N s0 F0 E h0 r0 v s' ∧ Rest h0 (a :: F.ids) s s' := by
  induction F generalizing s with
  | nil => exact ⟨s, rfl, hs, on, fun _ _ _ => rfl⟩
  | cons i j id sub rest ih1 ih2 =>
    clear ih1
    have hb := hh i id j (by simp [Forest.heads])
    have hrest : ∀ i' id' j', (i', id', j') ∈ rest.heads → h0.acc a i' = some (id', j') := fun i' id' j' q =>
      hh i' id' j' (by simp [Forest.heads, q])
    have ih := @ih2 hrest (fun e he => hc e (by simp [Forest.edges, he])) (fun i' j' id' sub' q => hrec i' j' id' sub' (.inr q))
    simp only [Forest.heads, List.filter_cons]
    by_cases hl : h0.isLeaf id = false
    · simp only [hl, Bool.not_false, if_true]
      subst hs
      obtain ⟨A, B, c1, c2, c3, c4, c5⟩ := hc (s.root, i, id, j) (by simp [Forest.edges]) hl
      obtain ⟨s1, v1, e1, e2, e3, r1, e4⟩ := S.down2 hi on hb hl c5 c1 c3 c2 c4 tau false 0
      obtain ⟨s2, f1, f2, r2, f3⟩ := hrec i j id sub (.inl ⟨rfl, rfl, rfl, rfl⟩) hl v1 s1 e3 e2
      have on2 := e4 s2 f3
      subst f2
      obtain ⟨s4, k1, k2, k3⟩ := S.walk hi on2 (hi.sym _ _ _ _ hb) ha c5.symm c2 c4.le 0
      have r3 := S.moveRest hi on2 (hi.sym _ _ _ _ hb) ha (o := none) k1
      obtain ⟨s5, l1, l2, l3, r4⟩ := ih k3 k2
      refine ⟨s5, ?_, l2, l3, ?_⟩
      · rw [branchLoop, e1]
        simp only [ok_bind]
        rw [f1]
        simp only [ok_bind]
        rw [k1]
        exact l1
      · refine Rest.trans (r1.trans r2 (L := s.root :: s2.root :: sub.ids) ?_ ?_) (r3.trans r4 (L := s.root :: s2.root :: rest.ids) ?_ ?_) ?_ ?_ <;>
          · intro c hc
            simp only [Forest.ids, List.mem_cons, List.mem_append, List.not_mem_nil, or_false] at hc ⊢
            tauto
    · have hl' : h0.isLeaf id = true := by simpa using hl
      simp only [hl', Bool.not_true, Bool.false_eq_true, if_false]
      obtain ⟨s5, l1, l2, l3, r4⟩ := ih on hs
      exact ⟨s5, l1, l2, l3, fun c hc q => r4 c hc fun q' => q (by simp only [Forest.ids, List.mem_cons, List.mem_append] at q' ⊢; tauto)⟩

theorem Has.of_rem {p i j id : ℕ} {sub F : Forest} (h : (F.rem p).Has i j id sub) : F.Has i j id sub := by
  induction F with
  | nil => exact h.elim
  | cons i' j' id' sub' rest _ ih =>
    rw [Forest.rem] at h
    by_cases q : i' = p
    · rw [if_pos q] at h; exact .inr (ih h)
    · rw [if_neg q] at h
      rcases h with h | h
      · exact .inl h
      · exact .inr (ih h)

/-- The two loops and the propagation between them, given the calls at the tensors below. -/
theorem Setup.rBody (S : Setup cf coef s0 F0) (hi : h0.LinkInv) (tau : ℝ) (F : Forest) (a : ℕ) (axis : Option ℕ)
    (recur : ℕ → ℕ → State ℝ (Ext T ℂ) ℂ → Res (State ℝ (Ext T ℂ) ℂ)) (hch : h0.children a axis true = F.heads)
    (ha : h0.isLeaf a = false) (hlt : a < h0.next)
    (hh : ∀ i id j, (i, id, j) ∈ F.heads → h0.acc a i = some (id, j)) (hc : ∀ e ∈ F.edges a, h0.isLeaf e.2.2.1 = false → EdgeOk h0 e)
    (hrec : ∀ i j id sub, F.Has i j id sub → h0.isLeaf id = false → RecurOk cf coef N s0 F0 E h0 r0 tau recur id j sub)
    {s : State ℝ (Ext T ℂ) ℂ} (on : On cf N s0 F0 E h0 r0 v s) (hs : s.root = a) (backward : Bool) :
    ∃ s', branchProp (hooks cf) recur a axis tau backward s = .ok s' ∧ s'.root = a ∧ On cf N s0 F0 E h0 r0 v s' ∧ Rest h0 (a :: F.ids) s s' := by
  have hch' : h0.children a axis false = F.heads.filter fun x => !(h0.isLeaf x.2.1) := by
    rw [Heap.children_false, hch]
  unfold branchProp
  rw [on.inv.children hi hlt, hch']
  cases backward with
  | false => exact S.loopF hi tau F a ha recur hh hc hrec on hs
  | true => exact S.loopB hi tau F a ha recur hh hc hrec on hs

/-- `r_split_step` of second order at a tensor below the root. -/
theorem Setup.rSecond (S : Setup cf coef s0 F0) (hi : h0.LinkInv) (fuel : ℕ) (tau : ℝ) (a p pj pid : ℕ) (Fa psub : Forest) (ht : h0.IsTTN a Fa)
    (hf : Fa.Has p pj pid psub) (hfu : (Fa.rem p).depth < fuel)
    (hc : ∀ e ∈ (Fa.rem p).edges a, h0.isLeaf e.2.2.1 = false → EdgeOk h0 e) :
    RecurOk cf coef N s0 F0 E h0 r0 tau (fun t j => rSplit (hooks cf) true fuel tau t (some j)) a p (Fa.rem p) := by
  induction fuel generalizing tau a p pj pid Fa psub with
  | zero => omega
  | succ f ih =>
    intro v s on hs
    have hw := ht.links.wf
    have hh : ∀ i id j, (i, id, j) ∈ (Fa.rem p).heads → h0.acc a i = some (id, j) := fun i id j q =>
      ht.tree.acc_of_mem_heads hw (by rw [Forest.heads_rem] at q; exact (List.mem_filter.1 q).1)
    have hrec : ∀ i j id sub, (Fa.rem p).Has i j id sub → h0.isLeaf id = false →
        RecurOk cf coef N s0 F0 E h0 r0 (tau / 2) (fun t j => rSplit (hooks cf) true f (tau / 2) t (some j)) id j sub := by
      intro i j id sub hfs hl
      obtain ⟨Ft, psub', g1, g2, g3⟩ := tree_below ht (Has.of_rem hfs) hl
      have := Has.depth hfs
      have := ih (tau / 2) id j i a Ft psub' g1 g2 (by rw [g3]; omega) (by rw [g3]; exact fun e he => hc e (Has.edges hfs a e he))
      rw [g3] at this
      exact this
    obtain ⟨s1, e1, e2, on1, r1⟩ := S.rBody hi (tau / 2) (Fa.rem p) a (some p) _ (children_rem ht) ht.leaf ht.lt hh hc hrec on hs false
    obtain ⟨A0, hA0⟩ := ht.full a (mem_tensors.2 ⟨.inl rfl, ht.leaf⟩)
    obtain ⟨t1, -⟩ := on1.tree (by rw [e2]; exact ht)
    obtain ⟨A, hA⟩ := t1.full s1.root (mem_tensors.2 ⟨.inl rfl, t1.leaf⟩)
    have hAs : A.shape = A0.shape := shape_eq (h := h0) (h' := s1.heap) (c := s1.root) (by rw [e2]; exact hA0) hA (fun k => on1.inv.acc _ k)
      fun k => on1.dims _ k (by rw [e2]; exact ht.lt)
    have hB := (on1.based S.fList t1).orth hA
    rw [hAs] at hB
    obtain ⟨s2, f1, f2, -, -, -, y, f6, on2⟩ := S.prop hi on1 tau true t1 hA hAs
    have r2 := S.propRest on1 f1
    obtain ⟨s3, g1, g2, on3, r3⟩ := S.rBody hi (tau / 2) (Fa.rem p) a (some p) _ (children_rem ht) ht.leaf ht.lt hh hc hrec on2 (f2.trans e2) true
    rw [e2] at f1 hB f6 on2 on3 r2
    have r23 : Rest h0 (a :: (Fa.rem p).ids) s1 s3 := r2.trans r3 (fun c q => by simp only [List.mem_singleton] at q; simp [q]) fun _ q => q
    refine ⟨s3, ?_, g2, r1.trans r23 (fun _ q => q) fun _ q => q, Fa, ht, fun A0' hA0' => ?_⟩
    · show rSplit (hooks cf) true (f + 1) tau a (some p) s = _
      rw [rSplit]
      simp only [if_true]
      rw [e1]
      simp only [ok_bind]
      rw [f1]
      exact g1
    · obtain rfl : A0 = A0' := Option.some.inj (hA0.array.symm.trans hA0'.array)
      refine ⟨_, y, hB, f6, on3, ?_, ?_⟩
      · exact S.sameFrame on1 on e2 hs ht hf hA0 hc fun c q1 q2 => (r1 c q1 q2).symm
      · exact S.sameFrame on1 on3 e2 g2 ht hf hA0 hc r23

/-- `r_split_step` of second order. -/
theorem Setup.rStep2 (S : Setup cf coef s0 F0) {F : Forest} (W : Whole s0 F0 h0 r0 F) {s : State ℝ (Ext T ℂ) ℂ} (on : OnJ cf N s0 F0 E h0 r0 v s)
    (hs : s.root = r0) {fuel : ℕ} (hfu : F.depth < fuel) (tau : ℝ) :
    ∃ s', rSplitStep (hooks cf) true fuel tau s = .ok s' ∧ s'.root = r0 ∧
      On cf N s0 F0 E h0 r0 ((NormedSpace.exp (tau • genMatrix s0 F0 coef (cf.initEnergy.getD 0))).mulVec v) s' := by
  subst hs
  obtain ⟨s1, e1, e2, on1⟩ := S.formEnv on
  have hi := W.ttn.links
  obtain ⟨A, hA, hAf⟩ := W.full
  have hh := fun i id j (q : (i, id, j) ∈ F.heads) => W.ttn.tree.acc_of_mem_heads W.ttn.links.wf q
  cases fuel with
  | zero => omega
  | succ f =>
    have hrec : ∀ i j id sub, F.Has i j id sub → h0.isLeaf id = false →
        RecurOk cf coef N s0 F0 E h0 s.root (tau / 2) (fun t j => rSplit (hooks cf) true f (tau / 2) t (some j)) id j sub := by
      intro i j id sub hfs hl
      obtain ⟨Ft, psub', g1, g2, g3⟩ := tree_below W.ttn hfs hl
      have := Has.depth hfs
      have := S.rSecond (N := N) (E := E) (r0 := s.root) hi f (tau / 2) id j i s.root Ft psub' g1 g2 (by rw [g3]; omega)
        (by rw [g3]; exact fun e he => W.edges e (Has.edges hfs _ e he))
      rw [g3] at this
      exact this
    obtain ⟨s2, f1, f2, on2, -⟩ := S.rBody hi (tau / 2) F s.root none _ W.ttn.tree.heads W.ttn.leaf W.ttn.lt hh W.edges hrec on1 e2 false
    obtain ⟨s3, g1, g2, on3⟩ := S.root hi on2 (A0 := A) (by rw [f2]; exact hA) (by rw [f2]; exact W.ttn.lt) hAf tau true
    obtain ⟨s4, k1, k2, on4, -⟩ := S.rBody hi (tau / 2) F s.root none _ W.ttn.tree.heads W.ttn.leaf W.ttn.lt hh W.edges hrec on3 (g2.trans f2) true
    refine ⟨s4, ?_, k2, on4⟩
    unfold rSplitStep
    rw [e1]
    simp only [ok_bind]
    rw [e2, rSplit]
    simp only [if_true]
    rw [f1]
    simp only [ok_bind]
    rw [f2] at g1
    rw [g1]
    exact k1

end SplitProp
