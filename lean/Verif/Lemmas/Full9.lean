import Verif.Lemmas.Full8
import Verif.Lemmas.AbsorbPair
import Verif.Lemmas.SweepDetail2
import Verif.Props.C27

/-! The sweep over pairs of tensors of a network with complete bases, for C134. -/

open scoped BigOperators
open Py

namespace SplitProp

open Heap ML Sweep

variable {T : Type} [Zero T]

/-- The assumptions with those on the decomposition of the pairs. -/
structure SetupU (cf : Config ℝ T ℂ) (coef : ℂ) (s0 : Obj T ℂ) (F0 : Forest) : Prop extends Setup cf coef s0 F0 where
  svdU : SvdShape cf.svdU
  isoU : SvdIso cf.svdU
  exactU : SvdExact cf.svdU
  fullU : SvdFull cf.svdU

variable {cf : Config ℝ T ℂ} {coef : ℂ} {s0 : Obj T ℂ} {F0 : Forest} {N : ℕ} {E : ℂ} {h0 : Heap ℂ} {r0 : ℕ} {v : Fin (leafDims s0 F0).prod → ℂ}

theorem SetupU.goodI (S : SetupU cf coef s0 F0) (N : ℕ) (E : ℂ) :
    (hooks cf).GoodI (Held' cf N s0 F0 E) fun x h r => Good (Call.Right cf) N x h r ∧ Keep s0 F0 E x h r :=
  SplitProp.goodI_keep N cf S.svd S.iso S.exact S.svdU S.isoU S.exactU (by rw [S.solver]; exact C127_exact) S.ne S.hcoef S.energy S.sqrt S.ttn S.fList S.gen

/-- One pair. -/
theorem SetupU.pair (S : SetupU cf coef s0 F0) {Fw : Forest} (h00 : h0.IsTTN r0 Fw) {s : State ℝ (Ext T ℂ) ℂ} (on : On cf N s0 F0 E h0 r0 v s) {t a fin j : ℕ}
    (hb0 : h0.acc t a = some (fin, j)) (ht0 : h0.isLeaf t = false) (hl0 : h0.isLeaf fin = false) (hroot : s.root = t ∨ s.root = fin)
    (hd0 : h0.hdim (t, a) = h0.hdim (fin, j)) {A0 B0 : Nd ℂ} (hA0 : h0.Full t A0) (hB0 : h0.Full fin B0)
    (hw : A0.shape.getD a 1 = (A0.shape.eraseIdx a).prod) (hw' : B0.shape.getD j 1 ≤ (B0.shape.eraseIdx j).prod) (tau : ℝ) (c : Bool) {fuel : ℕ}
    (hfu : Fw.ids.length < fuel) :
    ∃ s', Sweep.move (hooks cf) fuel s t a (some (splitProp (hooks cf) tau c)) true = .ok s' ∧ s'.root = fin ∧
      ∃ (n : ℕ) (C : Matrix (Fin (leafDims s0 F0).prod) (Fin n) ℂ) (z : Fin n → ℂ), n = B0.shape.prod ∧
        C.conjTranspose * C = 1 ∧ v = C.mulVec z ∧
        On cf N s0 F0 E h0 r0 (C.mulVec ((NormedSpace.exp (tau • (C.conjTranspose * (genMatrix s0 F0 coef (cf.initEnergy.getD 0) * C)))).mulVec z)) s' ∧
        (∀ F A shape, s'.heap.IsTTN fin F → s'.heap.Full fin A → A.shape = shape →
          ∃ Q : Matrix (Fin n) (Fin shape.prod) ℂ, frameB s0 F0 s'.heap fin F shape shape.prod = C * Q) := by
  have hi := h00.links
  obtain ⟨s', e1, e2, iv', Fr, F, h1, mid, F1, st, A, B, htr, ht, hA, hB, m, mt, hr1, hI1, o1, gc, oI, ⟨nr, es⟩, ⟨op, mv⟩, hs3⟩ :=
    unite_detail (S.goodI N E) h00 on.inv hb0 ht0 hl0 hroot (some (tau, c)) hfu
  have hlt := hi.lt hb0
  have hb : s.heap.acc t a = some (fin, j) := by rw [on.inv.acc]; exact hb0
  have hl : s.heap.isLeaf fin = false := by rw [on.inv.leaf _ hlt.2]; exact hl0
  have hAs : A.shape = A0.shape := shape_eq hA0 hA (fun k => on.inv.acc _ k) fun k => on.dims _ k hlt.1
  have hBs : B.shape = B0.shape := shape_eq hB0 hB (fun k => on.inv.acc _ k) fun k => on.dims _ k hlt.2
  have han : a < A.ndim := (hA.acc a).1 (by rw [hb]; simp)
  have hjn : j < B.ndim := (hB.acc j).1 (by rw [ht.links.sym _ _ _ _ hb]; simp)
  have hltS := ht.links.lt hb
  have hfr := m.fresh
  have htm : t ≠ mid := by omega
  have hfm : fin ≠ mid := by omega
  have hft : fin ≠ t := by
    intro q
    have hT : t ∈ s.heap.tensors t F := mem_tensors.2 ⟨.inl rfl, ht.leaf⟩
    exact (ht.isNet.simple t hT a fin j hb (by rw [q]; exact hT)).1 q
  obtain ⟨M, hM, hMn⟩ := m.fullMid
  have hMs := m.shape hA hB han hjn hM
  obtain ⟨M2, m1, m2, m3⟩ := gc.array M hM.array
  have t2 := ttn_change mt.ttn gc
  have hM2 : st.heap.Full mid M2 := by
    obtain ⟨D, hD⟩ := t2.full mid (mem_tensors.2 ⟨.inl rfl, t2.leaf⟩)
    have := hD.array
    rw [m1] at this
    cases this
    exact hD
  have hlenB : (B.shape.eraseIdx j).length = B.ndim - 1 := by
    rw [List.length_eraseIdx_of_lt hjn]
  have hnext : st.heap.next = h1.next := gc.next
  have hlt1 := m.lt
  have hord : s.heap.order fin = B.ndim := hB.order ht.links.wf
  have hrank : s'.heap.hdim (t, a) = h0.hdim (t, a) := by
    rw [split_rank_many (l := A.shape.take a) (r := A.shape.drop (a + 1)) (b := B.shape.eraseIdx j) S.svdU S.fullU t2.links hM2 (by omega) (by omega) (by rw [m3, hMs])
      (by rw [List.length_take]; exact min_eq_left (Nat.le_of_lt han)) (by rw [hlenB, hord]) (by omega) hft es,
      ← List.eraseIdx_eq_take_drop_succ, hAs, hBs, ← hw, hdim_full hA0.array]
    refine min_eq_right (le_trans (le_of_eq ?_) hw')
    rw [← hdim_full hA0.array, ← hdim_full hB0.array]
    exact hd0
  have hMp : M.shape.prod = B0.shape.prod := by
    have hjn0 : j < B0.shape.length := by rw [← hBs]; exact hjn
    rw [hMs, hAs, hBs, prod_eraseIdx hjn0, ← hdim_full hB0.array, ← hd0, hdim_full hA0.array, hw, List.eraseIdx_eq_take_drop_succ (l := A0.shape)]
    simp only [List.prod_append]
    ring
  have b0 : Based s0 F0 s.ext s.heap s.root Fr := on.based S.fList htr
  have b1 : Based s0 F0 ((hooks cf).removeEnv s.ext s.heap [t, fin]) h1 mid F1 := Keep.based S.fList mt.ttn hI1.1.toGood hI1.2
  have b2 : Based s0 F0 st.ext st.heap mid F1 := Keep.based S.fList t2 oI.1.toGood oI.2
  obtain ⟨F', t3, r3, p3⟩ := iv'.ttn
  rw [e2] at t3 r3 p3
  obtain ⟨p1, p2⟩ := m.state ht mt.ttn hA hB hb hl
  obtain ⟨s1, s2, s3⟩ := (on.inv.inv.2.state Fr htr).seen htr ht hroot hb
  obtain ⟨p4, p5⟩ := m.split_state S.exactU ht mt.ttn hA hB hb hl gc mv t3 hs3
  have hC := b1.orth hM
  obtain ⟨w, w2, w3⟩ : ∃ w : Fin M.shape.prod → ℂ,
      w = (NormedSpace.exp (tau • ((frameB s0 F0 h1 mid F1 M.shape M.shape.prod).conjTranspose *
        (genMatrix s0 F0 coef (cf.initEnergy.getD 0) * frameB s0 F0 h1 mid F1 M.shape M.shape.prod)))).mulVec (asVec M.shape.prod M.data) ∧
      amps s0 F0 (st.heap.treeAmp mid F1) = (frameB s0 F0 h1 mid F1 M.shape M.shape.prod).mulVec w := by
    obtain ⟨x', h', q1, q2, A', q3, q4, q5, q6⟩ := evolve_frame cf S.solver S.ne S.hcoef S.energy S.sqrt S.ttn S.gen tau c hr1 hI1.1 b1 hM
    have o1' : splitProp (hooks cf) tau c { Sweep.removeEnv (hooks cf) s [t, fin] with heap := h1 } mid = .ok st := o1
    unfold splitProp at o1'
    rw [if_neg (by simp [m.axis]), show (hooks cf).evolve ({ Sweep.removeEnv (hooks cf) s [t, fin] with heap := h1 } : State ℝ (Ext T ℂ) ℂ).ext
      ({ Sweep.removeEnv (hooks cf) s [t, fin] with heap := h1 } : State ℝ (Ext T ℂ) ℂ).heap mid tau c = .ok (x', h') from q1] at o1'
    have he := Except.ok.inj o1'
    have hheap : st.heap = h' := by rw [← he]
    refine ⟨asVec M.shape.prod A'.data, q6, ?_⟩
    have b2' := b2.self S.ttn (A := A') (by rw [hheap]; exact q3)
    rw [b2', hheap, q4, q5]
  refine ⟨s', e1, e2, M.shape.prod, frameB s0 F0 h1 mid F1 M.shape M.shape.prod, asVec M.shape.prod M.data, hMp, hC, ?_, ⟨iv', ?_, ?_⟩, ?_⟩
  · rw [← on.amp Fr htr, ← b1.self S.ttn hM]
    refine (amps_congr S.ttn b0.leaves fun x hx => ?_).symm
    rw [p2 x fun p hp => hx p (s2.mem_iff.1 hp), s3 x hx]
  · intro c k hc
    have hcm : c ≠ mid := by have := on.inv.mono; omega
    by_cases q1 : c = t
    · subst q1
      by_cases q2 : k = a
      · subst q2; exact hrank
      · rw [mv.dimsSelf k q2, on.dims _ _ hc]
    · by_cases q2 : c = fin
      · subst q2
        by_cases q3 : k = j
        · subst q3; rw [← mv.dims, hrank, hd0]
        · rw [mv.dimsFin k q3, on.dims _ _ hc]
      · rw [hdim_congr (mv.otherAxis c q1 q2 hcm).2, on.dims _ _ hc]
  · intro F2 hF2
    rw [e2] at hF2 ⊢
    obtain rfl := t3.tree.unique hF2.tree
    rw [← w2, ← w3]
    exact amps_congr S.ttn b2.leaves p5
  · intro F2 A2 shape hF2 hA2 hsh
    subst hsh
    obtain rfl := t3.tree.unique hF2.tree
    refine exists_factor _ _ fun k => ?_
    obtain ⟨Z, z1, z2, z3⟩ := m.absorb S.svdU ht mt.ttn hA hB hb hl gc mv t3 r3 p3 m1 (unitNd_wf A2.shape k) hA2.array rfl
    have hz := b1.amps S.ttn hM (Y := Z) (z2.trans m3)
    exact ⟨_, (funext fun i => (z3 _ (b2.range S.ttn i)).trans (variation_same gc _ F1 _)).trans hz⟩

/-- A pair, and its second tensor back. -/
theorem SetupU.pairBack (S : SetupU cf coef s0 F0) {Fw : Forest} (h00 : h0.IsTTN r0 Fw) {s : State ℝ (Ext T ℂ) ℂ} (on : On cf N s0 F0 E h0 r0 v s) {t a fin j : ℕ}
    (hb0 : h0.acc t a = some (fin, j)) (ht0 : h0.isLeaf t = false) (hl0 : h0.isLeaf fin = false) (hroot : s.root = t ∨ s.root = fin)
    (hd0 : h0.hdim (t, a) = h0.hdim (fin, j)) {A0 B0 : Nd ℂ} (hA0 : h0.Full t A0) (hB0 : h0.Full fin B0)
    (hw : A0.shape.getD a 1 = (A0.shape.eraseIdx a).prod) (hw' : B0.shape.getD j 1 ≤ (B0.shape.eraseIdx j).prod) (tau : ℝ) (c c' : Bool) {fuel : ℕ}
    (hfu : Fw.ids.length < fuel) :
    ∃ s1 s', Sweep.move (hooks cf) fuel s t a (some (splitProp (hooks cf) tau c)) true = .ok s1 ∧
      splitProp (hooks cf) (-tau) c' s1 fin = .ok s' ∧ s'.root = fin ∧ On cf N s0 F0 E h0 r0 v s' := by
  have hi := h00.links
  obtain ⟨s1, f1, f2, n, C, z, hn, hC, p1, on1, hQ⟩ := S.pair h00 on hb0 ht0 hl0 hroot hd0 hA0 hB0 hw hw' tau c hfu
  obtain ⟨F, ht, hr, -⟩ := on1.inv.ttn
  obtain ⟨A, hA⟩ := ht.full s1.root (mem_tensors.2 ⟨.inl rfl, ht.leaf⟩)
  have hAs : A.shape = B0.shape := shape_eq (h := h0) (h' := s1.heap) (c := s1.root) (by rw [f2]; exact hB0) hA (fun k => on1.inv.acc _ k)
    fun k => on1.dims _ k (by rw [f2]; exact (hi.lt hb0).2)
  have hB := (on1.based S.fList ht).orth hA
  rw [hAs] at hB
  obtain ⟨s', e1, e2, -, -, -, y, e6, on2⟩ := S.prop hi on1 (-tau) c' ht hA hAs
  obtain ⟨Q, hQ⟩ := hQ F A B0.shape (f2 ▸ ht) (f2 ▸ hA) hAs
  rw [← f2] at hQ
  refine ⟨s1, s', f1, f2 ▸ e1, e2.trans f2, ?_⟩
  have := exp_cancel hn C _ hC hB Q hQ _ tau z y e6
  rw [this, ← p1] at on2
  exact on2

/-- A pair with as many entries as there are configurations. -/
theorem SetupU.pairFull (S : SetupU cf coef s0 F0) {Fw : Forest} (h00 : h0.IsTTN r0 Fw) {s : State ℝ (Ext T ℂ) ℂ} (on : On cf N s0 F0 E h0 r0 v s) {t a fin j : ℕ}
    (hb0 : h0.acc t a = some (fin, j)) (ht0 : h0.isLeaf t = false) (hl0 : h0.isLeaf fin = false) (hroot : s.root = t ∨ s.root = fin)
    (hd0 : h0.hdim (t, a) = h0.hdim (fin, j)) {A0 B0 : Nd ℂ} (hA0 : h0.Full t A0) (hB0 : h0.Full fin B0)
    (hw : A0.shape.getD a 1 = (A0.shape.eraseIdx a).prod) (hw' : B0.shape.getD j 1 ≤ (B0.shape.eraseIdx j).prod)
    (hfull : B0.shape.prod = (leafDims s0 F0).prod) (tau : ℝ) (c : Bool) {fuel : ℕ} (hfu : Fw.ids.length < fuel) :
    ∃ s', Sweep.move (hooks cf) fuel s t a (some (splitProp (hooks cf) tau c)) true = .ok s' ∧ s'.root = fin ∧
      On cf N s0 F0 E h0 r0 ((NormedSpace.exp (tau • genMatrix s0 F0 coef (cf.initEnergy.getD 0))).mulVec v) s' := by
  obtain ⟨s', f1, f2, n, C, z, hn, hC, p1, on1, -⟩ := S.pair h00 on hb0 ht0 hl0 hroot hd0 hA0 hB0 hw hw' tau c hfu
  refine ⟨s', f1, f2, ?_⟩
  rw [Matrix.mulVec_mulVec, exp_frame (hn.trans hfull) _ hC, ← Matrix.mulVec_mulVec, ← p1] at on1
  exact on1

/-- The walk of `unite_step`. -/
theorem SetupU.uni (S : SetupU cf coef s0 F0) {Fw : Forest} (h00 : h0.IsTTN r0 Fw) (tau : ℝ) {fuel : ℕ} (hfu : Fw.ids.length < fuel)
    (origin : ℕ) (hfull : ∀ A0, h0.Full origin A0 → A0.shape.prod = (leafDims s0 F0).prod)
    (F : Forest) (a : ℕ) (hrep : F.RepIn h0) (hle : F.LeafEnd h0) (hnd : (a :: F.ids).Nodup) (ho : origin ∉ F.ids)
    (hh : ∀ i id j, (i, id, j) ∈ F.heads → h0.acc a i = some (id, j)) (ha : h0.isLeaf a = false)
    (hed : ∀ e ∈ F.edges a, h0.isLeaf e.2.2.1 = false → EdgeOk h0 e)
    {v : Fin (leafDims s0 F0).prod → ℂ} {s : State ℝ (Ext T ℂ) ℂ} (on : On cf N s0 F0 E h0 r0 v s) (hs : s.root = a) {c : Dict ℕ ℤ} (hc : Counted h0 c F)
    (hca : c.get? a = some (count (fun t => !(h0.isLeaf t)) F : ℤ)) :
    ∃ s' c', (F.euler (fun t => !(h0.isLeaf t)) a).foldlM (unitePass (hooks cf) fuel tau origin) (s, c) = .ok (s', c') ∧ s'.root = a ∧
      On cf N s0 F0 E h0 r0 (if a = origin ∧ 0 < count (fun t => !(h0.isLeaf t)) F then
        (NormedSpace.exp (tau • genMatrix s0 F0 coef (cf.initEnergy.getD 0))).mulVec v else v) s' ∧ c'.get? a = some 0 ∧
      (∀ x ∈ F.ids, h0.isLeaf x = false → c'.get? x = some 0) ∧ (∀ x, x ∉ a :: F.ids → c'.get? x = c.get? x) ∧
      c'.keys = c.keys := by
  have hi := h00.links
  induction F generalizing a s c v with
  | nil => exact ⟨s, c, rfl, hs, by simpa [count, Forest.heads] using on, hca, by simp [Forest.ids], fun _ _ => rfl, rfl⟩
  | cons i j id sub rest ih1 ih2 =>
    obtain ⟨p1, p2, p3⟩ := hrep
    obtain ⟨l1, l2, l3⟩ := hle
    obtain ⟨c1, c2, c3⟩ := hc
    simp only [Forest.ids, List.cons_append, List.mem_cons, List.mem_append, not_or] at ho
    have ed1 : ∀ e ∈ sub.edges id, h0.isLeaf e.2.2.1 = false → EdgeOk h0 e := fun e q => hed e (by simp [Forest.edges, q])
    have ed2 : ∀ e ∈ rest.edges a, h0.isLeaf e.2.2.1 = false → EdgeOk h0 e := fun e q => hed e (by simp [Forest.edges, q])
    have hb := hh i id j (by simp [Forest.heads])
    have hrest : ∀ i' id' j', (i', id', j') ∈ rest.heads → h0.acc a i' = some (id', j') := fun i' id' j' q =>
      hh i' id' j' (by simp [Forest.heads, q])
    simp only [Forest.ids, List.cons_append, List.nodup_cons, List.mem_cons, List.mem_append, not_or, List.nodup_append] at hnd
    obtain ⟨⟨n1, n2, n3⟩, ⟨n4, n5⟩, n6, n7, n8⟩ := hnd
    have ndsub : (id :: sub.ids).Nodup := List.nodup_cons.2 ⟨n4, n6⟩
    have ndrest : (a :: rest.ids).Nodup := List.nodup_cons.2 ⟨n3, n7⟩
    rw [count_cons] at hca
    simp only [Forest.euler, count_cons]
    by_cases hl : h0.isLeaf id = false
    · simp only [hl, Bool.not_false, if_true, List.cons_append, List.append_assoc, List.foldlM_cons, List.foldlM_append,
        List.foldlM_nil] at hca ⊢
      have hcid := c1 hl
      obtain ⟨A0, B0, hA0, hB0, hw, hw', hd0⟩ := hed (a, i, id, j) (by simp [Forest.edges]) hl
      simp only at hA0 hB0 hw hw' hd0
      -- down, and the branch
      obtain ⟨s1, s2, c', d1, d2, d3, d4, d5, d6, d7, d8⟩ : ∃ s1 s2 c',
          unitePass (hooks cf) fuel tau origin (s, c) (false, a, i, id, j) = .ok (s1, c) ∧
          (sub.euler (fun t => !(h0.isLeaf t)) id).foldlM (unitePass (hooks cf) fuel tau origin) (s1, c) = .ok (s2, c') ∧
          (s2.root = id ∨ s2.root = a) ∧ On cf N s0 F0 E h0 r0 v s2 ∧
          c'.get? id = some 0 ∧ (∀ x ∈ sub.ids, h0.isLeaf x = false → c'.get? x = some 0) ∧
          (∀ x, x ∉ id :: sub.ids → c'.get? x = c.get? x) ∧ c'.keys = c.keys := by
        by_cases h0c : count (fun t => !(h0.isLeaf t)) sub = 0
        · obtain ⟨z1, -, z3⟩ := count_zero l2 h0c tau origin id
          rw [h0c] at hcid
          refine ⟨s, s, c, ?_, by rw [z1]; rfl, Or.inr hs, on, hcid, ?_, fun _ _ => rfl, rfl⟩
          · simp [unitePass, Dict.get!, hcid]
          · intro x hx hx'; rw [z3 x hx] at hx'; cases hx'
        · subst hs
          obtain ⟨s1, e1, e2, on1⟩ := S.walk hi on hb hl hd0 hA0 hw fuel
          obtain ⟨s2, c', f1, f2, f3, f4, f5, f6, f7⟩ := ih1 id p2 l2 ndsub ho.2.1 (Sweep.heads_sub hi.wf p1) hl ed1 on1 e2 c2 hcid
          rw [if_neg (fun q => ho.1 q.1.symm)] at f3
          refine ⟨s1, s2, c', ?_, f1, Or.inl f2, f3, f4, f5, f6, f7⟩
          have e1' : Sweep.move (hooks cf) fuel s s.root i none = .ok s1 := e1
          have : (count (fun t => !(h0.isLeaf t)) sub : ℤ) > 0 := by omega
          simp only [unitePass, Dict.get!, hcid, Bool.not_false, if_true, ok_bind, this, e1', pure_eq_ok]
      -- up
      have hca' : c'.get? a = some (1 + count (fun t => !(h0.isLeaf t)) rest : ℤ) := by
        rw [d7 a (by simp only [List.mem_cons, not_or]; exact ⟨n1, n2⟩), hca]; simp
      -- `inv_prop` unless this was the last branch of `origin`
      have hgs : (c'.set a (count (fun t => !(h0.isLeaf t)) rest : ℤ)).get? a =
          some (count (fun t => !(h0.isLeaf t)) rest : ℤ) := by rw [Dict.get?_set, if_pos rfl]
      obtain ⟨s4, k1, k2, k3⟩ : ∃ s4, unitePass (hooks cf) fuel tau origin (s2, c') (true, id, j, a, i) =
            .ok (s4, c'.set a (count (fun t => !(h0.isLeaf t)) rest : ℤ)) ∧ s4.root = a ∧
          On cf N s0 F0 E h0 r0 (if a ≠ origin ∨ 0 < count (fun t => !(h0.isLeaf t)) rest then v else
            (NormedSpace.exp (tau • genMatrix s0 F0 coef (cf.initEnergy.getD 0))).mulVec v) s4 := by
        have hd : (1 + (count (fun t => !(h0.isLeaf t)) rest : ℤ)) - 1 = count (fun t => !(h0.isLeaf t)) rest := by omega
        by_cases hcond : a ≠ origin ∨ 0 < count (fun t => !(h0.isLeaf t)) rest
        · obtain ⟨s3, s4, g1', m1, m2, m3⟩ := S.pairBack h00 d4 (hi.sym _ _ _ _ hb) hl ha d3 hd0.symm hB0 hA0 hw' hw tau true true hfu
          refine ⟨s4, ?_, m2, by rw [if_pos hcond]; exact m3⟩
          have hcond' : a ≠ origin ∨ (count (fun t => !(h0.isLeaf t)) rest : ℤ) > 0 := by omega
          simp only [unitePass, Dict.get!, decr, Bool.not_true, Bool.false_eq_true, if_false, g1', ok_bind, hca',
            pure_eq_ok, hd, hgs]
          rw [if_pos hcond', m1]
          rfl
        · have hao : a = origin := by by_contra q; exact hcond (.inl q)
          obtain ⟨s3, g1', g2, g3⟩ := S.pairFull h00 d4 (hi.sym _ _ _ _ hb) hl ha d3 hd0.symm hB0 hA0 hw' hw (hfull A0 (hao ▸ hA0)) tau true hfu
          refine ⟨s3, ?_, g2, by rw [if_neg hcond]; exact g3⟩
          have hcond' : ¬ (a ≠ origin ∨ (count (fun t => !(h0.isLeaf t)) rest : ℤ) > 0) := by omega
          simp only [unitePass, Dict.get!, decr, Bool.not_true, Bool.false_eq_true, if_false, g1', ok_bind, hca',
            pure_eq_ok, hd, hgs]
          rw [if_neg hcond']
      -- the other branches
      have crest : Counted h0 (c'.set a (count (fun t => !(h0.isLeaf t)) rest : ℤ)) rest := by
        refine c3.congr fun x hx => ?_
        have hxa : x ≠ a := by rintro rfl; exact n3 hx
        rw [Dict.get?_set, if_neg (Ne.symm hxa), d7]
        simp only [List.mem_cons, not_or]
        exact ⟨fun q => n5 (q ▸ hx), fun q => n8 x q x hx rfl⟩
      obtain ⟨s5, c5, o1, o2, o3, o4, o5, o6, o7⟩ := ih2 a p3 l3 ndrest ho.2.2 hrest ha ed2 k3 k2 crest hgs
      refine ⟨s5, c5, ?_, o2, ?_, o4, ?_, ?_, ?_⟩
      · rw [d1]
        simp only [ok_bind]
        rw [d2]
        simp only [ok_bind]
        rw [k1]
        exact o1
      · have e : (if a = origin ∧ 0 < 1 + count (fun t => !(h0.isLeaf t)) rest then
            (NormedSpace.exp (tau • genMatrix s0 F0 coef (cf.initEnergy.getD 0))).mulVec v else v) =
          if a = origin ∧ 0 < count (fun t => !(h0.isLeaf t)) rest then
            (NormedSpace.exp (tau • genMatrix s0 F0 coef (cf.initEnergy.getD 0))).mulVec
              (if a ≠ origin ∨ 0 < count (fun t => !(h0.isLeaf t)) rest then v else
                (NormedSpace.exp (tau • genMatrix s0 F0 coef (cf.initEnergy.getD 0))).mulVec v) else
            (if a ≠ origin ∨ 0 < count (fun t => !(h0.isLeaf t)) rest then v else
              (NormedSpace.exp (tau • genMatrix s0 F0 coef (cf.initEnergy.getD 0))).mulVec v) := by
          by_cases q1 : a = origin
          · by_cases q2 : 0 < count (fun t => !(h0.isLeaf t)) rest
            · simp [q1, q2]
            · simp [q1, q2]
          · simp [q1]
        rw [e]
        exact o3
      · intro x hx hxl
        have key : x ∉ rest.ids → x ≠ a → c'.get? x = some 0 → c5.get? x = some 0 := by
          intro q1 q2 q3
          rw [o6 x (by simp only [List.mem_cons, not_or]; exact ⟨q2, q1⟩), Dict.get?_set, if_neg (Ne.symm q2)]
          exact q3
        simp only [Forest.ids, List.cons_append, List.mem_cons, List.mem_append] at hx
        rcases hx with rfl | hx | hx
        · exact key n5 (Ne.symm n1) d5
        · exact key (fun q => n8 x hx x q rfl) (fun q => n2 (q ▸ hx)) (d6 x hx hxl)
        · exact o5 x hx hxl
      · intro x hx
        simp only [Forest.ids, List.cons_append, List.mem_cons, List.mem_append, not_or] at hx
        obtain ⟨x1, x2, x3, x4⟩ := hx
        rw [o6 x (by simp only [List.mem_cons, not_or]; exact ⟨x1, x4⟩), Dict.get?_set, if_neg (Ne.symm x1),
          d7 x (by simp only [List.mem_cons, not_or]; exact ⟨x2, x3⟩)]
      · rw [o7, keys_set_of_mem hca', d8]
    · have hl' : h0.isLeaf id = true := by simpa using hl
      simp only [hl', Bool.not_true, Bool.false_eq_true, if_false, List.nil_append] at hca ⊢
      obtain ⟨s5, c5, o1, o2, o3, o4, o5, o6, o7⟩ := ih2 a p3 l3 ndrest ho.2.2 hrest ha ed2 on hs c3 (by simpa using hca)
      have := l1 hl'
      subst this
      refine ⟨s5, c5, o1, o2, by rw [Nat.zero_add]; exact o3, o4, ?_, ?_, o7⟩
      · intro x hx hxl
        simp only [Forest.ids, List.cons_append, List.nil_append, List.mem_cons] at hx
        rcases hx with rfl | hx
        · rw [hl'] at hxl; cases hxl
        · exact o5 x hx hxl
      · intro x hx
        simp only [Forest.ids, List.cons_append, List.nil_append, List.mem_cons, not_or] at hx
        exact o6 x (by simp only [List.mem_cons, not_or]; exact ⟨hx.1, hx.2.2⟩)

theorem count_congr {p q : ℕ → Bool} {F : Forest} (h : ∀ x ∈ F.ids, p x = q x) : count p F = count q F := by
  induction F with
  | nil => rfl
  | cons i j id sub rest ih1 ih2 =>
    rw [count_cons, count_cons, h id (by simp [Forest.ids]), ih2 fun x hx => h x (by simp [Forest.ids, hx])]

theorem counted_congr {h h' : Heap ℂ} {c : Dict ℕ ℤ} {F : Forest} (hc : Counted h c F) (e : ∀ x ∈ F.ids, h'.isLeaf x = h.isLeaf x) : Counted h' c F := by
  induction F with
  | nil => trivial
  | cons i j id sub rest ih1 ih2 =>
    obtain ⟨c1, c2, c3⟩ := hc
    have e1 : ∀ x ∈ sub.ids, h'.isLeaf x = h.isLeaf x := fun x hx => e x (by simp [Forest.ids, hx])
    refine ⟨fun hl => ?_, ih1 c2 e1, ih2 c3 fun x hx => e x (by simp [Forest.ids, hx])⟩
    rw [c1 (by rw [← e id (by simp [Forest.ids])]; exact hl), count_congr (q := fun t => !(h'.isLeaf t)) fun x hx => by rw [e1 x hx]]

theorem euler_congr {p q : ℕ → Bool} {F : Forest} (h : ∀ x ∈ F.ids, p x = q x) (a : ℕ) : F.euler p a = F.euler q a := by
  induction F generalizing a with
  | nil => rfl
  | cons i j id sub rest ih1 ih2 =>
    simp only [Forest.euler]
    rw [ih1 (fun x hx => h x (by simp [Forest.ids, hx])) id, ih2 (fun x hx => h x (by simp [Forest.ids, hx])) a, h id (by simp [Forest.ids])]

theorem head_edge {F : Forest} {x : ℕ × ℕ × ℕ} (h : x ∈ F.heads) (a : ℕ) : (a, x.1, x.2.1, x.2.2) ∈ F.edges a := by
  induction F with
  | nil => simp [Forest.heads] at h
  | cons i j id sub rest ih1 ih2 =>
    simp only [Forest.heads, List.mem_cons] at h
    rcases h with rfl | h
    · simp [Forest.edges]
    · simp [Forest.edges, ih2 h]

/-- `unite_step`. -/
theorem SetupU.uniteStep (S : SetupU cf coef s0 F0) {F : Forest} (W : Whole s0 F0 h0 r0 F)
    {s : State ℝ (Ext T ℂ) ℂ} (on : OnJ cf N s0 F0 E h0 r0 v s) (hs : s.root = r0) {fuel : ℕ} (hfu : F.ids.length < fuel) (tau : ℝ) :
    ∃ s', Sweep.uniteStep (hooks cf) fuel tau false s = .ok s' ∧ s'.root = r0 ∧
      On cf N s0 F0 E h0 r0 (if h0.bonds r0 F = [] then v else
        (NormedSpace.exp (tau • genMatrix s0 F0 coef (cf.initEnergy.getD 0))).mulVec v) s' := by
  subst hs
  obtain ⟨s1, e1, e2, on1⟩ := S.formEnv on
  have hi := W.ttn.links
  obtain ⟨A, hA, hAf⟩ := W.full
  obtain ⟨t1, r1⟩ := on1.tree (by rw [e2]; exact W.ttn)
  have hleaf : ∀ c ∈ s.root :: F.ids, s1.heap.isLeaf c = h0.isLeaf c := fun c hc => on1.inv.leaf c (W.ttn.ids_lt hc)
  have hh := fun i id j (q : (i, id, j) ∈ F.heads) => W.ttn.tree.acc_of_mem_heads W.ttn.links.wf q
  have hdep : F.depth < fuel := by have := F.depth_le; omega
  have hd := Heap.decorated_tree t1.tree false hdep
  have hv := Heap.visitor_tree t1.tree false hdep
  simp only [Bool.false_or] at hd hv
  have hts : ((if (!s1.heap.isLeaf s1.root) = true then [s1.root] else []) ++ F.ids.filter fun t => !(s1.heap.isLeaf t)) =
      s1.heap.tensors s1.root F := by
    unfold Heap.tensors
    rw [List.filter_cons]
    split <;> rfl
  rw [hts] at hv
  rw [euler_congr (q := fun t => !(h0.isLeaf t)) (fun x hx => by rw [hleaf x (List.mem_cons_of_mem _ hx)])] at hd
  have hc := counted_congr (h' := h0) (counted_start (s1.heap.tensors s1.root F) F s1.root t1.tree.rep
    (fun y hy hl => Heap.mem_tensors.2 ⟨.inr hy, hl⟩) (fun e he hl => r1.2 e (Heap.mem_bonds.2 ⟨he, hl⟩)))
    fun x hx => (hleaf x (List.mem_cons_of_mem _ hx)).symm
  have hcr : (counters s1.heap (s1.heap.tensors s1.root F)).get? s1.root = some (count (fun t => !(h0.isLeaf t)) F : ℤ) := by
    rw [counters_get, if_pos (Heap.mem_tensors.2 ⟨.inl rfl, t1.leaf⟩),
      ← count_congr (p := fun t => !(s1.heap.isLeaf t)) fun x hx => by rw [hleaf x (List.mem_cons_of_mem _ hx)]]
    unfold Heap.childrenDflt count
    rw [r1.1, Heap.children_false, t1.tree.heads]
  have hcount : h0.bonds s.root F ≠ [] → 0 < count (fun t => !(h0.isLeaf t)) F := by
    intro hb
    by_contra hz
    obtain ⟨-, -, z⟩ := count_zero W.ttn.tree.leafEnd (Nat.eq_zero_of_not_pos hz) tau s.root s.root
    apply hb
    rw [List.eq_nil_iff_forall_not_mem]
    intro e he
    obtain ⟨q1, q2⟩ := Heap.mem_bonds.1 he
    rw [z e.2.2.1 (by rw [← edges_targets F s.root]; exact List.mem_map.2 ⟨_, q1, rfl⟩)] at q2
    cases q2
  have hcount' : h0.bonds s.root F = [] → ¬ 0 < count (fun t => !(h0.isLeaf t)) F := by
    intro hb hz
    obtain ⟨x, hx⟩ := List.exists_mem_of_length_pos hz
    obtain ⟨q1, q2⟩ := List.mem_filter.1 hx
    have := hh x.1 x.2.1 x.2.2 q1
    have : (s.root, x.1, x.2.1, x.2.2) ∈ h0.bonds s.root F := by
      refine Heap.mem_bonds.2 ⟨?_, by simpa using q2⟩
      exact head_edge q1 s.root
    rw [hb] at this
    cases this
  have hnd := W.ttn.tree.nodup
  obtain ⟨s', c', g1, g2, g3, g4, g5, g6, g7⟩ := S.uni W.ttn tau hfu s1.root (fun A0 hA0 => by
      rw [e2] at hA0
      obtain rfl : A = A0 := Option.some.inj (hA.array.symm.trans hA0.array)
      exact hAf) F s1.root W.ttn.tree.rep W.ttn.tree.leafEnd (by rw [e2]; exact hnd) (by rw [e2]; exact (List.nodup_cons.1 hnd).1) (by rw [e2]; exact hh) (by rw [e2]; exact W.ttn.leaf)
    (by rw [e2]; exact W.edges) on1 rfl hc hcr
  refine ⟨s', ?_, g2.trans e2, ?_⟩
  swap
  · by_cases hb : h0.bonds s.root F = []
    · rw [if_pos hb]
      rw [if_neg fun q => hcount' hb q.2] at g3
      exact g3
    · rw [if_neg hb]
      rw [if_pos ⟨rfl, hcount hb⟩] at g3
      exact g3
  unfold Sweep.uniteStep
  rw [e1]
  simp only [ok_bind]
  rw [r1.1, hd]
  simp only [ok_bind]
  rw [hv]
  simp only [ok_bind, Bool.false_eq_true, if_false]
  rw [g1]
  simp only [ok_bind]
  rw [if_neg]
  · rfl
  · intro hany
    rw [List.any_eq_true] at hany
    obtain ⟨⟨k, v⟩, hm, hv⟩ := hany
    have hwf : c'.Wf := by unfold Dict.Wf; rw [g7]; exact counters_wf _ _
    have hg := (Dict.get?_some_iff_mem hwf k v).2 hm
    have hk : k ∈ Dict.keys c' := (Dict.mem_keys_iff _ _).2 (by rw [hg]; rfl)
    rw [g7, Dict.mem_keys_iff, counters_get] at hk
    have hkT : k ∈ s1.heap.tensors s1.root F := by
      by_contra q
      rw [if_neg q] at hk; cases hk
    obtain ⟨q1, q2⟩ := Heap.mem_tensors.1 hkT
    have hz : c'.get? k = some 0 := by
      rcases q1 with rfl | q1
      · exact g4
      · exact g5 k q1 (by rw [← hleaf k (List.mem_cons_of_mem _ q1)]; exact q2)
    rw [hz] at hg
    have : v = 0 := (Option.some.inj hg).symm
    simp [this] at hv

end SplitProp
