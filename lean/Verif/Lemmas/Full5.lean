import Verif.Lemmas.Full4
import Verif.Lemmas.Absorb2
import Verif.Lemmas.SweepDetail

/-! One move and one propagation of a sweep over a network with complete bases, for C134. -/

open scoped BigOperators
open Py

namespace SplitProp

open Heap ML Sweep

variable {T : Type} [Zero T]

/-- The assumptions of C134 on the configuration and on the start. -/
structure Setup (cf : Config ℝ T ℂ) (coef : ℂ) (s0 : Obj T ℂ) (F0 : Forest) : Prop where
  solver : cf.solver = exactSolver
  ne : coef ≠ 0
  hcoef : ∀ time : Option T, time.isNone = cf.imaginary → cf.coef time = coef
  energy : coef * star (cf.initEnergy.getD 0) = -(star coef * cf.initEnergy.getD 0)
  sqrt : cf.sqrt 1 = 1
  ttn : s0.heap.IsTTN s0.root F0
  fList : s0.fList = none
  gen : Generates s0 F0 coef
  svd : SvdShape cf.svd
  iso : SvdIso cf.svd
  exact : SvdExact cf.svd
  full : SvdFull cf.svd

/-- What the sweeps keep, C127. -/
abbrev Held' (cf : Config ℝ T ℂ) (N : ℕ) (s0 : Obj T ℂ) (F0 : Forest) (E : ℂ) (x : Ext T ℂ) (h : Heap ℂ) (r : ℕ) : Prop :=
  Fine (Call.Right cf) N x h r ∧ Keep s0 F0 E x h r

theorem Setup.goodS {cf : Config ℝ T ℂ} {coef : ℂ} {s0 : Obj T ℂ} {F0 : Forest} (S : Setup cf coef s0 F0) (N : ℕ) (E : ℂ) :
    (hooks cf).GoodS (Held' cf N s0 F0 E) fun x h r => Good (Call.Right cf) N x h r ∧ Keep s0 F0 E x h r :=
  SplitProp.goodS N cf S.svd S.iso S.exact (by rw [S.solver]; exact C127_exact) S.ne S.hcoef S.energy S.sqrt S.ttn S.fList S.gen

/-- The state of the sweep is `v`, and no dimension has changed. -/
structure On (cf : Config ℝ T ℂ) (N : ℕ) (s0 : Obj T ℂ) (F0 : Forest) (E : ℂ) (h0 : Heap ℂ) (r0 : ℕ) (v : Fin (leafDims s0 F0).prod → ℂ)
    (s : State ℝ (Ext T ℂ) ℂ) : Prop where
  inv : Inv (Held' cf N s0 F0 E) h0 r0 s
  dims : ∀ c k, c < h0.next → s.heap.hdim (c, k) = h0.hdim (c, k)
  amp : ∀ F, s.heap.IsTTN s.root F → amps s0 F0 (s.heap.treeAmp s.root F) = v

theorem On.based {cf : Config ℝ T ℂ} {N : ℕ} {s0 : Obj T ℂ} {F0 : Forest} {E : ℂ} {h0 : Heap ℂ} {r0 : ℕ} {v : Fin (leafDims s0 F0).prod → ℂ}
    {s : State ℝ (Ext T ℂ) ℂ} (on : On cf N s0 F0 E h0 r0 v s) (hf0 : s0.fList = none) {F : Forest} (ht : s.heap.IsTTN s.root F) :
    Based s0 F0 s.ext s.heap s.root F := Keep.based hf0 ht on.inv.inv.1.toGood on.inv.inv.2

theorem amps_congr {s0 : Obj T ℂ} {F0 : Forest} (ht0 : s0.heap.IsTTN s0.root F0) {ψ φ : (ℕ → ℕ) → ℂ} {L : List (ℕ × ℕ)}
    (hL : L.Perm (s0.heap.leafList s0.root F0)) (h : ∀ x : ℕ → ℕ, (∀ p ∈ L, x p.1 < p.2) → ψ x = φ x) : amps s0 F0 ψ = amps s0 F0 φ :=
  funext fun i => h _ fun p hp => point_valid s0 F0 (leafList_nodup ht0) i.2 p (hL.mem_iff.1 hp)

/-- One propagation. -/
theorem Setup.prop {cf : Config ℝ T ℂ} {coef : ℂ} {s0 : Obj T ℂ} {F0 : Forest} (S : Setup cf coef s0 F0) {N : ℕ} {E : ℂ} {h0 : Heap ℂ} {r0 : ℕ}
    (hi : h0.LinkInv) {v : Fin (leafDims s0 F0).prod → ℂ} {s : State ℝ (Ext T ℂ) ℂ} (on : On cf N s0 F0 E h0 r0 v s) (tau : ℝ) (c : Bool)
    {F : Forest} (ht : s.heap.IsTTN s.root F) {shape : List ℕ} {A : Nd ℂ} (hA : s.heap.Full s.root A) (hsh : A.shape = shape) :
    ∃ s', splitProp (hooks cf) tau c s s.root = .ok s' ∧ s'.root = s.root ∧ s'.heap.IsTTN s.root F ∧
      (∃ A', s'.heap.Full s.root A' ∧ A'.shape = shape) ∧
      frameB s0 F0 s'.heap s.root F shape shape.prod = frameB s0 F0 s.heap s.root F shape shape.prod ∧
      ∃ y, v = (frameB s0 F0 s.heap s.root F shape shape.prod).mulVec y ∧
        On cf N s0 F0 E h0 r0 ((frameB s0 F0 s.heap s.root F shape shape.prod).mulVec
          ((NormedSpace.exp (tau • ((frameB s0 F0 s.heap s.root F shape shape.prod).conjTranspose *
            (genMatrix s0 F0 coef (cf.initEnergy.getD 0) * frameB s0 F0 s.heap s.root F shape shape.prod)))).mulVec y)) s' := by
  subst hsh
  obtain ⟨s', e1, e2, e3, -⟩ := prop_ok (S.goodS N E) hi on.inv tau c
  obtain ⟨F', ht', hr', -⟩ := on.inv.ttn
  obtain rfl := ht.tree.unique ht'.tree
  have b := on.based S.fList ht
  obtain ⟨x', h', q1, q2, A', q3, q4, q5, q6⟩ := evolve_frame cf S.solver S.ne S.hcoef S.energy S.sqrt S.ttn S.gen tau c hr' on.inv.inv.1 b hA
  have e1' := e1
  unfold splitProp at e1'
  rw [if_neg (by simp [hr'.1]), show (hooks cf).evolve s.ext s.heap s.root tau c = .ok (x', h') from q1] at e1'
  have e1'' : (⟨h', s.root, x', s.log ++ [⟨s.root, s.heap.linkages s.root, tau⟩]⟩ : State ℝ (Ext T ℂ) ℂ) = s' := Except.ok.inj e1'
  subst e1''
  have ht2 := ttn_change ht q2
  refine ⟨_, e1, rfl, ht2, ⟨A', q3, q4⟩, q5, asVec A.shape.prod A.data, ?_, e3, fun c k hc => ?_, fun F2 hF2 => ?_⟩
  · rw [← on.amp F ht]
    exact b.self S.ttn hA
  · rw [← on.dims c k hc]
    show h'.hdim (c, k) = _
    by_cases q : c = s.root
    · subst q
      rw [hdim_full q3.array, hdim_full hA.array, q4]
    · exact hdim_congr (q2.other c q) k
  · obtain rfl := ht2.tree.unique hF2.tree
    have b2 : Based s0 F0 x' h' s.root F := Keep.based S.fList ht2 e3.inv.1.toGood e3.inv.2
    refine (b2.self S.ttn q3).trans ?_
    rw [q4, q5, q6]

/-- One move. -/
theorem Setup.move {cf : Config ℝ T ℂ} {coef : ℂ} {s0 : Obj T ℂ} {F0 : Forest} (S : Setup cf coef s0 F0) {N : ℕ} {E : ℂ} {h0 : Heap ℂ} {r0 : ℕ}
    (hi : h0.LinkInv) {v : Fin (leafDims s0 F0).prod → ℂ} {s : State ℝ (Ext T ℂ) ℂ} (on : On cf N s0 F0 E h0 r0 v s) {a fin j : ℕ}
    (hb0 : h0.acc s.root a = some (fin, j)) (hl0 : h0.isLeaf fin = false) (hd0 : h0.hdim (s.root, a) = h0.hdim (fin, j)) {A0 : Nd ℂ} (hA0 : h0.Full s.root A0)
    (hw : A0.shape.getD a 1 ≤ (A0.shape.eraseIdx a).prod) (o : Option (ℝ × Bool)) (fuel : ℕ) :
    ∃ s', Sweep.move (hooks cf) fuel s s.root a (opOf (hooks cf) o) = .ok s' ∧ s'.root = fin ∧
      ∃ (n : ℕ) (C : Matrix (Fin (leafDims s0 F0).prod) (Fin n) ℂ) (z w : Fin n → ℂ), n = h0.hdim (s.root, a) * h0.hdim (s.root, a) ∧
        C.conjTranspose * C = 1 ∧ v = C.mulVec z ∧ (o = none → w = z) ∧
        (∀ tau c, o = some (tau, c) → w = (NormedSpace.exp (tau • (C.conjTranspose * (genMatrix s0 F0 coef (cf.initEnergy.getD 0) * C)))).mulVec z) ∧
        On cf N s0 F0 E h0 r0 (C.mulVec w) s' ∧
        (∀ F A shape, s.heap.IsTTN s.root F → s.heap.Full s.root A → A.shape = shape → ∃ Q : Matrix (Fin shape.prod) (Fin n) ℂ, C = frameB s0 F0 s.heap s.root F shape shape.prod * Q) ∧
        (∀ F A shape, s'.heap.IsTTN fin F → s'.heap.Full fin A → A.shape = shape → ∃ Q : Matrix (Fin shape.prod) (Fin n) ℂ, C = frameB s0 F0 s'.heap fin F shape shape.prod * Q) := by
  obtain ⟨s', e1, e2, iv', F, h1, mid, F1, st, ht, hr, hp, m, mt, hr1, ⟨nr, es⟩, hI1, o1, gc, oI, ⟨nr', u1⟩, op, mv⟩ :=
    move_detail (S.goodS N E) hi on.inv hb0 hl0 o fuel
  have hlt := hi.lt hb0
  have hb : s.heap.acc s.root a = some (fin, j) := by rw [on.inv.acc]; exact hb0
  have hl : s.heap.isLeaf fin = false := by rw [on.inv.leaf _ hlt.2]; exact hl0
  obtain ⟨A, hA⟩ := ht.full s.root (mem_tensors.2 ⟨.inl rfl, ht.leaf⟩)
  have hAs : A.shape = A0.shape := shape_eq hA0 hA (fun k => on.inv.acc _ k) fun k => on.dims _ k hlt.1
  have han : a < A.ndim := (hA.acc a).1 (by rw [hb]; simp)
  have hmr : mid ≠ s.root := by have := ht.lt; have := m.fresh; omega
  have hfm : fin ≠ mid := by have := (ht.links.lt hb).2; have := m.fresh; omega
  have hfr : fin ≠ s.root := by
    intro q
    have hT : s.root ∈ s.heap.tensors s.root F := mem_tensors.2 ⟨.inl rfl, ht.leaf⟩
    exact (ht.isNet.simple s.root hT a fin j hb (by rw [q]; exact hT)).1 q
  have hrank : h1.hdim (s.root, a) = h0.hdim (s.root, a) := by
    rw [split_rank S.svd S.full ht.links hA ht.lt han hmr es, hAs, min_eq_left hw, hdim_full hA0.array]
  obtain ⟨M, hM⟩ := m.fullMid
  have hMn : M.ndim = 2 := by
    have q1 := (hM.acc 1).1 (by rw [m.accMid]; simp)
    by_contra hne
    have q3 := (hM.acc 2).2 (by omega)
    rw [m.accMid] at q3
    simp at q3
  have hMp : M.shape.prod = h0.hdim (s.root, a) * h0.hdim (s.root, a) := by
    have d0 := m.dims0
    have d1 := m.dims1
    rw [hrank, hdim_full hM.array] at d0
    rw [m.dimsFin, on.dims _ _ hlt.2, ← hd0, hdim_full hM.array] at d1
    have hlen : M.shape.length = 2 := hMn
    obtain ⟨p, q, hpq⟩ := List.length_eq_two.1 hlen
    rw [hpq] at d0 d1 ⊢
    simp only [List.getD_cons_zero, List.getD_cons_succ] at d0 d1
    simp [d0, d1]
  have b0 := on.based S.fList ht
  have b1 : Based s0 F0 ((hooks cf).removeEnv s.ext s.heap [s.root, fin]) h1 mid F1 := Keep.based S.fList mt.ttn hI1.1.toGood hI1.2
  have t2 := ttn_change mt.ttn gc
  have b2 : Based s0 F0 st.ext st.heap mid F1 := Keep.based S.fList t2 oI.1.toGood oI.2
  obtain ⟨F', t3, r3, -⟩ := iv'.ttn
  rw [e2] at t3 r3
  have b3 : Based s0 F0 s'.ext s'.heap fin F' := Keep.based S.fList t3 (e2 ▸ iv'.inv.1.toGood) (e2 ▸ iv'.inv.2)
  have hfl : st.heap.isLeaf fin = false := by
    rw [GoodChange.isLeaf gc]
    exact (core_eq (m.other fin hfr hfm)).2.2.2.2.2.2.trans hl
  have hax2 : (st.heap.node mid).axis = none := by rw [(gc.node mid).2.2.1]; exact m.axis
  have hb2 : st.heap.acc mid 1 = some (fin, j) := by rw [GoodChange.acc gc, m.accMid]; rfl
  obtain ⟨p1, p2⟩ := split_state S.svd S.exact ht hr hb hl hp m mt.ttn es
  obtain ⟨p3, p4⟩ := unite_state t2 hax2 hb2 hfl t3 u1
  have hC := b1.orth hM
  obtain ⟨w, w1, w2, w3⟩ : ∃ w : Fin M.shape.prod → ℂ, (o = none → w = asVec M.shape.prod M.data) ∧
      (∀ tau c, o = some (tau, c) → w = (NormedSpace.exp (tau • ((frameB s0 F0 h1 mid F1 M.shape M.shape.prod).conjTranspose *
        (genMatrix s0 F0 coef (cf.initEnergy.getD 0) * frameB s0 F0 h1 mid F1 M.shape M.shape.prod)))).mulVec (asVec M.shape.prod M.data)) ∧
      amps s0 F0 (st.heap.treeAmp mid F1) = (frameB s0 F0 h1 mid F1 M.shape M.shape.prod).mulVec w := by
    cases o with
    | none =>
      have he : { Sweep.removeEnv (hooks cf) s [s.root, fin] with heap := h1 } = st := Except.ok.inj o1
      refine ⟨asVec M.shape.prod M.data, fun _ => rfl, fun _ _ q => (by cases q), ?_⟩
      rw [← he]
      exact b1.self S.ttn hM
    | some q =>
      obtain ⟨tau, c⟩ := q
      obtain ⟨x', h', q1, q2, A', q3, q4, q5, q6⟩ := evolve_frame cf S.solver S.ne S.hcoef S.energy S.sqrt S.ttn S.gen tau c hr1 hI1.1 b1 hM
      have o1' : splitProp (hooks cf) tau c { Sweep.removeEnv (hooks cf) s [s.root, fin] with heap := h1 } mid = .ok st := o1
      unfold splitProp at o1'
      rw [if_neg (by simp [m.axis]), show (hooks cf).evolve ({ Sweep.removeEnv (hooks cf) s [s.root, fin] with heap := h1 } : State ℝ (Ext T ℂ) ℂ).ext
        ({ Sweep.removeEnv (hooks cf) s [s.root, fin] with heap := h1 } : State ℝ (Ext T ℂ) ℂ).heap mid tau c = .ok (x', h') from q1] at o1'
      have he := Except.ok.inj o1'
      have hheap : st.heap = h' := by rw [← he]
      refine ⟨asVec M.shape.prod A'.data, fun q => (by cases q), fun tau' c' q => ?_, ?_⟩
      · cases q; exact q6
      · have b2' := b2.self S.ttn (A := A') (by rw [hheap]; exact q3)
        rw [b2', hheap, q4, q5]
  refine ⟨s', e1, e2, M.shape.prod, frameB s0 F0 h1 mid F1 M.shape M.shape.prod, asVec M.shape.prod M.data, w, hMp, hC, ?_, w1, w2, ⟨iv', ?_, ?_⟩, ?_, ?_⟩
  · rw [← on.amp F ht, ← b1.self S.ttn hM]
    exact (amps_congr S.ttn b0.leaves p2).symm
  · intro c k hc
    have hcm : c ≠ mid := by have := on.inv.mono; have := m.fresh; omega
    have hsrc : s'.heap.hdim (s.root, a) = h0.hdim (s.root, a) := by
      have hfT : fin ∈ st.heap.tensors mid F1 := mem_tensors.2 ⟨(t2.mem_linked fin).2 (Relation.ReflTransGen.single ⟨1, j, hb2⟩), hfl⟩
      obtain ⟨F2, f1, -⟩ := t2.reroot hfT
      have bs := t2.links.sym _ _ _ _ hb2
      obtain ⟨X, hX⟩ := f1.full fin (mem_tensors.2 ⟨.inl rfl, hfl⟩)
      obtain ⟨Y, hY⟩ := f1.full mid (mem_tensors.2 ⟨(f1.mem_linked mid).2 (Relation.ReflTransGen.single ⟨j, 1, bs⟩), t2.leaf⟩)
      obtain ⟨-, Z, -, -, -, -, -, k1, -⟩ := unite_at f1 (.inr hax2) bs t2.leaf hX hY u1
      rw [hdim_congr (k1 s.root hfr.symm), hdim_congr (gc.other s.root hmr.symm), hrank]
    by_cases q1 : c = s.root
    · subst q1
      by_cases q2 : k = a
      · subst q2; exact hsrc
      · rw [mv.dimsSelf k q2, on.dims _ _ hc]
    · by_cases q2 : c = fin
      · subst q2
        by_cases q3 : k = j
        · subst q3; rw [← mv.dims, hsrc, hd0]
        · rw [mv.dimsFin k q3, on.dims _ _ hc]
      · rw [hdim_congr (mv.otherAxis c q1 q2 hcm).2, on.dims _ _ hc]
  · intro F2 hF2
    rw [e2] at hF2 ⊢
    obtain rfl := t3.tree.unique hF2.tree
    rw [← w3]
    exact amps_congr S.ttn b2.leaves p4
  · intro F2 A2 shape hF2 hA2 hsh
    subst hsh
    obtain rfl := ht.tree.unique hF2.tree
    refine exists_factor _ _ fun k => ?_
    obtain ⟨Z, z1, z2, z3⟩ := absorb_src S.svd S.exact ht hr hb hl hp m mt.ttn es hM.array (unitNd_wf M.shape k) rfl hA2.array
    exact ⟨_, (funext fun i => z3 _ (b1.range S.ttn i)).trans (b0.amps S.ttn hA2 z2)⟩
  · intro F2 A2 shape hF2 hA2 hsh
    subst hsh
    obtain rfl := t3.tree.unique hF2.tree
    refine exists_factor _ _ fun k => ?_
    obtain ⟨M2, m1, m2, m3⟩ := gc.array M hM.array
    obtain ⟨Z, z1, z2, z3⟩ := absorb t2 hax2 hb2 hfl u1 t3 m1 (unitNd_wf M.shape k) m3.symm hA2.array
    exact ⟨_, (funext fun i => (variation_same gc _ F1 _).symm.trans (z3 _ (b2.range S.ttn i))).trans (b3.amps S.ttn hA2 z2)⟩

end SplitProp
