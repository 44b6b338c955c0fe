import Verif.Lemmas.DirectSolve
import Verif.Props.C18

/-!
The calls that a solver of `scipy.integrate` makes in `direct_step`.
-/

open Py

namespace DirectSolve

open Heap ML

variable {K T R Z : Type} [Zero T] [Field R] [StarRing R]

/-- The state between two calls: the network is that of `cur`, mean fields and inverse densities are those of `frame`. -/
structure Live (c : Config T R) (F : Forest) (s0 : Obj T R) (cur frame : Obj T R) (st : State T R) : Prop where
  kin : Kin s0 st.obj
  net : SameNet cur st.obj
  time : st.obj.time = cur.time
  fkin : Kin s0 frame
  inv : Inverses c.lin frame F st.inv
  env : ∀ n t i v, st.obj.env.get? (n, t, i) = some v → t ∈ s0.heap.tensors s0.root F ∧
    ∃ term, (s0.allTerms none)[n]? = some term ∧ FieldIs (frame.withTerm term) t i v
  full : ∀ n term, (s0.allTerms none)[n]? = some term → ∀ t ∈ s0.heap.tensors s0.root F, ∀ i, s0.heap.acc t i ≠ none →
    st.obj.env.get? (n, t, i) ≠ none
  marks : ∀ t ∈ s0.heap.tensors s0.root F, (s0.heap.node t).axis ≠ none → st.obj.heap.MarkOk t

/-- Setting all arrays. -/
theorem kin_setAll {s : Obj T R} {F : Forest} {y : List R} {p : ℕ → Nd R} (ht : s.heap.IsTTN s.root F) (hp : Parts s.heap s.root F y p) (time : Option T) :
    Kin s { s with heap := setAll (s.heap.tensors s.root F) p s.heap, time := time } := by
  have hnode := setAll_node (s.heap.tensors s.root F) p s.heap
  have harr : ∀ t, (setAll (s.heap.tensors s.root F) p s.heap).array t = if t ∈ s.heap.tensors s.root F then some (p t) else s.heap.array t := by
    intro t; unfold Heap.array; rw [hnode]; split <;> rfl
  refine ⟨⟨rfl, rfl, rfl, setAll_next _ _ _, fun t => ?_, fun t => ?_, fun t => ?_, fun t => ?_, fun t => ?_, fun t hl => ?_⟩, fun t A hl hA hw => ?_⟩
  · show (setAll _ _ _).access t = _
    unfold Heap.access; rw [hnode]; split <;> rfl
  · show (setAll _ _ _).isLeaf t = _
    unfold Heap.isLeaf; rw [hnode]; split <;> rfl
  · show ((setAll _ _ _).node t).axis = _
    rw [hnode]; split <;> rfl
  · show ((setAll _ _ _).node t).normalized = _
    rw [hnode]; split <;> rfl
  · show ((setAll _ _ _).node t).name = _
    rw [hnode]; split <;> rfl
  · show ((setAll _ _ _).array t).map _ = _
    rw [harr]
    split
    · rename_i q
      obtain ⟨A, hA⟩ := ht.full t q
      rw [hA.array]
      simp [hp.shape t q A hA.array]
    · rfl
  · show ∃ B, (setAll _ _ _).array t = some B ∧ _
    rw [harr]
    split
    · rename_i q
      exact ⟨_, rfl, hp.wf t q, hp.shape t q A hA⟩
    · exact ⟨A, hA, hw, rfl⟩

theorem setAll_array {h : Heap R} (ts : List ℕ) (p : ℕ → Nd R) (t : ℕ) :
    (setAll ts p h).array t = if t ∈ ts then some (p t) else h.array t := by
  unfold Heap.array; rw [setAll_node]; split <;> rfl

/-- The parts of the vector of the present arrays. -/
theorem parts_self {h : Heap R} {r : ℕ} {F : Forest} (ht : h.IsTTN r F) :
    Parts h r F ((h.tensors r F).flatMap fun t => ((h.array t).getD ⟨[], []⟩).data) (fun t => (h.array t).getD ⟨[], []⟩) := by
  refine ⟨rfl, fun t hm => ?_, fun t hm A hA => by rw [hA]; rfl⟩
  obtain ⟨A, hA⟩ := ht.full t hm
  rw [hA.array]
  exact hA.wf

theorem field_fits {s : Obj T R} {term : Term T R} {t i : ℕ} {v : Option (Nd R)} (hl : s.heap.isLeaf t = false)
    (h : FieldIs (s.withTerm term) t i v) : OpFits v (s.heap.hdim (t, i)) (s.heap.hdim (t, i)) := by
  obtain ⟨E, -, q⟩ := h
  rw [withTerm_hdim term hl] at q
  cases v with
  | none => rfl
  | some M => exact ⟨q.1, q.2.1⟩

/-- `diff(t, y)` -/
theorem diff_ok {c : Config T R} {F : Forest} {s0 cur frame : Obj T R} {st : State T R} (hr : Ready s0 F) (htot : Total c.lin)
    (hl : Live c F s0 cur frame st) (t : T) {y : List R} (hy : y.length = size s0.heap s0.root F) :
    ∃ st' d, diff c t y st = .ok (st', d) ∧ d.length = size s0.heap s0.root F ∧ st'.log = st.log ++ [.eval t y d] ∧
      Live c F s0 { cur with time := c.time t } frame st' ∧ st'.inv = st.inv ∧
      Frozen frame F st.inv (c.coef (c.time t)) c.initEnergy y d := by
  obtain ⟨s, inv, log⟩ := st
  have k : Kin s0 s := hl.kin
  have ht : s.heap.IsTTN s.root F := k.ttn hr.ttn
  have hrt : s.heap.Rooted s.root F := k.rooted hr.rooted
  have hf : F.ids.length < s.heap.next := SplitProp.Good.fuel ht
  have hten : s.heap.tensors s.root F = s0.heap.tensors s0.root F := k.tensors F
  obtain ⟨p, hp⟩ := exists_parts ht (y := y) (by rw [k.size]; exact hy)
  set ts := s.heap.tensors s.root F with hts
  have hpo := parts_self ht
  obtain ⟨d0, e1⟩ := vectorize_parts (useAux := false) ht hrt.1 hf (p := fun t => (s.heap.array t).getD ⟨[], []⟩) (fun t hm => by
    obtain ⟨A, hA⟩ := ht.full t hm
    unfold arrayOrAux
    simp [hA.array])
  have hps : ∀ t ∈ s.heap.tensors s.root F, (p t).Wf ∧ ∃ A, s.heap.array t = some A ∧ (p t).shape = A.shape := fun t hm => by
    obtain ⟨A, hA⟩ := ht.full t hm
    exact ⟨hp.wf t hm, A, hA.array, hp.shape t hm A hA.array⟩
  have e2 := tensorize_parts ht hrt.1 hf hps
  rw [← hp.flat] at e2
  have k1 := kin_setAll ht hp (c.time t)
  set s1 : Obj T R := { s with heap := setAll (s.heap.tensors s.root F) p s.heap, time := c.time t } with hs1
  have k01 := k.trans k1
  have ht1 := k1.ttn ht
  have hf1 : F.ids.length < s1.heap.next := SplitProp.Good.fuel ht1
  have hten1 : s1.heap.tensors s1.root F = s0.heap.tensors s0.root F := k01.tensors F
  have harr1 : ∀ u ∈ s0.heap.tensors s0.root F, s1.heap.array u = some (p u) := by
    intro u hu
    show (setAll _ _ _).array u = _
    rw [setAll_array, ← hts, hten, if_pos hu]
  have fk := hl.fkin
  have fht := fk.ttn hr.ttn
  have hlf : ∀ u ∈ s0.heap.tensors s0.root F, s0.heap.isLeaf u = false := fun u hu => (mem_tensors.1 hu).2
  have hdim1 : ∀ u ∈ s0.heap.tensors s0.root F, ∀ i, frame.heap.hdim (u, i) = s1.heap.hdim (u, i) := fun u hu i => by
    rw [fk.hdim (hlf u hu), k01.hdim (hlf u hu)]
  have hbase : EomBase s1 F inv := by
    refine ⟨ht1, k01.rooted hr.rooted, ?_, ?_, ?_⟩
    · intro term hterm q hq
      rw [k01.terms] at hterm
      rw [k01.leaf]
      exact hr.leaf term hterm q hq
    · intro e he
      rw [k01.bonds] at he
      have hm : e.2.2.1 ∈ s0.heap.tensors s0.root F := mem_tensors.2 ⟨.inr (TreeSum.edges_mem (mem_bonds.1 he).1).2, (mem_bonds.1 he).2⟩
      obtain ⟨d, M, m1, ⟨E, -, m2⟩, m3⟩ := hl.inv e (by rw [fk.bonds]; exact he)
      rw [withTerm_hdim _ (by rw [fk.leaf]; exact hlf _ hm)] at m2
      obtain ⟨M', n1, n2⟩ := htot _ d m2.1 m2.2.1
      rw [m3] at n1
      cases n1
      exact ⟨M, m1, by rw [← hdim1 _ hm]; exact n2⟩
    · intro u hu n i v hv
      rw [hten1] at hu
      obtain ⟨-, term, -, q⟩ := hl.env n u i v hv
      rw [← hdim1 u hu]
      exact field_fits (by rw [fk.leaf]; exact hlf u hu) q
  set ref : ℕ → Obj T R := fun u => { frame with heap := frame.heap.setArray u (some (p u)) } with href
  have hfa : ∀ u ∈ s0.heap.tensors s0.root F, ∃ A, frame.heap.array u = some A ∧ (p u).shape = A.shape := by
    intro u hu
    obtain ⟨A, hA⟩ := fht.full u (by rw [fk.tensors]; exact hu)
    refine ⟨A, hA.array, ?_⟩
    obtain ⟨A0, hA0⟩ := hr.ttn.full u hu
    have q1 := fk.shape u (hlf u hu)
    have q2 := k.shape u (hlf u hu)
    obtain ⟨B, hB⟩ := ht.full u (by rw [← hts, hten]; exact hu)
    rw [hA.array, hA0.array] at q1
    rw [hB.array, hA0.array] at q2
    simp at q1 q2
    rw [hp.shape u (by rw [← hts, hten]; exact hu) B hB.array, q1, q2]
  have hmode : Mode True s1 F ref := by
    refine ⟨fun _ n term hn u hu i hi => ?_, .inl trivial, fun _ u hu A hA => ?_⟩
    · rw [k01.terms] at hn
      rw [hten1] at hu
      rw [k01.acc] at hi
      exact hl.full n term hn u hu i hi
    · rw [hten1] at hu
      rw [harr1 u hu] at hA
      cases hA
      obtain ⟨A, hA, hAs⟩ := hfa u hu
      have hwf := hp.wf u (by rw [← hts, hten]; exact hu)
      have hu' : u ∈ frame.heap.tensors frame.root F := by rw [fk.tensors]; exact hu
      have httn := fht.setArray hA hwf hAs
      refine ⟨fk.root.trans k01.root.symm, httn, fun v => ?_, ?_, fk.terms.trans k01.terms.symm⟩
      · show (frame.heap.setArray u _).isLeaf v = _
        rw [k01.leaf, ← fk.leaf]
        unfold Heap.isLeaf; rw [node_setArray]; split <;> rename_i q <;> [rw [q]; rfl]
      · obtain ⟨A', hA'⟩ := httn.full u (by
          have : (frame.heap.setArray u (some (p u))).tensors frame.root F = frame.heap.tensors frame.root F := by
            unfold Heap.tensors
            refine congrArg (fun f => List.filter f _) (funext fun v => ?_)
            unfold Heap.isLeaf; rw [node_setArray]; split <;> rename_i q <;> [rw [q]; rfl]
          rw [this]; exact hu')
        have : A' = p u := by
          have h1 := hA'.array
          rw [Heap.array_setArray, if_pos rfl] at h1
          exact (Option.some.inj h1).symm
        rw [← this]; exact hA'
  obtain ⟨s2, g1, g2, g3, g4, g5, g6, g7, g8⟩ := eom_mode hbase hmode (by rw [k01.terms]; exact hr.terms) (c.coef s1.time) c.initEnergy hf1
  have t12 : Twin s2 s1 := ⟨⟨g2.next, g2.same⟩, g3, g6, g7, g8⟩
  have n12 := twin_net t12
  have ht2 := n12.kin.ttn ht1
  have hten2 : s2.heap.tensors s2.root F = s0.heap.tensors s0.root F := (n12.tensors F).trans hten1
  have hrt2 := n12.rooted hbase.rooted
  have hf2 : F.ids.length < s2.heap.next := SplitProp.Good.fuel ht2
  have hfin : ∀ u ∈ s0.heap.tensors s0.root F, FinalRef ref s1 F inv (c.coef s1.time) c.initEnergy u (p u) (s2.heap.node u).aux := fun u hu =>
    g4 u (by rw [hten1]; exact hu) (p u) (harr1 u hu)
  obtain ⟨d2, e3⟩ := vectorize_parts (useAux := true) ht2 hrt2.1 hf2 (p := fun u => ((s2.heap.node u).aux).getD ⟨[], []⟩) (fun u hu => by
    obtain ⟨G, X, D, q, -⟩ := hfin u (by rw [← hten2]; exact hu)
    unfold arrayOrAux
    simp [q])
  have k02 := k01.trans n12.kin
  have hpo2 : Parts s2.heap s2.root F _ _ := n12.toSameShape.parts (k1.toSameShape.parts hpo)
  have e4 := tensorize_parts ht2 hrt2.1 hf2 (p := fun u => (s.heap.array u).getD ⟨[], []⟩) (fun u hu => by
    obtain ⟨A, hA⟩ := ht2.full u hu
    exact ⟨hpo2.wf u hu, A, hA.array, hpo2.shape u hu A hA.array⟩)
  have hor : (s2.heap.tensors s2.root F).flatMap (fun u => ((s.heap.array u).getD ⟨[], []⟩).data) =
      ts.flatMap fun u => ((s.heap.array u).getD ⟨[], []⟩).data := by rw [hten2, hten]
  rw [hor] at e4
  set dv := (s2.heap.tensors s2.root F).flatMap fun u => (((s2.heap.node u).aux).getD ⟨[], []⟩).data with hdv
  set h3 := setAll (s2.heap.tensors s2.root F) (fun u => (s.heap.array u).getD ⟨[], []⟩) s2.heap with hh3
  have k23 := kin_setAll (y := ts.flatMap fun u => ((s.heap.array u).getD ⟨[], []⟩).data) ht2 hpo2 s2.time
  set s3 : Obj T R := { s2 with heap := h3 } with hs3
  have k23' : Kin s2 s3 := k23
  have hnet : SameNet s s3 := by
    refine ⟨(k1.trans (n12.kin.trans k23')).toSameShape, fun u hu => ?_⟩
    show h3.array u = _
    rw [hh3, setAll_array, hten2]
    split
    · rename_i q
      obtain ⟨A, hA⟩ := ht.full u (by rw [← hts, hten]; exact q)
      rw [hA.array]; rfl
    · rename_i q
      rw [n12.array u (by rw [k1.leaf]; exact hu)]
      show (setAll _ _ _).array u = _
      rw [setAll_array, if_neg]
      rw [← hts, hten]; exact q
  have htm : s2.time = c.time t := g8
  have hpd : Parts frame.heap frame.root F dv (fun u => ((s2.heap.node u).aux).getD ⟨[], []⟩) := by
    refine ⟨by rw [hdv, hten2, fk.tensors], fun u hu => ?_, fun u hu A hA => ?_⟩
    · rw [fk.tensors] at hu
      obtain ⟨G, X, D, q1, q2, -⟩ := hfin u hu
      rw [q1]; exact q2
    · rw [fk.tensors] at hu
      obtain ⟨G, X, D, q1, q2, q3, -⟩ := hfin u hu
      obtain ⟨A', a1, a2⟩ := hfa u hu
      rw [hA] at a1
      cases a1
      rw [q1]
      exact q3.trans a2
  refine ⟨⟨s3, inv, log ++ [.eval t y dv]⟩, dv, ?_, ?_, rfl, ⟨?_, ?_, ?_, fk, hl.inv, ?_, ?_, ?_⟩, rfl, ?_⟩
  · unfold diff
    simp only
    rw [e1]
    simp only [ok_bind]
    rw [e2]
    simp only [ok_bind]
    have hnx : s.heap.next = s1.heap.next := k1.next.symm
    rw [hnx]
    show (ML.eom s1.heap.next inv (c.coef s1.time) c.initEnergy s1 >>= _) = _
    rw [g1]
    simp only [ok_bind]
    rw [← n12.next, e3]
    simp only [ok_bind]
    rw [e4]
    rfl
  · rw [hpd.length fht, fk.size]
  · exact k.trans hnet.kin
  · refine ⟨(hl.net.trans hnet).toSameShape.trans (.rfl' _) |> fun q => ?_, fun u hu => (hl.net.trans hnet).array u hu⟩
    exact ⟨q.root, q.hList, q.fList, q.next, q.access, q.leaf, q.axis, q.mark, q.name, q.shape⟩
  · exact htm
  · intro n u i v hv
    exact hl.env n u i v (by rw [← hv]; show _ = s2.env.get? _; rw [g5])
  · intro n term hn u hu i hi
    show s2.env.get? _ ≠ none
    rw [g5]
    exact hl.full n term hn u hu i hi
  · intro u hu ha
    exact hnet.markOk (hl.marks u hu ha)
  · refine ⟨p, _, ?_, hpd, fun u hu => ?_⟩
    · refine ⟨by rw [fk.tensors, ← hten]; exact hp.flat, fun u hu => hp.wf u (by rw [fk.tensors, ← hten] at hu; exact hu), fun u hu A hA => ?_⟩
      rw [fk.tensors] at hu
      obtain ⟨A', a1, a2⟩ := hfa u hu
      rw [hA] at a1
      cases a1
      exact a2
    · rw [fk.tensors] at hu
      obtain ⟨G, X, D, q1, q2, q3, q4, q5, q6, q7, q8⟩ := hfin u hu
      refine ⟨G, X, q5, q4, ?_, ?_, ?_⟩
      · rw [fk.axis, ← k01.axis]; exact q6
      · have := q7 (by
          intro n term hn i v hv
          rw [k01.terms] at hn
          obtain ⟨-, term', r1, r2⟩ := hl.env n u i v hv
          rw [hn] at r1
          cases r1
          obtain ⟨A', a1, a2⟩ := hfa u hu
          exact field_setArray fht (by rw [fk.tensors]; exact hu) a1 (hp.wf u (by rw [← hts, hten]; exact hu)) a2 r2)
        rw [k01.terms, ← fk.terms] at this
        exact this
      · intro w hw
        have := q8 w hw
        rw [q1]
        rw [fk.root, ← k01.root]
        exact this

/-- `reformer()` -/
theorem reform_ok {c : Config T R} {F : Forest} {s0 : Obj T R} {st : State T R} (hr : Ready s0 F) (htot : Total c.lin)
    (k : Kin s0 st.obj) (hmarks : ∀ t ∈ s0.heap.tensors s0.root F, (s0.heap.node t).axis ≠ none → st.obj.heap.MarkOk t) :
    ∃ st', reform c st = .ok st' ∧ st'.log = st.log ++ [.reform st.obj st'.inv] ∧ Live c F s0 st.obj st.obj st' := by
  obtain ⟨s, inv0, log⟩ := st
  replace k : Kin s0 s := k
  have ht : s.heap.IsTTN s.root F := k.ttn hr.ttn
  have hf : F.ids.length < s.heap.next := SplitProp.Good.fuel ht
  have hlf : ∀ u ∈ s0.heap.tensors s0.root F, s0.heap.isLeaf u = false := fun u hu => (mem_tensors.1 hu).2
  have hnorm : ∀ t ∈ s.heap.tensors s.root F, (s.heap.node t).axis ≠ none → s.heap.MarkOk t := by
    intro t hm ha
    rw [k.tensors] at hm
    rw [k.axis] at ha
    exact hmarks t hm ha
  obtain ⟨s1, a1, a2, a3, a4, a5, a6, a7, a8⟩ := formEnv_ok ht hnorm (fun term hterm q hq => by
      rw [k.terms] at hterm
      rw [k.leaf]
      exact hr.leaf term hterm q hq) (fun term hterm q hq => by
      rw [k.terms] at hterm
      rw [k.leafList hr.ttn] at hq
      exact hr.fits _ term hterm q hq) false hf
  have t1 : Twin s1 s := ⟨⟨a2.next, a2.same⟩, a3, a4, a5, a6⟩
  have n1 := twin_net t1
  have ht1 := n1.kin.ttn ht
  have k1 := k.trans n1.kin
  have hfield : ∀ {term t i v}, t ∈ s.heap.tensors s.root F → (FieldIs (s1.withTerm term) t i v ↔ FieldIs (s.withTerm term) t i v) := by
    intro term t i v hm
    refine field_withTerm ht (Sim.trans (sim_withTerm s1 term) t1.sim) (fun l hl hlf => ?_) hm
    rw [withTerm_isLeaf] at hlf
    rw [withTerm_leaf hlf, t1.now]
  have hmem : ∀ e ∈ s.heap.bonds s.root F, e.2.2.1 ∈ s.heap.tensors s.root F := fun e he =>
    mem_tensors.2 ⟨.inr (TreeSum.edges_mem (mem_bonds.1 he).1).2, (mem_bonds.1 he).2⟩
  obtain ⟨h2, inv, b1, b2, b3⟩ := formInvDensity_ok ht1 (k1.rooted hr.rooted) (fun t hm ha => by
      rw [n1.tensors] at hm
      rw [n1.axis] at ha
      exact n1.markOk (hnorm t hm ha))
    (fun l hl hlf => by rw [k1.axis]; exact hr.axes l hl (by rw [← k1.leaf]; exact hlf)) (lin := c.lin) (fuel := s.heap.next) hf
    (fun e he d hd => by
      rw [n1.bonds] at he
      obtain ⟨E, -, q⟩ := hd
      rw [withTerm_hdim _ (by rw [n1.leaf]; exact (mem_bonds.1 he).2)] at q
      obtain ⟨M, hM, -⟩ := htot _ d q.1 q.2.1
      exact ⟨M, hM⟩)
  set s2 : Obj T R := { s1 with heap := h2 } with hs2
  have t2 : Twin s2 s := ⟨Sim.trans ⟨b2.next, b2.same⟩ t1.sim, a3, a4, a5, a6⟩
  have n2 := twin_net t2
  refine ⟨⟨s2, inv, log ++ [.reform s inv]⟩, ?_, rfl, k.trans n2.kin, n2, a6, k, ?_, ?_, ?_, ?_⟩
  · unfold reform
    simp only
    rw [a1]
    simp only [ok_bind]
    rw [b1]
    rfl
  · intro e he
    obtain ⟨d, M, q1, q2, q3⟩ := b3 e (by rw [n1.bonds]; exact he)
    rw [n1.hdim (mem_bonds.1 he).2] at q3
    exact ⟨d, M, q1, (hfield (hmem e he)).1 q2, q3⟩
  · intro n t i v hv
    obtain ⟨q1, term, q2, q3⟩ := a7 n t i v hv
    rw [k.tensors] at q1
    rw [k.terms] at q2
    exact ⟨q1, term, q2, q3⟩
  · intro n term hn t hm i hi
    exact a8 n term (by rw [k.terms]; exact hn) (by simp) t (by rw [k.tensors]; exact hm) i (by rw [k.acc]; exact hi)
  · intro t hm ha
    exact n2.markOk (hmarks t hm ha)

theorem axis_lt {s : Obj T R} {F : Forest} (ht : s.heap.IsTTN s.root F) (hrt : s.heap.Rooted s.root F) {t : ℕ} (hm : t ∈ s.heap.tensors s.root F)
    {A : Nd R} (hA : s.heap.Full t A) {k : ℕ} (hk : (s.heap.node t).axis = some k) : k < A.ndim := by
  obtain ⟨h1, h2⟩ := mem_tensors.1 hm
  rcases h1 with rfl | h1
  · rw [hrt.1] at hk; cases hk
  · rw [← Heap.edges_targets F s.root] at h1
    obtain ⟨e, e1, rfl⟩ := List.mem_map.1 h1
    have := hrt.2 e (mem_bonds.2 ⟨e1, h2⟩)
    rw [hk] at this
    cases this
    refine (hA.acc _).1 ?_
    rw [(ht.isLink_edge e1).2]
    simp

/-- `normalize()` on some tensors. -/
theorem normalize_fold {sqrt : R → R} (p : ℕ → Nd R) (ts : List ℕ) (hnd : ts.Nodup) (h : Heap R)
    (hp : ∀ t ∈ ts, h.array t = some (p t) ∧ (p t).Wf ∧ (∀ d ∈ (p t).shape, 0 < d) ∧ (∀ k, (h.node t).axis = some k → k < (p t).ndim) ∧
      ((h.node t).normalized = true → SqrtOk sqrt ∧ Regular (p t) (h.node t).axis)) :
    ∃ h', ts.foldlM (fun h t => do let (h, _) ← h.normalize sqrt t; pure h) h = .ok h' ∧ h'.next = h.next ∧
      (∀ u, { h'.node u with array := none, aux := none } = { h.node u with array := none, aux := none }) ∧
      (∀ u, u ∉ ts → h'.array u = h.array u) ∧
      ∀ t ∈ ts, ∃ B, h'.array t = some B ∧ B.Wf ∧ B.shape = (p t).shape ∧
        (if (h.node t).normalized then Normalized (p t) B (h.node t).axis else B = p t) := by
  induction ts generalizing h with
  | nil => exact ⟨h, rfl, rfl, fun _ => rfl, fun _ _ => rfl, fun t ht => by cases ht⟩
  | cons t ts ih =>
    obtain ⟨n1, n2⟩ := List.nodup_cons.1 hnd
    obtain ⟨q1, q2, q3, q4, q5⟩ := hp t (by simp)
    obtain ⟨h1, o, f1, f2, f3, f4, B, f5, f6, f7, f8⟩ : ∃ h1 o, h.normalize sqrt t = .ok (h1, o) ∧ h1.next = h.next ∧
        (∀ u, { h1.node u with array := none, aux := none } = { h.node u with array := none, aux := none }) ∧
        (∀ u, u ≠ t → h1.array u = h.array u) ∧ ∃ B, h1.array t = some B ∧ B.Wf ∧ B.shape = (p t).shape ∧
        (if (h.node t).normalized then Normalized (p t) B (h.node t).axis else B = p t) := by
      cases hmk : (h.node t).normalized with
      | false => exact ⟨h, none, C18_skip sqrt h t hmk, rfl, fun _ => rfl, fun _ _ => rfl, p t, q1, q2, rfl, by simp⟩
      | true =>
        obtain ⟨hq, hreg⟩ := q5 hmk
        cases hax : (h.node t).axis with
        | none =>
          rw [hax] at hreg
          obtain ⟨B, b, b1, b2, b3, b4, b5, b6, -⟩ := C18_root hq (forced := false) (.inl hmk) q1 hax q2 hreg
          refine ⟨_, _, b3, rfl, fun u => ?_, fun u hu => ?_, B, ?_, b4, b5, ?_⟩
          · rw [node_setArray]
            unfold Heap.setAux
            split <;> rename_i q
            · subst q; rw [node_upd, if_pos rfl]
            · rw [node_upd, if_neg q]
          · rw [Heap.array_setArray, if_neg hu]
            unfold Heap.array Heap.setAux
            rw [node_upd, if_neg hu]
          · rw [Heap.array_setArray, if_pos rfl]
          · simp only [if_true]
            exact ⟨b, b2, b1, b6⟩
        | some k =>
          rw [hax] at hreg
          obtain ⟨B, norms, b1, b2, b3, ⟨B', b4, b5, b6⟩, b7⟩ := C18_axis hq (forced := false) (.inl hmk) q1 hax (q4 k hax) q3 hreg
          rw [Heap.array_setArray, if_pos rfl] at b4
          cases b4
          refine ⟨_, _, b1, rfl, fun u => ?_, fun u hu => ?_, B, ?_, b2, b3, ?_⟩
          · rw [node_setArray]
            split <;> rename_i q
            · subst q; rfl
            · rfl
          · rw [Heap.array_setArray, if_neg hu]
          · rw [Heap.array_setArray, if_pos rfl]
          · simp only [if_true]
            refine ⟨fun i hi j hj => ?_, b7⟩
            rw [← b3] at hi hj ⊢
            exact b6 i j hi hj
    have hax1 : ∀ u, (h1.node u).axis = (h.node u).axis := fun u => by have := congrArg Node.axis (f3 u); exact this
    have hmk1 : ∀ u, (h1.node u).normalized = (h.node u).normalized := fun u => by have := congrArg Node.normalized (f3 u); exact this
    obtain ⟨h', g1, g2, g3, g4, g5⟩ := ih n2 h1 (fun u hu => by
      have hne : u ≠ t := fun q => n1 (q ▸ hu)
      rw [f4 u hne, hax1, hmk1]
      exact hp u (by simp [hu]))
    refine ⟨h', ?_, g2.trans f2, fun u => (g3 u).trans (f3 u), fun u hu => ?_, fun u hu => ?_⟩
    · rw [List.foldlM_cons, f1]
      exact g1
    · simp only [List.mem_cons, not_or] at hu
      rw [g4 u hu.2, f4 u hu.1]
    · rcases List.mem_cons.1 hu with rfl | hu
      · exact ⟨B, by rw [g4 u n1]; exact f5, f6, f7, f8⟩
      · obtain ⟨B, w⟩ := g5 u hu
        rw [hax1, hmk1] at w
        exact ⟨B, w⟩

/-- `updater(y)` -/
theorem update_ok {c : Config T R} {F : Forest} {s0 cur frame : Obj T R} {st : State T R} (hr : Ready s0 F)
    (hq : (∃ t ∈ s0.heap.tensors s0.root F, (s0.heap.node t).normalized = true) → SqrtOk c.sqrt)
    (hl : Live c F s0 cur frame st) {y : List R} (hy : y.length = size s0.heap s0.root F)
    (hreg : ∀ p, Parts s0.heap s0.root F y p → ∀ t ∈ s0.heap.tensors s0.root F, (s0.heap.node t).normalized = true →
      Regular (p t) (s0.heap.node t).axis) :
    ∃ st', update c y st = .ok st' ∧ st'.log = st.log ++ [.update y st'.obj] ∧ st'.inv = st.inv ∧ Live c F s0 st'.obj frame st' ∧
      Updated cur F y st'.obj := by
  obtain ⟨s, inv, log⟩ := st
  have k : Kin s0 s := hl.kin
  have ht : s.heap.IsTTN s.root F := k.ttn hr.ttn
  have hrt : s.heap.Rooted s.root F := k.rooted hr.rooted
  have hf : F.ids.length < s.heap.next := SplitProp.Good.fuel ht
  have hten : s.heap.tensors s.root F = s0.heap.tensors s0.root F := k.tensors F
  obtain ⟨p, hp0⟩ := exists_parts hr.ttn (y := y) hy
  have hp : Parts s.heap s.root F y p := k.toSameShape.parts hp0
  have hps : ∀ t ∈ s.heap.tensors s.root F, (p t).Wf ∧ ∃ A, s.heap.array t = some A ∧ (p t).shape = A.shape := fun t hm => by
    obtain ⟨A, hA⟩ := ht.full t hm
    exact ⟨hp.wf t hm, A, hA.array, hp.shape t hm A hA.array⟩
  have e2 := tensorize_parts ht hrt.1 hf hps
  rw [← hp.flat] at e2
  have k1 := kin_setAll ht hp s.time
  set s1 : Obj T R := { s with heap := setAll (s.heap.tensors s.root F) p s.heap, time := s.time } with hs1
  have k01 := k.trans k1
  have ht1 := k1.ttn ht
  have hten1 : s1.heap.tensors s1.root F = s0.heap.tensors s0.root F := k01.tensors F
  have harr1 : ∀ u ∈ s0.heap.tensors s0.root F, s1.heap.array u = some (p u) := by
    intro u hu
    show (setAll _ _ _).array u = _
    rw [setAll_array, hten, if_pos hu]
  obtain ⟨h2, g1, g2, g3, g4, g5⟩ := normalize_fold (sqrt := c.sqrt) p (s1.heap.tensors s1.root F) (ht1.tree.nodup.filter _) s1.heap (fun t hm => by
    obtain ⟨A, hA⟩ := ht1.full t hm
    have hm0 : t ∈ s0.heap.tensors s0.root F := by rw [← hten1]; exact hm
    have : A = p t := Option.some.inj (hA.array.symm.trans (harr1 t hm0))
    subst this
    refine ⟨hA.array, hA.wf, hA.pos, fun i hi => axis_lt ht1 (k01.rooted hr.rooted) hm hA hi, fun hmk => ?_⟩
    rw [k01.mark] at hmk
    rw [k01.axis]
    exact ⟨hq ⟨t, hm0, hmk⟩, hreg p hp0 t hm0 hmk⟩)
  rw [hten1] at g1 g4 g5
  set s2 : Obj T R := { s with heap := h2 } with hs2
  have k12 : Kin s1 s2 := by
    have hsh : ∀ t A, s1.heap.array t = some A → A.Wf → ∃ B, h2.array t = some B ∧ B.Wf ∧ B.shape = A.shape := by
      intro t A hA hw
      by_cases q : t ∈ s0.heap.tensors s0.root F
      · rw [harr1 t q] at hA
        cases hA
        obtain ⟨B, b1, b2, b3, -⟩ := g5 t q
        exact ⟨B, b1, b2, b3⟩
      · exact ⟨A, by rw [g4 t q]; exact hA, hw, rfl⟩
    refine ⟨⟨rfl, rfl, rfl, g2, fun t => ?_, fun t => ?_, fun t => ?_, fun t => ?_, fun t => ?_, fun t _ => ?_⟩, fun t A _ => hsh t A⟩
    · have := congrArg Node.access (g3 t); exact this
    · have := congrArg Node.isLeaf (g3 t); exact this
    · have := congrArg Node.axis (g3 t); exact this
    · have := congrArg Node.normalized (g3 t); exact this
    · have := congrArg Node.name (g3 t); exact this
    · show (h2.array t).map _ = _
      by_cases q : t ∈ s0.heap.tensors s0.root F
      · obtain ⟨B, b1, b2, b3, -⟩ := g5 t q
        rw [harr1 t q, b1]
        simp [b3]
      · rw [g4 t q]
  have k02 := k01.trans k12
  refine ⟨⟨s2, inv, log ++ [.update y s2]⟩, ?_, rfl, rfl, ⟨k02, .rfl' _, rfl, hl.fkin, hl.inv, hl.env, hl.full, ?_⟩, ?_⟩
  · unfold update
    simp only
    rw [e2]
    simp only [ok_bind]
    have hnx : s.heap.next = s1.heap.next := k1.next.symm
    rw [hnx]
    have hv := visitor_tensors ht1 (k01.rooted hr.rooted).1 (fuel := s1.heap.next) (SplitProp.Good.fuel ht1)
    show (s1.heap.visitor s1.heap.next s1.root (s1.heap.node s1.root).axis false >>= _) = _
    rw [hv, hten1]
    simp only [ok_bind]
    show (List.foldlM _ s1.heap _ >>= _) = _
    rw [g1]
    rfl
  · intro t hm ha A a1 a2 a3
    replace a1 : (s2.heap.node t).normalized = true := a1
    rw [k02.mark] at a1
    show match (s2.heap.node t).axis with
      | some k => s2.heap.Canonical t k
      | none => _
    rw [k02.axis]
    cases hax : (s0.heap.node t).axis with
    | none => exact absurd hax ha
    | some i =>
      obtain ⟨B, b1, b2, b3, b4⟩ := g5 t hm
      rw [k01.mark, a1, k01.axis, hax] at b4
      simp only [if_true] at b4
      obtain ⟨b4, -⟩ := b4
      have hlt : i < (p t).ndim := by
        have hm1 : t ∈ s1.heap.tensors s1.root F := by rw [hten1]; exact hm
        obtain ⟨A', hA'⟩ := ht1.full t hm1
        have : A' = p t := Option.some.inj (hA'.array.symm.trans (harr1 t hm))
        subst this
        exact axis_lt ht1 (k01.rooted hr.rooted) hm1 hA' (by rw [k01.axis]; exact hax)
      refine ⟨B, b1, by unfold Nd.ndim; rw [b3]; exact hlt, fun z w hz hw => ?_⟩
      rw [b3] at hz hw ⊢
      exact b4 z hz w hw
  · have kc : Kin cur s2 := hl.net.kin.trans (k1.trans k12)
    refine ⟨kc, hl.time, p, ?_, fun t hm => ?_⟩
    · have hcs := hl.net
      refine ⟨by rw [← hcs.tensors]; exact hp.flat, fun t hm => hp.wf t (by rw [hcs.tensors]; exact hm), fun t hm A hA => ?_⟩
      exact hp.shape t (by rw [hcs.tensors]; exact hm) A (by rw [hcs.array t (mem_tensors.1 hm).2]; exact hA)
    · have hm0 : t ∈ s0.heap.tensors s0.root F := by rw [← k02.tensors, kc.tensors]; exact hm
      obtain ⟨B, b1, b2, b3, b4⟩ := g5 t hm0
      have e5 : (s1.heap.node t).normalized = (cur.heap.node t).normalized := by rw [k1.mark, ← hl.net.mark]
      have e6 : (s1.heap.node t).axis = (cur.heap.node t).axis := by rw [k1.axis, ← hl.net.axis]
      rw [e5, e6] at b4
      exact ⟨B, b1, b2, b3, b4⟩

end DirectSolve
