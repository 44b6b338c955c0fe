import Verif.Lemmas.SplitProp2
import Verif.Spec.Splitting2

/-!
`ProjectorSplitting` with a Hamiltonian of at most one term: there is nothing to reset between the terms.
-/

open Py

namespace Splitting2

open Heap ML SplitProp

variable {K T R A : Type} [Zero T] [Field R] [StarRing R]

/-- Nothing to reset. -/
def Empty (h : Heap R) (t : ℕ) : Prop := if h.isLeaf t then h.array t = none else (h.node t).penv = []

omit [Field R] [StarRing R] in
theorem reset_empty {h : Heap R} {t : ℕ} (e : Empty h t) : h.reset t = h := by
  unfold Empty Heap.isLeaf Heap.array at e
  unfold Heap.reset Heap.upd
  have : (fun u => if u = t then (if (h.node u).isLeaf then { h.node u with array := none } else { h.node u with penv := [] }) else h.node u) =
      h.node := by
    funext u
    split
    · rename_i q
      subst q
      split
      · rename_i q
        rw [if_pos q] at e
        rw [← e]
      · rename_i q
        rw [if_neg q] at e
        rw [← e]
    · rfl
  first
  | (simp only [this])
  | skip

omit [Field R] [StarRing R] in
theorem empty_reset (h : Heap R) (t u : ℕ) (e : u = t ∨ Empty h u) : Empty (h.reset t) u := by
  unfold Empty
  rw [isLeaf_reset]
  unfold Heap.array Heap.reset
  rw [node_upd]
  by_cases q : u = t
  · subst q
    rw [if_pos rfl]
    unfold Heap.isLeaf
    split
    · rfl
    · rfl
  · rw [if_neg q]
    rcases e with e | e
    · exact absurd e q
    · exact e

omit [Field R] [StarRing R] in
theorem empty_foldl (l : List ℕ) (h : Heap R) (u : ℕ) (e : u ∈ l ∨ Empty h u) : Empty (l.foldl Heap.reset h) u := by
  induction l generalizing h with
  | nil => simpa using e
  | cons a l ih =>
    rw [List.foldl_cons]
    refine ih _ ?_
    rcases e with e | e
    · rcases List.mem_cons.1 e with e | e
      · exact .inr (empty_reset h a u (.inl e))
      · exact .inl e
    · exact .inr (empty_reset h a u (.inr e))

omit [Field R] [StarRing R] in
theorem foldl_reset_id (l : List ℕ) (h : Heap R) (e : ∀ t ∈ l, Empty h t) : l.foldl Heap.reset h = h := by
  induction l with
  | nil => rfl
  | cons a l ih =>
    rw [List.foldl_cons, reset_empty (e a (by simp))]
    exact ih fun t ht => e t (by simp [ht])

omit [Zero T] [Field R] [StarRing R] in
theorem setTerm_eq (time : T) (term : Term T R) (h : Heap R) (hl : ∀ p ∈ term, h.isLeaf p.1 = true) :
    ML.setTerm time term h = .ok (setTerm time term h) := by
  unfold ML.setTerm setTerm
  induction term generalizing h with
  | nil => rfl
  | cons p term ih =>
    rw [List.foldlM_cons, List.foldl_cons, if_pos (hl p (by simp))]
    refine ih _ fun q hq => ?_
    unfold Heap.isLeaf Heap.setArray
    rw [node_upd]
    split
    · exact hl q (by simp [hq])
    · exact hl q (by simp [hq])

/-- With at most one term, the terms are visited as in `ml.py` without the cache. -/
theorem termVisitor_eq {s : Obj T R} {F : Forest} (ht : s.heap.IsTTN s.root F) {fuel : ℕ} (hf : F.depth < fuel) (hfl : s.fList = none)
    (h1 : s.hList.length ≤ 1) (hl : ∀ term ∈ s.hList, ∀ p ∈ term, s.heap.isLeaf p.1 = true)
    {body body' : ℕ → Obj T R × A → Res (Obj T R × A)} (hb : ∀ n x r, body n x = .ok r → body' n x = .ok r) {a : A} {r : Obj T R × A}
    (h : ML.termVisitor fuel false none false body s a = .ok r) : termVisitor fuel body' s a = .ok r := by
  obtain ⟨hp, root, hList, fList, tm, env⟩ := s
  simp only at ht hfl h1 hl
  subst hfl
  have hv := visitor_tree ht.tree true hf
  simp only [Bool.true_or, if_true, List.filter_true, List.cons_append, List.nil_append] at hv
  unfold ML.termVisitor at h
  unfold termVisitor
  simp only [Obj.allTerms] at h
  simp only
  rw [hv] at h ⊢
  simp only [ok_bind] at h ⊢
  match hList with
  | [] => exact h
  | [term] =>
    simp only [List.zipIdx_cons, List.zipIdx_nil, List.foldlM_cons, List.foldlM_nil, Option.isNone_none, Bool.true_and, Bool.false_and,
      Bool.and_false, Bool.false_eq_true, if_false] at h ⊢
    set h0 := (root :: F.ids).foldl Heap.reset hp with hh0
    have e1 : Sim noOps h0 hp := foldl_sim noOps_reset _ _
    have ht2 : h0.IsTTN root F := Sim2.ttn (Sim.symm e1.ops) ht
    have hleaf : ∀ p ∈ term, h0.isLeaf p.1 = true := fun p hpt => by
      rw [e1.ops.isLeaf]; exact hl term (by simp) p hpt
    have hreset : (h0.tensors root F).foldl (loadTensor false env 0) h0 = h0 := by
      have : loadTensor false env 0 = Heap.reset (R := R) := by
        funext h t; unfold loadTensor; rfl
      rw [this]
      refine foldl_reset_id _ _ fun t htm => ?_
      rw [hh0]
      exact empty_foldl _ _ t (.inl (by have := (mem_tensors.1 htm).1; simpa using this))
    unfold ML.termPass at h
    unfold termPass
    simp only at h ⊢
    rw [visit_tensors ht2 hf] at h
    simp only [ok_bind] at h
    rw [hreset, setTerm_eq _ _ _ hleaf] at h
    simp only [ok_bind] at h
    cases hbd : body 0 (⟨setTerm (tm.getD 0) term h0, root, [term], none, tm, env⟩, a) with
    | error x => rw [hbd] at h; cases h
    | ok y =>
      rw [hbd] at h
      rw [hb _ _ _ hbd]
      exact h
  | _ :: _ :: _ => simp at h1

theorem singleDiff_of_eom {fuel t n : ℕ} {s : Obj T R} {r : Obj T R × Nd R} (h : singleEom fuel false [] t n s = .ok r) :
    singleDiff fuel t n s = .ok r := by
  unfold singleEom at h
  unfold singleDiff
  cases ha : s.heap.array t with
  | none => rw [ha] at h; cases h
  | some a =>
    rw [ha] at h
    simp only at h ⊢
    cases hx : applyFields fuel false n t (List.range (s.heap.order t)) (s, a) with
    | error e => rw [hx] at h; cases h
    | ok y =>
      rw [hx] at h
      simp only [ok_bind] at h ⊢
      cases hax : (y.1.heap.node t).axis with
      | none => rw [hax] at h; exact h
      | some k => rw [hax] at h; cases h

/-- The sum over the terms. -/
theorem sumTerms_ok {s0 : Obj T R} {F : Forest} (hr : Ready s0 F) (henv : AwayRight s0 F) (hfl : s0.fList = none) (h1 : s0.hList.length ≤ 1)
    {A : Nd R} (hA : s0.heap.Full s0.root A) {fuel : ℕ} (hf : F.ids.length < fuel) :
    ∃ s' G, sumTerms fuel s0.root A.shape.prod s0 = .ok (s', ⟨[A.shape.prod], G.data⟩) ∧ Clean s0 F s' ∧ s'.time = s0.time ∧
      G.Wf ∧ G.shape = A.shape ∧ IsGradient s0 F s0.root A (s0.allTerms none) G ∧
      ∀ k v, s'.env.get? k = some v → s0.env.get? k = some v ∨
        ∃ n term i, k = (n, s0.root, i) ∧ (s0.allTerms none)[n]? = some term ∧ FieldIs (s0.withTerm term) s0.root i v := by
  obtain ⟨s', G, e, rest⟩ := visitTerms_ok hr henv hA hf false false
  refine ⟨s', G, termVisitor_eq hr.ttn (lt_of_le_of_lt F.depth_le hf) hfl h1 ?_ ?_ e, rest⟩
  · have : s0.allTerms none = s0.hList := by unfold Obj.allTerms; rw [hfl]
    rw [← this]; exact hr.leaf
  · intro n x r h
    cases hs : singleEom fuel false [] s0.root n x.1 with
    | error e => rw [hs] at h; cases h
    | ok y => rw [hs] at h; rw [singleDiff_of_eom hs]; exact h

/-- The invariant: `Fine`, and at most one term. -/
def Fine1 (N : ℕ) (x : Ext T R) (h : Heap R) (r : ℕ) : Prop := Fine Right N x h r ∧ x.hList.length ≤ 1

/-- What is kept apart from the cache. -/
def Good1 (N : ℕ) (x : Ext T R) (h : Heap R) (r : ℕ) : Prop := Good Right N x h r ∧ x.hList.length ≤ 1

/-- The calls that the solver makes. -/
theorem run_ok {N : ℕ} {t : ℕ} {F : Forest} (p : Solve T R) : ∀ (x : Ext T R) (h : Heap R) {A : Nd R}, h.IsTTN t F → h.Rooted t F →
    Fine1 N x h t → h.array t = some A → p.Sane A.shape.prod →
    ∃ x' h', run t p (x, h) = .ok (x', h') ∧ h.GoodChange h' t ∧ Fine1 N x' h' t := by
  induction p with
  | stop y =>
    intro x h A ht hr ⟨f, f1⟩ hA hy
    unfold run
    rw [hA]
    simp only
    rw [if_pos (show y.length = A.shape.prod from hy)]
    have hYw : (⟨A.shape, y⟩ : Nd R).Wf := by unfold Nd.Wf; exact hy
    have g := goodChange_setArray hA hYw rfl
    exact ⟨x, _, rfl, g, f.change ht hr g rfl rfl f.calls fun k v q => .inl q, f1⟩
  | eval time y next ih =>
    rintro x h A' ht hr ⟨f, hone⟩ hA' ⟨hy, hnext⟩
    obtain ⟨A, hA⟩ := ht.full t (mem_tensors.2 ⟨.inl rfl, ht.leaf⟩)
    obtain rfl : A = A' := Option.some.inj (hA.array.symm.trans hA')
    unfold run
    rw [hA.array]
    simp only
    rw [if_pos hy]
    set Y : Nd R := ⟨A.shape, y⟩ with hY
    have hYw : Y.Wf := by unfold Nd.Wf; exact hy
    have g1 := goodChange_setArray hA.array hYw (B := Y) rfl
    set h1 := h.setArray t (some Y) with hh1
    have ht1 := Sweep.ttn_change ht g1
    have hr1 := Sweep.rooted_change hr g1
    have f1 : Fine Right N x h1 t := f.change ht hr g1 rfl rfl f.calls fun k v q => .inl q
    set s0 : Obj T R := x.obj h1 t with hs0
    have hall : s0.allTerms none = x.hList := f1.allTerms h1 t
    have hY1 : h1.array t = some Y := by rw [hh1, array_setArray, if_pos rfl]
    obtain ⟨Y', hY'⟩ := ht1.full t (mem_tensors.2 ⟨.inl rfl, ht1.leaf⟩)
    obtain rfl : Y = Y' := Option.some.inj (hY1.symm.trans hY'.array)
    have hready : Ready s0 F := f1.ready ht1 hr1 _ _
    have haway : AwayRight s0 F := f1.env F ht1
    obtain ⟨s', G, r1, r2, r3, r4, r5, r6, r7⟩ := sumTerms_ok (s0 := s0) hready haway f.fList hone hY' (Good.fuel ht1)
    have hright : Right ⟨s0, t, true, ⟨[A.shape.prod], G.data⟩, G.data⟩ :=
      ⟨rfl, F, ht1, haway, Y, G, hY1, by rw [hall] at r6; exact r6, r4, r5, rfl, rfl⟩
    have e1 : sumTerms h.next t y.length s0 = .ok (s', ⟨[A.shape.prod], G.data⟩) := by
      rw [hy]; exact r1
    rw [e1]
    simp only [ok_bind]
    have o := Clean.onlyCaches r2 f1.empty
    have hA3 : s'.heap.array t = some Y := by rw [o.array]; exact hY1
    have g2 : h1.GoodChange s'.heap t := ⟨o.access, o.next, o.node, fun u _ => o.array u, fun B hB => by
      have : some Y = some B := hY1.symm.trans hB
      cases this
      exact ⟨Y, hA3, hYw, rfl⟩⟩
    have g := GoodChange.trans g1 g2
    have f3 : Fine Right N { x.take s' with calls := x.calls ++ [⟨s0, t, true, ⟨[A.shape.prod], G.data⟩, G.data⟩] } s'.heap t := by
      refine f.change ht hr g rfl rfl ?_ ?_
      · intro d hd
        rcases List.mem_append.1 hd with q | q
        · exact f.calls d q
        · rw [List.mem_singleton.1 q]; exact hright
      · intro k v hv
        rcases r7 k v hv with q | ⟨n, term, i, q1, q2, q3⟩
        · exact .inl q
        · rw [hall] at q2
          by_cases hi : h1.acc t i = none
          · exfalso
            obtain ⟨E, ⟨c', j', w1, -⟩, -⟩ := q3
            rw [withTerm_acc] at w1
            have : h1.acc t i = some (c', j') := w1
            rw [hi] at this; cases this
          · obtain ⟨⟨c', j'⟩, hcj⟩ := Option.ne_none_iff_exists'.1 hi
            refine .inr ⟨n, term, i, q1, q2, ?_⟩
            exact field_change (s := s0) (s' := Ext.obj { x.take s' with
              calls := x.calls ++ [⟨s0, t, true, ⟨[A.shape.prod], G.data⟩, G.data⟩] } s'.heap t) (e := (t, i, c', j')) ht1 g2
              (opOn_const (f.const term (List.mem_of_getElem? q2)) _ _) (ht1.edge_of_acc hcj) q3
    have hGl : G.data.length = A.shape.prod := by
      have : G.data.length = G.shape.prod := r4
      rw [this, r5]
    obtain ⟨x', h', e2, e3, e4⟩ := ih G.data _ s'.heap (Sweep.ttn_change ht g) (Sweep.rooted_change hr g) ⟨f3, hone⟩ hA3 (hnext _ hGl)
    exact ⟨x', h', e2, GoodChange.trans g e3, e4⟩

/-- `_form_env` -/
theorem formEnv_fine {N : ℕ} {x : Ext T R} {h : Heap R} {r : ℕ} {F : Forest} (ht : h.IsTTN r F) (hr : h.Rooted r F) (f : Good1 N x h r) :
    ∃ x' h', formEnv x h r = .ok (x', h') ∧ Sweep.OnlyCaches h h' ∧ Fine1 N x' h' r := by
  obtain ⟨f, hone⟩ := f
  let cf : SplitProp.Config Unit T R := ⟨true, id, fun _ => 1, none, fun _ _ _ => .stop, fun _ => .error .typeError, fun _ => .error .typeError⟩
  obtain ⟨x', h', e1, e2, e3⟩ := SplitProp.formEnv_fine cf ht hr f
  have hx : x'.hList = x.hList := by
    unfold SplitProp.formEnv at e1
    cases q : ML.formEnv h.next false (x.obj h r) with
    | error e => rw [q] at e1; cases e1
    | ok s => rw [q] at e1; cases e1; rfl
  refine ⟨x', h', ?_, e2, e3, by rw [hx]; exact hone⟩
  unfold SplitProp.formEnv at e1
  unfold formEnv
  cases q : ML.formEnv h.next false (x.obj h r) with
  | error e => rw [q] at e1; cases e1
  | ok s =>
    rw [q] at e1
    have : formEnvTerms h.next (x.obj h r) = .ok s := by
      unfold ML.formEnv at q
      unfold formEnvTerms
      cases q2 : ML.termVisitor h.next false none false (fun n (x : Obj T R × Unit) => do
          let ts ← x.1.heap.visitor h.next x.1.root none false
          let s ← ts.foldlM (fun s t => formEnvAt h.next n t s) x.1
          pure (s, ())) { x.obj h r with env := [] } () with
      | error e => rw [q2] at q; cases q
      | ok y =>
        rw [q2] at q
        rw [termVisitor_eq (s := { x.obj h r with env := [] }) ht (lt_of_le_of_lt F.depth_le (Good.fuel ht)) f.fList hone
          (fun term hterm p hp => (f.leaf term hterm p hp).1) (fun n x r h => h) q2]
        exact q
    rw [this]
    exact e1

/-- The sweeps keep the invariant. -/
theorem goodI (N : ℕ) (cf : Config K T R) (h0 : ∀ t0 y0 tau, (cf.solver t0 y0 tau).Sane y0.length) (h1 : SvdShape cf.svd)
    (h2 : SvdShape cf.svdU) (h3 : SvdIso cf.svd) (h4 : SvdIso cf.svdU) : (hooks cf).GoodI (Fine1 N) (Good1 N) where
  evolve x h t F tau cache ht hr f := by
    obtain ⟨A, hA⟩ := ht.full t (mem_tensors.2 ⟨.inl rfl, ht.leaf⟩)
    have hs := h0 (x.time.getD 0) A.data tau
    rw [hA.wf] at hs
    obtain ⟨x', h', e1, e2, e3⟩ := run_ok _ x h ht hr f hA.array hs
    refine ⟨x', h', ?_, e2, e3⟩
    show evolve cf x h t tau = _
    unfold evolve
    rw [hA.array]
    exact e1
  formEnv x h r F ht hr f := formEnv_fine ht hr f
  again x h r f := ⟨f.1.toGood, f.2⟩
  split1 x h hh1 r F i fin j mid F1 ht hr hb hl f m mt hr1 _ _ :=
    ⟨f.1.mid ht (.inl rfl) ht hb hl (MidSplit.midOk h3 ht hb hl m) mt, f.2⟩
  split2 x h hh1 hh2 hh3 r F i fin j mid F1 F3 op ht hr hb hl m mt hr1 g f hn mv t3 r3 _ _ :=
    ⟨.back ht hb hl (MidSplit.midOk h3 ht hb hl m) mt g f.1 hn h3 mv t3, f.2⟩
  unite1 x h hh1 r Fr t F i fin j mid F1 A B htr hrr ht hroot hA hB hb hl f m mt hr1 :=
    ⟨f.1.mid htr hroot ht hb hl (MidUnite.midOk ht hA hB hb hl m) mt, f.2⟩
  unite2 x h hh1 hh2 hh3 r Fr t F i fin j mid F1 F3 op A B htr hrr ht hroot hA hB hb hl m mt hr1 g f hn mv t3 r3 _ _ :=
    ⟨.back ht hb hl (MidUnite.midOk ht hA hB hb hl m) mt g f.1 hn h4 mv t3, f.2⟩
  svd := h1
  svdU := h2

end Splitting2
