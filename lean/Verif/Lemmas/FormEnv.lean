import Verif.Lemmas.Eom4

/-!
`_form_env` and `_form_inv_density`: what they store.
-/

open scoped BigOperators
open Py

/-- Folding with a statement about what has been processed. -/
theorem foldlM_track {α σ : Type} {f : σ → α → Res σ} (P : List α → σ → Prop) (l : List α) (s : σ) (h0 : P [] s)
    (hstep : ∀ p x s, x ∈ l → P p s → ∃ s', f s x = .ok s' ∧ P (p ++ [x]) s') : ∃ s', l.foldlM f s = .ok s' ∧ P l s' := by
  have key : ∀ (l2 p : List α) (s : σ), (∀ x ∈ l2, x ∈ l) → P p s → ∃ s', l2.foldlM f s = .ok s' ∧ P (p ++ l2) s' := by
    intro l2
    induction l2 with
    | nil => intro p s _ hp; exact ⟨s, rfl, by simpa using hp⟩
    | cons x l2 ih =>
      intro p s hx hp
      obtain ⟨s1, e1, p1⟩ := hstep p x s (hx x (by simp)) hp
      obtain ⟨s2, e2, p2⟩ := ih (p ++ [x]) s1 (fun y hy => hx y (by simp [hy])) p1
      refine ⟨s2, ?_, by simpa using p2⟩
      rw [List.foldlM_cons, e1]
      exact e2
  obtain ⟨s', h1, h2⟩ := key l [] s (fun _ q => q) h0
  exact ⟨s', h1, h2⟩

namespace Heap

variable {R : Type} [CommRing R] [StarRing R]

/-- A cached `None` belongs to the axis of its tensor (for the tensors in `P`). -/
def NoneAx (P : ℕ → Prop) (h : Heap R) : Prop :=
  ∀ t k, P t → h.isLeaf t = false → Dict.get? (h.node t).penv k = some none → (h.node t).axis = some k

/-- `partial_env` of a tensor answers `None` for its own axis only. -/
theorem partialEnv_none {P : ℕ → Prop} {h0 : Heap R} (hP : ∀ t i, P t → ∀ x ∈ h0.children t i true, P x.2.1) (fuel : ℕ) :
    ∀ (h : Heap R) (t k : ℕ) (h' : Heap R) (v : Option (Nd R)), SameCore h h0 → NoneAx P h → P t →
      partialEnv fuel h t (some k) false = .ok (h', v) →
      SameCore h' h0 ∧ NoneAx P h' ∧ (h.isLeaf t = false → v = none → (h.node t).axis = some k) := by
  induction fuel with
  | zero => intro h t k h' v _ _ _ he; cases he
  | succ fuel ih =>
    intro h t k h' v hc hn ht he
    rw [partialEnv_succ] at he
    cases hl : h.isLeaf t with
    | true =>
      rw [hl, if_pos rfl] at he
      cases he
      exact ⟨hc, hn, fun q => by cases q⟩
    | false =>
      rw [hl] at he
      simp only [Bool.false_eq_true, if_false] at he
      cases hcache : h.cached t (some k) false with
      | some w =>
        rw [hcache] at he
        cases he
        refine ⟨hc, hn, fun _ q => ?_⟩
        subst q
        exact hn t k ht hl hcache
      | none =>
        rw [hcache] at he
        simp only at he
        have hfold : ∀ (l : List (ℕ × ℕ × ℕ)) (s s' : Heap R × List (ℕ × Option (Nd R))), (∀ x ∈ l, P x.2.1) → SameCore s.1 h0 →
            NoneAx P s.1 → l.foldlM (envStep fuel false) s = .ok s' → SameCore s'.1 h0 ∧ NoneAx P s'.1 := by
          intro l
          induction l with
          | nil => intro s s' _ h1 h2 q; cases q; exact ⟨h1, h2⟩
          | cons x l ihl =>
            intro s s' hx h1 h2 q
            rw [List.foldlM_cons] at q
            obtain ⟨s1, q1, q2⟩ := bind_eq_ok.1 q
            unfold envStep at q1
            obtain ⟨⟨h3, w⟩, q3, q4⟩ := bind_eq_ok.1 q1
            cases q4
            obtain ⟨g1, g2, -⟩ := ih s.1 x.2.1 x.2.2 h3 w h1 h2 (hx x (by simp)) q3
            exact ihl _ s' (fun y hy => hx y (by simp [hy])) g1 g2 q2
        obtain ⟨s, q1, q2⟩ := bind_eq_ok.1 he
        obtain ⟨ans, q3, q4⟩ := bind_eq_ok.1 q2
        obtain ⟨g1, g2⟩ := hfold _ _ s (fun x hx => hP t (some k) ht x (by rw [← hc.children]; exact hx)) hc hn q1
        have hans : ans = none → (h.node t).axis = some k := by
          intro q
          subst q
          unfold envAnswer at q3
          split at q3
          · rename_i hsc
            unfold shortcut at hsc
            simp only [Bool.not_false, Bool.true_and, Bool.and_eq_true, decide_eq_true_eq] at hsc
            rw [hc.axis, ← g1.axis]
            exact hsc.1.1.symm
          · cases hx : s.1.contractEnv t (some k) false s.2 with
            | error _ => rw [hx] at q3; cases q3
            | ok _ => rw [hx] at q3; cases q3
        unfold envStore at q4
        simp only [Bool.false_eq_true, if_false, Except.ok.injEq, Prod.mk.injEq] at q4
        obtain ⟨rfl, rfl⟩ := q4
        refine ⟨SameCore.trans (h' := s.1) ⟨rfl, fun u => ?_⟩ g1, ?_, fun _ => hans⟩
        · rw [node_upd]; split
          · rename_i q; subst q; rfl
          · rfl
        · intro u i hu hlu hi
          have hlu' : s.1.isLeaf u = false := by
            rw [← hlu]
            unfold Heap.isLeaf
            rw [node_upd]
            split
            · rename_i q; subst q; rfl
            · rfl
          rw [node_upd] at hi ⊢
          by_cases hut : u = t
          · subst hut
            simp only [if_true] at hi ⊢
            rw [Dict.get?_set] at hi
            split at hi
            · rename_i hk
              subst hk
              rw [g1.axis, ← hc.axis]
              exact hans (Option.some.inj hi)
            · exact g2 u i hu hlu' hi
          · simp only [hut, if_false] at hi ⊢
            exact g2 u i hu hlu' hi

end Heap

namespace ML

open Heap

variable {T R : Type} [Zero T] [Field R] [StarRing R]

/-- A network in which the leaves carry the operators of a term has the mean fields of the term. -/
theorem field_withTerm {s0 : Obj T R} {F : Forest} (ht : s0.heap.IsTTN s0.root F) {term : Term T R} {h : Heap R}
    (e : Sim2 h s0.heap) (hlv : ∀ l ∈ F.ids, h.isLeaf l = true → h.array l = opOn s0.now term l) {t : ℕ}
    (hm : t ∈ s0.heap.tensors s0.root F) {i : ℕ} {v : Option (Nd R)} : FieldIs h t i v ↔ FieldIs (s0.withTerm term) t i v := by
  have hl0 := (mem_tensors.1 hm).2
  have hl : h.isLeaf t = false := by rw [e.isLeaf]; exact hl0
  have hh : h.IsTTN s0.root F := Sim2.ttn (Sim.symm e) ht
  have hw := IsTTN.withTerm ht term
  have harr : ∀ u ∈ s0.root :: F.ids, h.array u = (s0.withTerm term).array u := by
    intro u hu
    cases hlu : s0.heap.isLeaf u with
    | true =>
      rw [withTerm_leaf hlu]
      rcases List.mem_cons.1 hu with rfl | hu
      · rw [ht.leaf] at hlu; cases hlu
      · exact hlv u hu (by rw [e.isLeaf]; exact hlu)
    | false => rw [withTerm_array hlu, e.array (by rw [e.isLeaf]; exact hlu)]
  have hd : h.hdim (t, i) = (s0.withTerm term).hdim (t, i) := by rw [withTerm_hdim term hl0, e.hdim hl]
  constructor
  · rintro ⟨E, f1, f2⟩
    exact ⟨E, f1.transfer hh hw (by rw [e.tensors]; exact hm) (fun u i => by rw [withTerm_acc, e.acc])
      (fun u => by rw [withTerm_isLeaf, e.isLeaf]) (fun u hu _ => (harr u hu).symm), by rw [← hd]; exact f2⟩
  · rintro ⟨E, f1, f2⟩
    exact ⟨E, f1.transfer hw hh (by rw [withTerm_tensors]; exact hm) (fun u i => by rw [e.acc, withTerm_acc])
      (fun u => by rw [e.isLeaf, withTerm_isLeaf]) (fun u hu _ => harr u hu), by rw [hd]; exact f2⟩

/-- The mean fields at some axes of one tensor. -/
theorem formEnvAt_ok {h0 : Heap R} {r : ℕ} {F : Forest} (ht : h0.IsTTN r F) (ho : h0.OpsFit r F) {t : ℕ}
    (hm : t ∈ h0.tensors r F) {fuel : ℕ} (hf : F.ids.length < fuel) {n : ℕ} {s : Obj T R} (hc : SameCore s.heap h0)
    (hs : Sound (InNet r F) h0 s.heap false) :
    ∃ h' env', formEnvAt fuel n t s = .ok { s with heap := h', env := env' } ∧ SameCore h' h0 ∧ Sound (InNet r F) h0 h' false ∧
      (∀ m u i v, env'.get? (m, u, i) = some v → s.env.get? (m, u, i) = some v ∨
        (m = n ∧ u = t ∧ FieldIs h0 t i v)) ∧
      (∀ k, s.env.get? k ≠ none → env'.get? k ≠ none) ∧ ∀ i, h0.acc t i ≠ none → env'.get? (n, t, i) ≠ none := by
  obtain ⟨A, hA⟩ := ht.full t hm
  have hord : s.heap.order t = A.ndim := by
    have : s.heap.order t = h0.order t := by unfold Heap.order; rw [hc.access, hc.isLeaf]
    rw [this, hA.order ht.links.wf]
  obtain ⟨s', g1, h', env', rfl, g2, g3, g4, g5, g6⟩ := foldlM_track (f := fun (s : Obj T R) i => do
      let (h, e) ← s.heap.partialEnvProper fuel t i false
      pure { s with heap := h, env := s.env.set (n, t, i) e })
    (fun p s' => ∃ h' env', s' = { s with heap := h', env := env' } ∧ SameCore h' h0 ∧ Sound (InNet r F) h0 h' false ∧
      (∀ m u i v, env'.get? (m, u, i) = some v → s.env.get? (m, u, i) = some v ∨ (m = n ∧ u = t ∧ FieldIs h0 t i v)) ∧
      (∀ k, s.env.get? k ≠ none → env'.get? k ≠ none) ∧ ∀ i ∈ p, env'.get? (n, t, i) ≠ none)
    (List.range A.ndim) s ⟨s.heap, s.env, rfl, hc, hs, fun _ _ _ _ q => .inl q, fun _ q => q, by simp⟩
    (by
      rintro p i s1 hi ⟨h1, env1, rfl, c1, c2, c3, c4, c5⟩
      have hacc : h0.acc t i ≠ none := (hA.acc i).2 (List.mem_range.1 hi)
      obtain ⟨h2, ans, E, f1, f2, f3, f4, f5⟩ := field_ok ht ho hm hacc c1 c2 hf
      refine ⟨_, by simp only [f1, ok_bind]; rfl, h2, env1.set (n, t, i) ans, rfl, f2, f3, ?_, ?_, ?_⟩
      · intro m u j v hv
        rw [Dict.get?_set] at hv
        split at hv
        · rename_i q
          simp only [Prod.mk.injEq] at q
          obtain ⟨rfl, rfl, rfl⟩ := q
          cases hv
          exact .inr ⟨rfl, rfl, E, f4, f5⟩
        · exact c3 m u j v hv
      · intro k hk
        rw [Dict.get?_set]
        split
        · simp
        · exact c4 k hk
      · intro j hj
        rw [Dict.get?_set]
        split
        · simp
        · rename_i q
          rcases List.mem_append.1 hj with hj | hj
          · exact c5 j hj
          · simp only [List.mem_singleton] at hj
            subst hj
            exact absurd rfl q)
  refine ⟨h', env', ?_, g2, g3, g4, g5, fun i hi => g6 i (List.mem_range.2 ((hA.acc i).1 hi))⟩
  unfold formEnvAt
  rw [hord]
  exact g1

/-- `_form_env()`: every stored mean field is that of its term in the present state; with `update` the entries of the terms of
`h_list` are not formed, otherwise all entries are there. -/
theorem formEnv_ok {s0 : Obj T R} {F : Forest} (ht : s0.heap.IsTTN s0.root F)
    (hnorm : ∀ t ∈ s0.heap.tensors s0.root F, (s0.heap.node t).axis ≠ none → s0.heap.MarkOk t)
    (hleaf : ∀ term ∈ s0.allTerms none, ∀ p ∈ term, s0.heap.isLeaf p.1 = true)
    (hfits : ∀ term ∈ s0.allTerms none, ∀ p ∈ s0.heap.leafList s0.root F, OpFits (opOn s0.now term p.1) p.2 p.2)
    (update : Bool) {fuel : ℕ} (hf : F.ids.length < fuel) :
    ∃ s1, formEnv fuel update s0 = .ok s1 ∧ Clean s0 F s1 ∧ s1.root = s0.root ∧ s1.hList = s0.hList ∧ s1.fList = s0.fList ∧
      s1.time = s0.time ∧ (∀ n t i v, s1.env.get? (n, t, i) = some v → t ∈ s0.heap.tensors s0.root F ∧
        ∃ term, (s0.allTerms none)[n]? = some term ∧ FieldIs (s0.withTerm term) t i v) ∧
      ∀ n term, (s0.allTerms none)[n]? = some term → (update = true → s0.hList.length ≤ n) →
        ∀ t ∈ s0.heap.tensors s0.root F, ∀ i, s0.heap.acc t i ≠ none → s1.env.get? (n, t, i) ≠ none := by
  have hd : F.depth < fuel := lt_of_le_of_lt F.depth_le hf
  set s00 : Obj T R := { s0 with env := [] } with hs00
  obtain ⟨s2, u, v1, v2, v3, v4, v5, v6, v7, v8⟩ := termVisitor_ok (A := Unit) (s0 := s00) (useCache := false) (onlyTd := update)
    (op := none) (F := F) ht hd
    (body := fun n x => do
      let ts ← x.1.heap.visitor fuel x.1.root none false
      let s ← ts.foldlM (fun s t => formEnvAt fuel n t s) x.1
      pure (s, ()))
    (I := fun n s2 _ => s2.root = s0.root ∧ s2.hList = s0.hList ∧ s2.fList = s0.fList ∧ s2.time = s0.time ∧
      (∀ n t i v, s2.env.get? (n, t, i) = some v → t ∈ s0.heap.tensors s0.root F ∧
        ∃ term, (s0.allTerms none)[n]? = some term ∧ FieldIs (s0.withTerm term) t i v) ∧
      ∀ m term, (s0.allTerms none)[m]? = some term → (update = true → s0.hList.length ≤ m) → m < n →
        ∀ t ∈ s0.heap.tensors s0.root F, ∀ i, s0.heap.acc t i ≠ none → s2.env.get? (m, t, i) ≠ none)
    (fun n s2 _ h' e hi => hi)
    hleaf
    (fun n term hn _ s2 a hat _ hi => by
      obtain ⟨i1, i2, i3, i4, i5, i6⟩ := hi
      have hterm : term ∈ s0.allTerms none := List.mem_of_getElem? hn
      have e2 : Sim2 s2.heap s0.heap := ⟨hat.next, hat.same⟩
      have ht2 : s2.heap.IsTTN s0.root F := Sim2.ttn (Sim.symm e2) ht
      have hsound : Sound (InNet s0.root F) s2.heap s2.heap false := by
        refine fun _ => ⟨fun t k v hP hv hl G _ => ?_, fun t k hP hk => ?_⟩
        · have := hat.cache t (mem_tensors.2 ⟨hP, hl⟩) k
          simp only [Bool.false_eq_true, if_false] at this
          rw [hv] at this
          cases this
        · by_cases hl : s2.heap.isLeaf t = false
          · have hm : t ∈ s0.heap.tensors s0.root F := by rw [← e2.tensors]; exact mem_tensors.2 ⟨hP, hl⟩
            exact (hnorm t hm (by rw [← e2.axis, hk]; simp)).congr (Sim.symm e2)
          · exact fun A _ q _ => absurd q hl
      have ho : s2.heap.OpsFit s0.root F := by
        intro x hx hlf
        have hsl := (mem_tensors.1 (edges_src_mem ht2 hx)).2
        rw [hat.leaves _ (TreeSum.edges_mem hx).2 hlf, e2.hdim hsl]
        refine hfits term hterm (x.2.2.1, s0.heap.hdim (x.1, x.2.1)) ?_
        exact List.mem_map.2 ⟨x, List.mem_filter.2 ⟨hx, by rw [← e2.isLeaf]; exact hlf⟩, rfl⟩
      obtain ⟨s', g1, h', env', rfl, g2, g3, g4, g5, g6⟩ := foldlM_track (f := fun (s : Obj T R) t => formEnvAt fuel n t s)
        (fun p s' => ∃ h' env', s' = { s2 with heap := h', env := env' } ∧ SameCore h' s2.heap ∧
          Sound (InNet s0.root F) s2.heap h' false ∧
          (∀ m u i v, env'.get? (m, u, i) = some v → s2.env.get? (m, u, i) = some v ∨
            (m = n ∧ u ∈ s0.heap.tensors s0.root F ∧ FieldIs s2.heap u i v)) ∧
          (∀ k, s2.env.get? k ≠ none → env'.get? k ≠ none) ∧
          ∀ t ∈ p, ∀ i, s2.heap.acc t i ≠ none → env'.get? (n, t, i) ≠ none)
        (s0.heap.tensors s0.root F) s2 ⟨s2.heap, s2.env, rfl, SameCore.rfl' _, hsound, fun _ _ _ _ q => .inl q, fun _ q => q, by simp⟩
        (by
          rintro p t s1 hm ⟨h1, env1, rfl, c1, c2, c3, c4, c5⟩
          have hm2 : t ∈ s2.heap.tensors s0.root F := by rw [e2.tensors]; exact hm
          obtain ⟨h3, env3, f1, f2, f3, f4, f5, f6⟩ := formEnvAt_ok (n := n) ht2 ho hm2 hf (s := { s2 with heap := h1, env := env1 }) c1 c2
          refine ⟨_, f1, h3, env3, rfl, f2, f3, ?_, fun k hk => f5 k (c4 k hk), ?_⟩
          · intro m u i v hv
            rcases f4 m u i v hv with q | ⟨rfl, rfl, q⟩
            · exact c3 m u i v q
            · exact .inr ⟨rfl, hm, q⟩
          · intro u hu i hi
            rcases List.mem_append.1 hu with hu | hu
            · exact f5 _ (c5 u hu i hi)
            · simp only [List.mem_singleton] at hu
              subst hu
              exact f6 i hi)
      refine ⟨{ s2 with heap := h', env := env' }, (), ?_, g2.noAux.symm, rfl, i1, i2, i3, i4, ?_, ?_⟩
      · beta_reduce
        simp only
        rw [i1, visit_tensors ht2 hd, e2.tensors]
        simp only [ok_bind]
        rw [g1]
        simp only [i1]
        rfl
      · intro m t i v hv
        rcases g4 m t i v hv with q | ⟨rfl, q1, q2⟩
        · exact i5 m t i v q
        · exact ⟨q1, term, hn, (field_withTerm ht e2 hat.leaves q1).1 q2⟩
      · intro m term' hm1 hm2 hm3 t htm i hi
        by_cases hmn : m = n
        · subst hmn
          exact g6 t htm i (by rw [e2.acc]; exact hi)
        · exact g5 _ (i6 m term' hm1 hm2 (by omega) t htm i hi))
    (a := ()) ⟨rfl, rfl, rfl, rfl, (fun n t i v q => by cases q), fun m term hm1 hm2 hm3 => by
      exfalso
      unfold firstTerm at hm3
      split at hm3
      · rename_i q
        have := hm2 q.2
        simp only [hs00] at hm3
        omega
      · omega⟩
  refine ⟨s2, ?_, ⟨v2.next, v2.same, v2.leaves, v2.others⟩, v3, v4, v5, v6, v7, fun n term hn hu t hm i hi =>
    v8 n term hn hu (List.getElem?_eq_some_iff.1 hn).1 t hm i hi⟩
  unfold formEnv
  rw [v1]
  rfl

/-- `_form_inv_density()`: for every tensor but the root, the inverse (as computed by `scipy.linalg`) of the density of its
axis in the present state. -/
theorem formInvDensity_ok {s0 : Obj T R} {F : Forest} (ht : s0.heap.IsTTN s0.root F) (hroot : s0.heap.Rooted s0.root F)
    (hnorm : ∀ t ∈ s0.heap.tensors s0.root F, (s0.heap.node t).axis ≠ none → s0.heap.MarkOk t) (hax : ∀ l ∈ F.ids, s0.heap.isLeaf l = true → (s0.heap.node l).axis = none)
    {lin : Linalg R} {fuel : ℕ} (hf : F.ids.length < fuel)
    (hlin : ∀ e ∈ s0.heap.bonds s0.root F, ∀ d, FieldIs (s0.withTerm []) e.2.2.1 e.2.2.2 (some d) →
      ∃ M, lin.invert (some d) (s0.heap.hdim (e.2.2.1, e.2.2.2)) = .ok M) :
    ∃ h' inv, formInvDensity fuel lin s0 = .ok ({ s0 with heap := h' }, inv) ∧ Clean s0 F { s0 with heap := h' } ∧
      ∀ e ∈ s0.heap.bonds s0.root F, ∃ d M, inv.get? e.2.2.1 = some M ∧ FieldIs (s0.withTerm []) e.2.2.1 e.2.2.2 (some d) ∧
        lin.invert (some d) (s0.heap.hdim (e.2.2.1, e.2.2.2)) = .ok M := by
  have hd : F.depth < fuel := lt_of_le_of_lt F.depth_le hf
  have hv := visitor_tree ht.tree true hd
  simp only [Bool.true_or, if_true, List.filter_true, List.cons_append, List.nil_append] at hv
  set h1 := (s0.root :: F.ids).foldl Heap.reset s0.heap with hh1
  have e0 : Sim noOps h1 s0.heap := foldl_sim noOps_reset _ _
  have e1 : Sim2 h1 s0.heap := e0.ops
  have ht1 : h1.IsTTN s0.root F := Sim2.ttn (Sim.symm e1) ht
  have hv1 := visitor_tree ht1.tree true hd
  simp only [Bool.true_or, if_true, List.filter_true, List.cons_append, List.nil_append] at hv1
  have harr : ∀ l ∈ F.ids, h1.isLeaf l = true → h1.array l = none := by
    intro l hl hlf
    rw [hh1, foldl_reset _ _ l (by rw [← e1.isLeaf]; exact hlf), if_pos (List.mem_cons_of_mem _ hl)]
  have hpenv : ∀ t ∈ s0.root :: F.ids, h1.isLeaf t = false → (h1.node t).penv = [] := by
    have key : ∀ (l : List ℕ) (h : Heap R) (t : ℕ), h.isLeaf t = false → (t ∈ l ∨ (h.node t).penv = []) →
        ((l.foldl Heap.reset h).node t).penv = [] := by
      intro l
      induction l with
      | nil => intro h t _ q; simpa using q
      | cons a l ih =>
        intro h t hl q
        rw [List.foldl_cons]
        refine ih _ t (by rw [isLeaf_reset]; exact hl) ?_
        by_cases hta : t = a
        · subst hta
          right
          have : (h.node t).isLeaf = false := hl
          unfold reset
          rw [node_upd, if_pos rfl, this]
          rfl
        · have hn : (h.reset a).node t = h.node t := by unfold reset; rw [node_upd, if_neg hta]
          rw [hn]
          rcases q with q | q
          · rcases List.mem_cons.1 q with q | q
            · exact absurd q hta
            · exact .inl q
          · exact .inr q
    intro t hm hl
    exact key _ _ t (by rw [← e1.isLeaf]; exact hl) (.inl hm)
  have ho : h1.OpsFit s0.root F := by
    intro x hx hlf
    rw [harr _ (TreeSum.edges_mem hx).2 hlf]
    rfl
  have hsound : Sound (InNet s0.root F) h1 h1 false := by
    refine fun _ => ⟨fun t k v hP hv hl G _ => ?_, fun t k hP hk => ?_⟩
    · rw [hpenv t (List.mem_cons.2 hP) hl] at hv
      cases hv
    · by_cases hl : h1.isLeaf t = false
      · have hm : t ∈ s0.heap.tensors s0.root F := by rw [← e1.tensors]; exact mem_tensors.2 ⟨hP, hl⟩
        exact (hnorm t hm (by rw [← e1.axis, hk]; simp)).congr (Sim.symm e1)
      · exact fun A _ q _ => absurd q hl
  have hnone : NoneAx (fun t => t = s0.root ∨ t ∈ F.ids) h1 := by
    intro t k hP hl hk
    rw [hpenv t (by simpa using hP) hl] at hk
    cases hk
  have hclosed : ∀ t i, (t = s0.root ∨ t ∈ F.ids) → ∀ x ∈ h1.children t i true, x.2.1 = s0.root ∨ x.2.1 ∈ F.ids := by
    intro t i hP x hx
    have hacc : h1.acc t x.1 = some (x.2.1, x.2.2) := by
      by_cases hl : i = none ∧ h1.isLeaf t = true
      · unfold Heap.children at hx
        rw [if_pos hl] at hx
        cases hx
      · exact ((mem_children ht1.links.wf hl).1 hx).1
    exact (ht1.mem_linked _).2 (((ht1.mem_linked t).1 hP).trans (Relation.ReflTransGen.single ⟨_, _, hacc⟩))
  obtain ⟨⟨h2, inv⟩, g1, g2, g3, g4, g5⟩ := foldlM_track (f := invDensityAt fuel lin)
    (fun p (x : Heap R × Dict ℕ (Nd R)) => SameCore x.1 h1 ∧ Sound (InNet s0.root F) h1 x.1 false ∧
      NoneAx (fun t => t = s0.root ∨ t ∈ F.ids) x.1 ∧
      ∀ e ∈ s0.heap.bonds s0.root F, e.2.2.1 ∈ p → ∃ d M, x.2.get? e.2.2.1 = some M ∧
        FieldIs (s0.withTerm []) e.2.2.1 e.2.2.2 (some d) ∧
        lin.invert (some d) (s0.heap.hdim (e.2.2.1, e.2.2.2)) = .ok M)
    (s0.root :: F.ids) (h1, []) ⟨SameCore.rfl' _, hsound, hnone, fun e _ q => by cases q⟩
    (by
      rintro p t ⟨h, inv⟩ hmem ⟨c1, c2, c3, c4⟩
      simp only at c1 c2 c3 c4
      have haxt : (h.node t).axis = (s0.heap.node t).axis := by rw [c1.axis, e1.axis]
      have hskip : (s0.heap.node t).axis = none → (∀ e ∈ s0.heap.bonds s0.root F, e.2.2.1 ≠ t) →
          ∃ s', invDensityAt fuel lin (h, inv) t = .ok s' ∧ SameCore s'.1 h1 ∧ Sound (InNet s0.root F) h1 s'.1 false ∧
          NoneAx (fun t => t = s0.root ∨ t ∈ F.ids) s'.1 ∧
          ∀ e ∈ s0.heap.bonds s0.root F, e.2.2.1 ∈ p ++ [t] → ∃ d M, s'.2.get? e.2.2.1 = some M ∧
            FieldIs (s0.withTerm []) e.2.2.1 e.2.2.2 (some d) ∧
            lin.invert (some d) (s0.heap.hdim (e.2.2.1, e.2.2.2)) = .ok M := by
        intro q1 q2
        refine ⟨(h, inv), ?_, c1, c2, c3, fun e he hp => ?_⟩
        · unfold invDensityAt
          simp only [haxt, q1]
        · rcases List.mem_append.1 hp with hp | hp
          · exact c4 e he hp
          · exact absurd (by simpa using hp) (q2 e he)
      cases hl : s0.heap.isLeaf t with
      | true =>
        rcases List.mem_cons.1 hmem with rfl | hmem
        · rw [ht.leaf] at hl; cases hl
        · exact hskip (hax t hmem hl) fun e he q => by
            have := (mem_bonds.1 he).2
            rw [q, hl] at this
            cases this
      | false =>
        by_cases htr : t = s0.root
        · subst htr
          exact hskip hroot.1 fun e he q => by
            have := (TreeSum.edges_mem (mem_bonds.1 he).1).2
            rw [q] at this
            exact (List.nodup_cons.1 ht.tree.nodup).1 this
        · have hF : t ∈ F.ids := by
            rcases List.mem_cons.1 hmem with q | q
            · exact absurd q htr
            · exact q
          obtain ⟨⟨a, i, t', k⟩, he, rfl⟩ : ∃ e ∈ F.edges s0.root, e.2.2.1 = t := by
            rw [← Heap.edges_targets F s0.root] at hF
            exact List.mem_map.1 hF
          simp only at hl haxt hskip htr hF hmem
          have heb : (a, i, t', k) ∈ s0.heap.bonds s0.root F := mem_bonds.2 ⟨he, hl⟩
          have hm : t' ∈ h1.tensors s0.root F := by rw [e1.tensors]; exact mem_tensors.2 ⟨.inr hF, hl⟩
          obtain ⟨k1, k2⟩ := ht1.isLink_edge he
          simp only at k1 k2
          obtain ⟨h3, ans, E, f1, f2, f3, f4, f5⟩ := field_ok ht1 ho hm (i := k) (by rw [k2]; simp) c1 c2 hf
          have hpe : partialEnv fuel h a (some i) false = .ok (h3, ans) := by
            rw [← f1]
            unfold partialEnvProper
            rw [c1.isLeaf, e1.isLeaf, hl]
            simp only [Bool.false_eq_true, if_false]
            have : (h.access t').get! k = .ok (a, i) := by
              rw [c1.access]
              unfold Dict.get!
              have h1 : Dict.get? (h1.access t') k = some (a, i) := k2
              rw [h1]
            rw [this]
            rfl
          have hsrc := edges_src_mem ht he
          simp only at hsrc
          obtain ⟨n1, n2, n3⟩ := partialEnv_none hclosed fuel h a i h3 ans c1 c3 (mem_tensors.1 hsrc).1 hpe
          have hsome : ans ≠ none := by
            intro q
            have h5 := n3 (by rw [c1.isLeaf, e1.isLeaf]; exact (mem_tensors.1 hsrc).2) q
            rw [c1.axis, e1.axis] at h5
            by_cases har : a = s0.root
            · rw [har, hroot.1] at h5; cases h5
            · have haF : a ∈ F.ids := by
                rcases (mem_tensors.1 hsrc).1 with q | q
                · exact absurd q har
                · exact q
              obtain ⟨⟨b, j, a', l⟩, hb, rfl⟩ : ∃ e ∈ F.edges s0.root, e.2.2.1 = a := by
                rw [← Heap.edges_targets F s0.root] at haF
                exact List.mem_map.1 haF
              simp only at *
              have h6 := hroot.2 _ (mem_bonds.2 ⟨hb, (mem_tensors.1 hsrc).2⟩)
              simp only at h6
              rw [h6] at h5
              obtain rfl := Option.some.inj h5
              obtain ⟨-, l2⟩ := ht1.isLink_edge hb
              simp only at l2
              rw [k1] at l2
              obtain ⟨rfl, rfl⟩ := Prod.mk.inj (Option.some.inj l2)
              exact (Forest.edges_acyclic ht.tree.nodup he).2 _ _ hb
          obtain ⟨d, rfl⟩ := Option.ne_none_iff_exists'.1 hsome
          have hfield : FieldIs (s0.withTerm []) t' k (some d) :=
            (field_withTerm ht e1 (fun l hl hlf => by rw [harr l hl hlf]; rfl) (by rw [← e1.tensors]; exact hm)).1 ⟨E, f4, f5⟩
          obtain ⟨M, hM⟩ := hlin _ heb d hfield
          obtain ⟨A, hA⟩ := ht1.full t' hm
          have hshape : h3.shapeAt t' k = .ok (s0.heap.hdim (t', k)) := by
            unfold shapeAt
            rw [f2.array, hA.array]
            have hk : k < A.shape.length := (hA.acc k).1 (by rw [k2]; simp)
            have h7 : s0.heap.hdim (t', k) = A.shape.getD k 1 := by rw [← e1.hdim (by rw [e1.isLeaf]; exact hl)]; exact hA.hdim_eq k
            rw [h7, List.getD_eq_getElem _ _ hk]
            simp only [List.getElem?_eq_getElem hk]
          refine ⟨(h3, inv.set t' M), ?_, f2, f3, n2, fun e he' hp => ?_⟩
          · unfold invDensityAt
            simp only [haxt, hroot.2 _ heb]
            rw [f1]
            simp only [ok_bind]
            rw [hshape]
            simp only [ok_bind]
            rw [hM]
            rfl
          · simp only [Dict.get?_set]
            by_cases hq : t' = e.2.2.1
            · obtain ⟨-, p2, -, -⟩ := edges_props ht.links.wf ht.links.sym ht.tree ht.leaf
              have hee : e = (a, i, t', k) := by
                have := List.inj_on_of_nodup_map p2 (mem_bonds.1 he').1 he hq.symm
                exact this
              subst hee
              exact ⟨d, M, by simp, hfield, hM⟩
            · rw [if_neg hq]
              rcases List.mem_append.1 hp with hp | hp
              · exact c4 e he' hp
              · exact absurd (List.mem_singleton.1 hp).symm hq)
  refine ⟨h2, inv, ?_, ?_, fun e he => g5 e he ?_⟩
  · unfold formInvDensity
    rw [hv]
    simp only [ok_bind]
    rw [← hh1, hv1]
    simp only [ok_bind]
    rw [g1]
    rfl
  · have e4 : Sim2 h2 s0.heap := Sim.trans g2.noAux.aux e1
    refine ⟨e4.1, e4.2, fun l hl hlf => ?_, fun l hlf h0 => ?_⟩
    · show h2.array l = none
      rw [g2.array]
      exact harr l hl (by rw [← g2.isLeaf]; exact hlf)
    · show h2.array l = none
      rw [g2.array, hh1, foldl_reset _ _ _ (by rw [← e4.isLeaf]; exact hlf), h0, ite_self]
  · exact List.mem_cons_of_mem _ (TreeSum.edges_mem (mem_bonds.1 he).1).2

end ML
