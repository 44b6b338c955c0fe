import Verif.Lemmas.RootForce

/-!
The right-hand side of the equation of motion of the root: the sum over the terms.
-/

open scoped BigOperators
open Py

namespace SplitProp

open Heap ML

variable {T R : Type} [Zero T] [Field R] [StarRing R]

/-- What is needed of the object when the terms are visited. -/
structure Ready (s : Obj T R) (F : Forest) : Prop where
  ttn : s.heap.IsTTN s.root F
  rooted : s.heap.Rooted s.root F
  marks : ∀ e ∈ s.heap.bonds s.root F, s.heap.MarkOk e.2.2.1
  leaf : ∀ term ∈ s.allTerms none, ∀ p ∈ term, s.heap.isLeaf p.1 = true
  fits : ∀ term ∈ s.allTerms none, ∀ p ∈ s.heap.leafList s.root F, OpFits (opOn s.now term p.1) p.2 p.2

theorem isEnv_of_means {ans : Option (Nd R)} {n : ℕ} {E : ℕ → ℕ → R} (h : Means ans n E) : TreeSum.IsEnv ans n n E := by
  cases ans with
  | none => exact ⟨rfl, h⟩
  | some M => exact h

/-- The caches that `term_visitor` loads are right, below the root. -/
theorem sound_at {s0 : Obj T R} {F : Forest} (hr : Ready s0 F) {n : ℕ} {term : Term T R} {s : Obj T R} {useCache : Bool}
    (hat : AtTerm s0 F useCache n term s) (henv : ∀ e ∈ F.edges s0.root, ∀ v, s.env.get? (n, e.1, e.2.1) = some v →
      FieldIs (s0.withTerm term) e.1 e.2.1 v) : Sound (Down s0.root F) s.heap s.heap false := by
  have e2 : Sim2 s.heap s0.heap := ⟨hat.next, hat.same⟩
  have ht2 : s.heap.IsTTN s0.root F := Sim2.ttn (Sim.symm e2) hr.ttn
  refine fun _ => ⟨?_, ?_⟩
  · rintro t k v ⟨⟨a, i, t', k'⟩, he, hq⟩ hv hl G hG
    simp only [Prod.mk.injEq] at hq
    obtain ⟨rfl, rfl⟩ := hq
    have hmt : t' ∈ s.heap.tensors s0.root F := mem_tensors.2 ⟨.inr (TreeSum.edges_mem he).2, hl⟩
    have hma := edges_src_mem ht2 he
    simp only at hma
    obtain ⟨l1, l2⟩ := ht2.isLink_edge he
    simp only at l1 l2
    have := hat.cache t' hmt k'
    cases useCache with
    | false => rw [hv] at this; simp at this
    | true =>
    rw [if_pos rfl, l2, hv] at this
    simp only [Option.bind_some] at this
    obtain ⟨E, f1, f2⟩ := (field_withTerm hr.ttn e2 hat.leaves (by rw [← e2.tensors]; exact hma)).2 (henv _ he v this.symm)
    obtain ⟨c, j, c1, c2⟩ := f1
    rw [l1] at c1
    cases c1
    rcases c2 with ⟨q, -⟩ | ⟨-, G', hG', rfl⟩
    · rw [hl] at q; cases q
    · obtain rfl : G = G' := forest_unique hG.rep hG'.rep (hG.heads.symm.trans hG'.heads)
      rw [conj_hdim hl, ← ht2.field_env hmt (by rw [l2]; simp) hG]
      rw [ht2.link_dims hma hmt l1] at f2
      exact isEnv_of_means f2
  · rintro t k ⟨e, he, hq⟩ hk
    by_cases hl : s.heap.isLeaf t = false
    · have h1 : e.2.2.1 = t := congrArg Prod.fst hq
      have := hr.marks e (mem_bonds.2 ⟨he, by rw [h1, ← e2.isLeaf]; exact hl⟩)
      rw [h1] at this
      exact this.congr (Sim.symm e2)
    · exact fun A _ q _ => absurd q hl

theorem zero_gradient (s : Obj T R) (F : Forest) (t : ℕ) (A : Nd R) :
    IsGradient s F t A [] (⟨A.shape, List.replicate A.shape.prod 0⟩ : Nd R) := by
  intro B _ _
  unfold inner
  simp only [List.map_nil, List.sum_nil]
  rw [show sumIdx A.shape (fun w => (⟨A.shape, List.replicate A.shape.prod 0⟩ : Nd R).get w * star (B.get w)) =
    sumIdx A.shape fun _ => 0 from sumIdx_congr fun w _ => by
      unfold Nd.get
      rw [List.getD_eq_getElem?_getD, List.getElem?_replicate]
      split <;> simp]
  simp [sumIdx_eq_sum_range]

/-- The sum over the terms is the derivative of the energy; mean fields that are stored are right. -/
theorem visitTerms_ok {s0 : Obj T R} {F : Forest} (hr : Ready s0 F) (henv : AwayRight s0 F) {A : Nd R} (hA : s0.heap.Full s0.root A)
    {fuel : ℕ} (hf : F.ids.length < fuel) (useCache cache : Bool) :
    ∃ s' G, ML.termVisitor (A := Nd R) fuel useCache none false (fun m x => do
        let (s, a) ← ML.singleEom fuel cache [] s0.root m x.1
        let sum ← x.2.add ⟨[a.shape.prod], a.data⟩
        pure (s, sum)) s0 ⟨[A.shape.prod], List.replicate A.shape.prod 0⟩ = .ok (s', ⟨[A.shape.prod], G.data⟩) ∧ Clean s0 F s' ∧ s'.time = s0.time ∧
      G.Wf ∧ G.shape = A.shape ∧ IsGradient s0 F s0.root A (s0.allTerms none) G ∧
      ∀ k v, s'.env.get? k = some v → s0.env.get? k = some v ∨
        ∃ n term i, k = (n, s0.root, i) ∧ (s0.allTerms none)[n]? = some term ∧ FieldIs (s0.withTerm term) s0.root i v := by
  have hd : F.depth < fuel := lt_of_le_of_lt F.depth_le hf
  have hroot : s0.root ∈ s0.heap.tensors s0.root F := mem_tensors.2 ⟨.inl rfl, hr.ttn.leaf⟩
  obtain ⟨s', a', v1, v2, v3⟩ := termVisitor_ok (A := Nd R) (s0 := s0) (useCache := useCache) (onlyTd := false) (op := none) (F := F) hr.ttn hd
    (body := fun m x => do
      let (s, a) ← ML.singleEom fuel cache [] s0.root m x.1
      let sum ← x.2.add ⟨[a.shape.prod], a.data⟩
      pure (s, sum))
    (I := fun n s a => s.time = s0.time ∧ (∃ G : Nd R, a = ⟨[A.shape.prod], G.data⟩ ∧ G.Wf ∧ G.shape = A.shape ∧
        IsGradient s0 F s0.root A ((s0.allTerms none).take n) G) ∧
      ∀ k v, s.env.get? k = some v → s0.env.get? k = some v ∨
        ∃ n term i, k = (n, s0.root, i) ∧ (s0.allTerms none)[n]? = some term ∧ FieldIs (s0.withTerm term) s0.root i v)
    (fun n s a h' _ hi => hi) hr.leaf
    (by
      rintro n term hn - s a hat - ⟨i0, ⟨G, rfl, i2, i3, i4⟩, i5⟩
      have hterm := List.mem_of_getElem? hn
      have e2 : Sim2 s.heap s0.heap := ⟨hat.next, hat.same⟩
      have ht2 : s.heap.IsTTN s0.root F := Sim2.ttn (Sim.symm e2) hr.ttn
      have ho : s.heap.OpsFit s0.root F := by
        intro x hx hlf
        have hsl := (mem_tensors.1 (edges_src_mem ht2 hx)).2
        rw [hat.leaves _ (TreeSum.edges_mem hx).2 hlf, e2.hdim hsl]
        refine hr.fits term hterm (x.2.2.1, s0.heap.hdim (x.1, x.2.1)) ?_
        exact List.mem_map.2 ⟨x, List.mem_filter.2 ⟨hx, by rw [← e2.isLeaf]; exact hlf⟩, rfl⟩
      have hA2 : s.heap.Full s0.root A := ⟨ht2.leaf, by rw [e2.array ht2.leaf]; exact hA.array, hA.wf, hA.pos,
        fun k => by rw [e2.acc]; exact hA.acc k⟩
      have henv2 : ∀ e ∈ F.edges s0.root, ∀ v, s.env.get? (n, e.1, e.2.1) = some v → FieldIs (s0.withTerm term) e.1 e.2.1 v := by
        intro e he v hv
        rcases i5 _ v hv with q | ⟨m, term', i, q1, q2, q3⟩
        · exact henv n term hn e he v q
        · obtain ⟨rfl, q4, q5⟩ : n = m ∧ e.1 = s0.root ∧ e.2.1 = i := by simpa using q1
          obtain rfl : term = term' := Option.some.inj (hn.symm.trans q2)
          rw [q4, q5]; exact q3
      have hhead : ∀ i v, s.env.get? (n, s0.root, i) = some v → s0.heap.acc s0.root i ≠ none → FieldIs s.heap s0.root i v := by
        intro i v hv hi
        obtain ⟨⟨c, j⟩, hcj⟩ := Option.ne_none_iff_exists'.1 hi
        exact (field_withTerm hr.ttn e2 hat.leaves hroot).2 (henv2 _ (hr.ttn.edge_of_acc hcj) v hv)
      obtain ⟨h', env', D, E, g1, g2, g3, g4, g5, g6, g7⟩ := singleEom_root (n := n) ht2 ho (by rw [e2.axis]; exact hr.rooted.1) hf cache
        (SameCore.rfl' s.heap) (sound_at hr hat henv2) (fun i v hi hv => hhead i v hv (by rw [← e2.acc]; exact hi)) hA2
      have hgr : IsGradient s0 F s0.root A [term] D := gradient_of_fields hr.ttn e2 hat.leaves hroot hA g6 g5 g7
      obtain ⟨X, x1, x2, x3, x4⟩ := Nd.add_ok i2 g4 (i3.trans g5.symm)
      refine ⟨{ s with heap := h', env := env' }, ⟨[A.shape.prod], X.data⟩, ?_, g2.noAux.symm, rfl, i0, ⟨X, rfl, x2, x3.trans i3, ?_⟩, ?_⟩
      · beta_reduce
        simp only [g1, ok_bind, g5]
        have : (⟨[A.shape.prod], G.data⟩ : Nd R).add ⟨[A.shape.prod], D.data⟩ = .ok ⟨[A.shape.prod], X.data⟩ := by
          unfold Nd.add at x1 ⊢
          rw [if_pos (i3.trans g5.symm)] at x1
          rw [if_pos rfl, ← Except.ok.inj x1]
        rw [this]
        rfl
      · rw [List.take_add_one, hn]
        exact i4.add hgr i3 g5 (x3.trans i3) (by rw [← i3]; exact x4)
      · intro k v hv
        rcases g3 k v hv with q | ⟨i, rfl, q⟩
        · exact i5 k v q
        · exact .inr ⟨n, term, i, rfl, hn, (field_withTerm hr.ttn e2 hat.leaves hroot).1 q⟩)
    (a := ⟨[A.shape.prod], List.replicate A.shape.prod 0⟩)
    ⟨rfl, ⟨⟨A.shape, List.replicate A.shape.prod 0⟩, rfl, by simp [Nd.Wf], rfl, by
      simp only [firstTerm, Bool.false_eq_true, and_false, if_false, List.take_zero]
      exact zero_gradient s0 F s0.root A⟩, fun k v h => .inl h⟩
  obtain ⟨w0, ⟨G, rfl, w2, w3, w4⟩, w5⟩ := v3
  rw [List.take_length] at w4
  exact ⟨s', G, v1, v2, w0, w2, w3, w4, w5⟩

/-- The sum over the terms is the derivative of the energy; mean fields that are stored are right. -/
theorem sumTerms_ok {s0 : Obj T R} {F : Forest} (hr : Ready s0 F) (henv : AwayRight s0 F) {A : Nd R} (hA : s0.heap.Full s0.root A)
    {fuel : ℕ} (hf : F.ids.length < fuel) (cache : Bool) :
    ∃ s' G, sumTerms fuel cache s0.root A.shape.prod s0 = .ok (s', ⟨[A.shape.prod], G.data⟩) ∧ Clean s0 F s' ∧ s'.time = s0.time ∧
      G.Wf ∧ G.shape = A.shape ∧ IsGradient s0 F s0.root A (s0.allTerms none) G ∧
      ∀ k v, s'.env.get? k = some v → s0.env.get? k = some v ∨
        ∃ n term i, k = (n, s0.root, i) ∧ (s0.allTerms none)[n]? = some term ∧ FieldIs (s0.withTerm term) s0.root i v :=
  visitTerms_ok hr henv hA hf true cache

/-- There is only one gradient. -/
theorem gradient_unique {s : Obj T R} {F : Forest} {t : ℕ} {A G G' : Nd R} {l : List (Term T R)} (h : IsGradient s F t A l G)
    (h' : IsGradient s F t A l G') (hG : G.Wf) (hG' : G'.Wf) (h1 : G.shape = A.shape) (h2 : G'.shape = A.shape) : G = G' := by
  refine Nd.ext_get hG hG' (h1.trans h2.symm) fun w hw => ?_
  rw [h1] at hw
  set B : Nd R := Nd.ofFn A.shape fun v => if v = w then 1 else 0 with hB
  have key : ∀ X : Nd R, X.shape = A.shape → inner X B = X.get w := by
    intro X hX
    unfold inner
    rw [hX]
    rw [show sumIdx A.shape (fun v => X.get v * star (B.get v)) = sumIdx A.shape (fun v => if v = w then X.get w else 0) from
      sumIdx_congr fun v hv => by
        rw [hB, Nd.get_ofFn _ hv]
        split
        · rename_i q; rw [q]; simp
        · simp]
    rw [sumIdx_eq_sum_range, Finset.sum_eq_single (ravel A.shape w)]
    · rw [unravel_ravel hw, if_pos rfl]
    · intro k hk hne
      rw [if_neg]
      intro e
      apply hne
      rw [← e, ravel_unravel (Finset.mem_range.1 hk)]
    · intro hk
      exact absurd (Finset.mem_range.2 (ravel_lt hw)) hk
  rw [← key G h1, ← key G' h2, h B (Nd.ofFn_wf _ _) rfl, h' B (Nd.ofFn_wf _ _) rfl]

end SplitProp
