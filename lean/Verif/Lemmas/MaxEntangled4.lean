import Verif.Lemmas.MaxEntangled3

/-!
Lemmas for C108: the state after `autocomplete(max_entangled=True)`.
-/

open Py
open scoped BigOperators

namespace TreeSum

open Heap (Assign)

/-- Every tensor of the forest, entered with index 0, is 1 where all indices are 0 and 0 elsewhere, or it is in `bot` and is the diagonal of
the axes 1 and 2, which have leaves. -/
def PairIn (lf bot : ℕ → Bool) (d : ℕ × ℕ → ℕ) (ent : ℕ → Assign → ℝ) (c : ℕ → ℝ) (left right x : ℕ → ℕ) : Forest → Prop
  | .nil => True
  | .cons _ j id sub rest =>
    (lf id = false → bot id = false → (∀ p ∈ halfs id sub, 0 < d p) ∧ ∀ σ : Assign, σ (id, j) = 0 → (∀ p ∈ halfs id sub, σ p < d p) →
      ent id σ = if ∀ p ∈ halfs id sub, σ p = 0 then 1 else 0) ∧
    (lf id = false → bot id = true → j = 0 ∧ (∃ j1 j2, sub = .cons 1 j1 (left id) .nil (.cons 2 j2 (right id) .nil .nil)) ∧
      lf (left id) = true ∧ lf (right id) = true ∧ x (left id) < d (id, 1) ∧ x (right id) < d (id, 2) ∧
      ∀ σ : Assign, σ (id, 0) = 0 → σ (id, 1) < d (id, 1) → σ (id, 2) < d (id, 2) → ent id σ = if σ (id, 1) = σ (id, 2) then c id else 0) ∧
    PairIn lf bot d ent c left right x sub ∧ PairIn lf bot d ent c left right x rest

/-- The value of the branches, tensor by tensor. -/
noncomputable def pairVal (lf bot : ℕ → Bool) (c : ℕ → ℝ) (left right x : ℕ → ℕ) : Forest → ℝ
  | .nil => 1
  | .cons _ _ id sub rest => (if lf id = true then (if x id = 0 then 1 else 0) else
      if bot id = true then (if x (left id) = x (right id) then c id else 0) else pairVal lf bot c left right x sub) *
        pairVal lf bot c left right x rest

variable {lf bot : ℕ → Bool} {d : ℕ × ℕ → ℕ} {ent : ℕ → Assign → ℝ} {c : ℕ → ℝ} {left right x : ℕ → ℕ}

theorem psi_pair {F : Forest} (hg : PairIn lf bot d ent c left right x F)
    (ho : AxesOk F) (hi : AxesIn F) {a : ℕ} {σ : Assign} (hσ : ∀ p ∈ halfs a F, σ p = 0) :
    psi lf d ent x F a σ = pairVal lf bot c left right x F := by
  induction F generalizing a σ with
  | nil => simp [psi, pairVal]
  | cons i j id sub rest ih1 ih2 =>
    obtain ⟨g1, g2, g3, g4⟩ := hg
    obtain ⟨o1, o2, o3⟩ := ho
    obtain ⟨i1, i2, i3⟩ := hi
    have h0 : σ (a, i) = 0 := hσ _ (by simp)
    simp only [psi, pairVal, h0]
    rw [ih2 g4 o3 i3 (a := a) (σ := σ) fun p hp => hσ p (by simp [hp])]
    congr 1
    cases hlf : lf id with
    | true =>
      simp only [if_true]
      exact if_congr eq_comm rfl rfl
    | false =>
      simp only [Bool.false_eq_true, if_false]
      cases hbt : bot id with
      | true =>
        obtain ⟨rfl, ⟨j1, j2, rfl⟩, e1, e2, e3, e4, e5⟩ := g2 hlf hbt
        simp only [halfs_cons, halfs_nil, sumOver, psi, e1, e2, if_true, mul_one]
        have key : ∀ v ∈ Finset.range (d (id, 1)), (∑ w ∈ Finset.range (d (id, 2)),
            ent id (Nd.upd (Nd.upd (Nd.upd (fun _ => 0) (id, 0) 0) (id, 1) v) (id, 2) w) *
              ((if Nd.upd (Nd.upd (Nd.upd (fun _ => 0) (id, 0) 0) (id, 1) v) (id, 2) w (id, 1) = x (left id) then (1 : ℝ) else 0) *
                (if Nd.upd (Nd.upd (Nd.upd (fun _ => 0) (id, 0) 0) (id, 1) v) (id, 2) w (id, 2) = x (right id) then 1 else 0))) =
            if v = x (left id) then (if x (left id) = x (right id) then c id else 0) else 0 := by
          intro v hv
          have : ∀ w ∈ Finset.range (d (id, 2)),
              ent id (Nd.upd (Nd.upd (Nd.upd (fun _ => 0) (id, 0) 0) (id, 1) v) (id, 2) w) *
              ((if Nd.upd (Nd.upd (Nd.upd (fun _ => 0) (id, 0) 0) (id, 1) v) (id, 2) w (id, 1) = x (left id) then (1 : ℝ) else 0) *
                (if Nd.upd (Nd.upd (Nd.upd (fun _ => 0) (id, 0) 0) (id, 1) v) (id, 2) w (id, 2) = x (right id) then 1 else 0)) =
              if w = x (right id) then (if v = x (left id) then (if x (left id) = x (right id) then c id else 0) else 0) else 0 := by
            intro w hw
            have u0 : Nd.upd (Nd.upd (Nd.upd (fun _ => 0) (id, 0) 0) (id, 1) v) (id, 2) w (id, 0) = 0 := by
              rw [Nd.upd_ne _ _ (by simp), Nd.upd_ne _ _ (by simp), Nd.upd_self]
            have u1 : Nd.upd (Nd.upd (Nd.upd (fun _ => 0) (id, 0) 0) (id, 1) v) (id, 2) w (id, 1) = v := by
              rw [Nd.upd_ne _ _ (by simp), Nd.upd_self]
            have u2 : Nd.upd (Nd.upd (Nd.upd (fun _ => 0) (id, 0) 0) (id, 1) v) (id, 2) w (id, 2) = w := Nd.upd_self _ _ _
            rw [e5 _ u0 (by rw [u1]; exact Finset.mem_range.1 hv) (by rw [u2]; exact Finset.mem_range.1 hw), u1, u2]
            by_cases q1 : w = x (right id) <;> by_cases q2 : v = x (left id)
            · rw [if_pos q1, if_pos q2, if_pos q1, if_pos q2, q1, q2]; ring
            · simp [q2]
            · simp [q1]
            · simp [q1]
          rw [Finset.sum_congr rfl this, Finset.sum_ite_eq', if_pos (Finset.mem_range.2 e4)]
        rw [Finset.sum_congr rfl key, Finset.sum_ite_eq', if_pos (Finset.mem_range.2 e3)]
      | false =>
        obtain ⟨d1, e1⟩ := g1 hlf hbt
        have hij : (id, j) ∉ halfs id sub := by
          intro q
          unfold halfs at q
          obtain ⟨y, y1, y2⟩ := List.mem_map.1 q
          exact i1 y y1 (by cases y2; rfl)
        have : sumOver d (halfs id sub) (fun σ' => ent id σ' * psi lf d ent x sub id σ') (Nd.upd (fun _ => 0) (id, j) 0) =
            sumOver d (halfs id sub) (fun σ' => if ∀ p ∈ halfs id sub, σ' p = 0 then psi lf d ent x sub id σ' else 0)
              (Nd.upd (fun _ => 0) (id, j) 0) := by
          refine sumOver_congr fun τ t1 t2 => ?_
          rw [e1 τ (by rw [t1 _ hij, Nd.upd_self]) t2]
          split <;> simp
        simp only [Bool.false_eq_true, if_false]
        rw [this, sumOver_zeros (nodup_halfs o2 id) d1, ih1 g3 o2 i2 fun p hp => by simp [hp]]

theorem ite_and_mul (P Q : Prop) [Decidable P] [Decidable Q] [Decidable (P ∧ Q)] :
    (if P ∧ Q then (1 : ℝ) else 0) = (if P then 1 else 0) * if Q then 1 else 0 := by
  by_cases h1 : P <;> by_cases h2 : Q <;> simp [h1, h2]

open Classical in
theorem pairVal_eq {F : Forest} (hg : PairIn lf bot d ent c left right x F) (hl : LeafNil lf F) {a : ℕ} (ha : bot a = false) :
    pairVal lf bot c left right x F = ((F.ids.filter fun t => !(lf t) && bot t).map fun t => if x (left t) = x (right t) then c t else 0).prod *
      if ∀ e ∈ F.edges a, lf e.2.2.1 = true → bot e.1 = false → x e.2.2.1 = 0 then 1 else 0 := by
  induction F generalizing a with
  | nil => simp [pairVal, Forest.ids, Forest.edges]
  | cons i j id sub rest ih1 ih2 =>
    obtain ⟨g1, g2, g3, g4⟩ := hg
    obtain ⟨l1, l2, l3⟩ := hl
    simp only [pairVal]
    rw [ih2 g4 l3 ha]
    set R := ∀ e ∈ rest.edges a, lf e.2.2.1 = true → bot e.1 = false → x e.2.2.1 = 0 with hR
    have split : (∀ e ∈ (Forest.cons i j id sub rest).edges a, lf e.2.2.1 = true → bot e.1 = false → x e.2.2.1 = 0) ↔
        (lf id = true → x id = 0) ∧ (∀ e ∈ sub.edges id, lf e.2.2.1 = true → bot e.1 = false → x e.2.2.1 = 0) ∧ R := by
      simp only [Forest.edges, List.cons_append, List.mem_cons, List.mem_append, or_imp, forall_and, forall_eq, ha, true_implies, hR]
    rw [if_congr split rfl rfl]
    cases hlf : lf id with
    | true =>
      obtain rfl := l1 hlf
      simp only [if_true, Forest.ids, Forest.edges, List.cons_append, List.nil_append, List.filter_cons, hlf, Bool.not_true, Bool.false_and,
        Bool.false_eq_true, if_false, List.not_mem_nil, false_implies, implies_true, true_and, true_implies]
      rw [ite_and_mul]
      ring
    | false =>
      cases hbt : bot id with
      | true =>
        obtain ⟨-, ⟨j1, j2, rfl⟩, e1, e2, -⟩ := g2 hlf hbt
        simp only [Forest.ids, Forest.edges, List.cons_append, List.nil_append, List.append_nil, List.filter_cons, List.filter_nil, hlf, hbt, e1, e2,
          Bool.not_true, Bool.not_false, Bool.false_and, Bool.true_and, Bool.false_eq_true, if_false, if_true, List.mem_cons, List.not_mem_nil, or_false,
          List.map_cons, List.prod_cons, false_implies, true_and, forall_eq_or_imp, forall_eq, Bool.true_eq_false, implies_true]
        ring
      | false =>
        rw [ih1 g3 l2 hbt]
        simp only [Forest.ids, List.cons_append, List.filter_cons, hlf, hbt, Bool.not_false, Bool.and_false, Bool.false_eq_true, if_false,
          List.filter_append, List.map_append, List.prod_append, false_implies, true_and]
        rw [ite_and_mul]
        ring

end TreeSum

namespace ML

open Heap TreeSum

variable {h h' : Heap ℝ} {r : ℕ} {F : Forest} {dims : Dict (ℕ × ℕ × ℕ × ℕ) ℕ} {want : ℕ × ℕ → ℕ} {left right : ℕ → ℕ}

theorem LoopDone.filled (hl : LoopDone h h h' r F want (h.tensors r F)) (hb : Bare h r F dims want) (hp : Pairs h r F want left right)
    (hnone : ∀ t ∈ h.tensors r F, h.array t = none) : Bare.Filled0 h h' r F want := by
  refine ⟨hl.next, hl.shell, hl.other, fun u hu => ?_, fun t ht => ?_⟩
  · exact hl.other u fun q => hu (hnone u q)
  · by_cases hbt : t ∈ h.bottoms r F
    · obtain ⟨B, b1, b2, b3, b4, b5⟩ := hl.pair t ht hbt
      refine ⟨B, b1, b2, ?_⟩
      rw [b3, hp.order t hbt]
      simp [List.range_succ, ← hp.same t hbt]
    · obtain ⟨B, b1, b2, b3, -⟩ := hl.rest t ht hbt
      exact ⟨B, b1, b2, b3⟩

theorem LoopDone.pairIn (hl : LoopDone h h h' r F want (h.tensors r F)) (hb : Bare h r F dims want) (hp : Pairs h r F want left right)
    (hnone : ∀ t ∈ h.tensors r F, h.array t = none) {x : ℕ → ℕ} (hx : ∀ e ∈ F.edges r, h.isLeaf e.2.2.1 = true → x e.2.2.1 < want (e.1, e.2.1))
    {G : Forest} {a : ℕ} (hr : G.RepIn h) (hle : G.LeafEnd h)
    (hE : ∀ e ∈ G.edges a, e ∈ F.edges r) :
    PairIn h'.isLeaf (fun t => decide (t ∈ h.bottoms r F)) h'.hdim (fun t σ => h'.entry σ t) (fun t => 1 / Real.sqrt (want (t, 1))) left right x G := by
  have f := hl.filled hb hp hnone
  induction G generalizing a with
  | nil => trivial
  | cons i j id sub rest ih1 ih2 =>
    obtain ⟨r1, r2, r3⟩ := hr
    obtain ⟨k1, k2, k3⟩ := hle
    simp only [Forest.edges, List.cons_append, List.mem_cons, List.mem_append] at hE
    refine ⟨fun hlf hbt => ?_, fun hlf hbt => ?_, ih1 (a := id) r2 k2 fun e he => hE e (.inr (.inl he)),
      ih2 (a := a) r3 k3 fun e he => hE e (.inr (.inr he))⟩
    · rw [f.isLeaf] at hlf
      have he := hE _ (.inl rfl)
      have ht : id ∈ h.tensors r F := mem_tensors.2 ⟨.inr (Forest.edges_tgt he), hlf⟩
      obtain ⟨A, a1, a2⟩ := hl.rest id ht (by simpa using hbt)
      exact Bare.Filled.ground_node f hb (mem_bonds.2 ⟨he, hlf⟩) r1 a1 a2
    · rw [f.isLeaf] at hlf
      have hbt' : id ∈ h.bottoms r F := by simpa using hbt
      have he := hE _ (.inl rfl)
      have ht : id ∈ h.tensors r F := mem_tensors.2 ⟨.inr (Forest.edges_tgt he), hlf⟩
      have hax := hb.rooted.2 _ (mem_bonds.2 ⟨he, hlf⟩)
      simp only at hax
      have hj : j = 0 := by
        rw [hp.axis id hbt'] at hax
        exact (Option.some.inj hax).symm
      subst hj
      obtain ⟨j1, j2, p, q, c1, e1, e2, e3, c2⟩ := pair_children hb hp hbt'
      unfold childrenDflt at c1
      rw [hp.axis id hbt', r1] at c1
      have ho := hp.order id hbt'
      have lf1 : h.isLeaf (left id) = true := by
        by_contra q
        exact (mem_bottoms.1 hbt').2 _ (mem_bonds.2 ⟨e1, by simpa using q⟩) rfl
      have lf2 : h.isLeaf (right id) = true := by
        by_contra q
        exact (mem_bottoms.1 hbt').2 _ (mem_bonds.2 ⟨e2, by simpa using q⟩) rfl
      have hsub : ∃ j1 j2, sub = .cons 1 j1 (left id) .nil (.cons 2 j2 (right id) .nil .nil) := by
        refine ⟨j1, j2, ?_⟩
        cases sub with
        | nil => simp [Forest.heads] at c1
        | cons a1 a2 a3 a4 a5 =>
          simp only [Forest.heads, List.cons.injEq, Prod.mk.injEq] at c1
          obtain ⟨⟨rfl, rfl, rfl⟩, c1⟩ := c1
          obtain ⟨m1, m2, m3⟩ := k2
          cases a5 with
          | nil => simp [Forest.heads] at c1
          | cons b1 b2 b3 b4 b5 =>
            simp only [Forest.heads, List.cons.injEq, Prod.mk.injEq] at c1
            obtain ⟨⟨rfl, rfl, rfl⟩, c1⟩ := c1
            obtain ⟨m4, m5, m6⟩ := m3
            cases b5 with
            | nil => rw [m1 lf1, m4 lf2]
            | cons => simp [Forest.heads] at c1
      have d1 : h'.hdim (id, 1) = want (id, 1) := f.hdim ht (by omega)
      have d2 : h'.hdim (id, 2) = want (id, 1) := by rw [f.hdim ht (by omega), hp.same id hbt']
      obtain ⟨B, b1, b2, b3, b4, b5⟩ := hl.pair id ht hbt'
      refine ⟨rfl, hsub, by rw [f.isLeaf, lf1], by rw [f.isLeaf, lf2], ?_, ?_, fun σ s0 s1 s2 => ?_⟩
      · rw [d1]; exact hx _ e1 lf1
      · rw [d2, hp.same id hbt']; exact hx _ e2 lf2
      · rw [d1] at s1
        rw [d2] at s2
        beta_reduce
        rw [entry_eq b1]
        have : (List.range B.ndim).map (fun k => σ (id, k)) = [0, σ (id, 1), σ (id, 2)] := by
          unfold Nd.ndim
          rw [b3]
          simp [List.range_succ, s0]
        rw [this, b4 _ s1 _ s2]

/-- The state of the network. -/
theorem LoopDone.amp (hl : LoopDone h h h' r F want (h.tensors r F)) (hb : Bare h r F dims want) (hp : Pairs h r F want left right)
    (hnone : ∀ t ∈ h.tensors r F, h.array t = none) {x : ℕ → ℕ} (hx : ∀ e ∈ F.edges r, h.isLeaf e.2.2.1 = true → x e.2.2.1 < want (e.1, e.2.1)) :
    h'.treeAmp r F x = h.maxEntangled r F want left right x := by
  have f := hl.filled hb hp hnone
  have ht := f.ttn hb
  have hrt : r ∈ h.tensors r F := mem_tensors.2 ⟨.inl rfl, hb.leaf⟩
  obtain ⟨A, a1, a2⟩ := hl.rest r hrt hp.root
  obtain ⟨x1, x2⟩ := axes_of ht.links.wf ht.tree.rep ht.heads_sorted
  have hlf : h'.isLeaf = h.isLeaf := funext f.isLeaf
  have hx' : ∀ p ∈ h'.leafList r F, x p.1 < p.2 := fun p hp' => by
    unfold leafList at hp'
    obtain ⟨e, he, rfl⟩ := List.mem_map.1 hp'
    obtain ⟨e1, e2⟩ := List.mem_filter.1 he
    rw [f.isLeaf] at e2
    have hs := Forest.edges_src (k := e.2.1) (y := e.2.2.1) (l := e.2.2.2) e1
    have hsl := Forest.edges_src_leaf hb.leaf hb.tree.leafEnd (k := e.2.1) (y := e.2.2.1) (l := e.2.2.2) e1
    have hlink := (edges_props hb.links.wf hb.links.sym hb.tree hb.leaf).1 _ e1
    simp only
    rw [f.hdim (mem_tensors.2 ⟨hs, hsl⟩) ((hb.complete _ hs _).1 (by rw [hlink]; simp))]
    exact hx e e1 e2
  have hpi := hl.pairIn hb hp hnone hx hb.tree.rep hb.tree.leafEnd (a := r) fun e he => he
  rw [ht.amp_eq hx' fun _ => 0, Bare.Filled.root_sum f hb a1 a2 (psi h'.isLeaf h'.hdim (fun t σ => h'.entry σ t) x F r),
    psi_pair hpi x1 x2 fun p _ => rfl, pairVal_eq hpi (leafNil_of ht.tree.leafEnd) (a := r) (by simpa using hp.root)]
  unfold maxEntangled
  congr 1
  · have : h.bottoms r F = F.ids.filter fun t => !(h'.isLeaf t) && decide (t ∈ h.bottoms r F) := by
      conv_lhs => unfold bottoms tensors
      rw [List.filter_filter, List.filter_cons, if_neg ?_]
      · refine List.filter_congr fun t ht => ?_
        rw [hlf]
        by_cases q : t ∈ h.bottoms r F
        · obtain ⟨q1, q2⟩ := mem_bottoms.1 q
          have := (mem_tensors.1 q1).2
          simp only [this, q, decide_true, Bool.not_false, Bool.and_true, List.all_eq_true, decide_eq_true_eq]
          exact q2
        · simp only [q, decide_false, Bool.and_false]
          rw [Bool.eq_false_iff]
          intro q'
          apply q
          simp only [Bool.and_eq_true, List.all_eq_true, decide_eq_true_eq, Bool.not_eq_true'] at q'
          exact mem_bottoms.2 ⟨mem_tensors.2 ⟨.inr ht, q'.2⟩, q'.1⟩
      · intro q'
        apply hp.root
        simp only [Bool.and_eq_true, List.all_eq_true, decide_eq_true_eq, Bool.not_eq_true'] at q'
        exact mem_bottoms.2 ⟨hrt, q'.1⟩
    rw [← this]
  · refine if_congr ?_ rfl rfl
    rw [hlf]
    simp only [decide_eq_false_iff_not]

/-- The network is in canonical form. -/
theorem LoopDone.canonical (hl : LoopDone h h h' r F want (h.tensors r F)) (hb : Bare h r F dims want) (hp : Pairs h r F want left right)
    (hnone : ∀ t ∈ h.tensors r F, h.array t = none) : h'.CanonicalTree r F := by
  have f := hl.filled hb hp hnone
  intro e he
  rw [f.bonds] at he
  obtain ⟨e1, e2⟩ := mem_bonds.1 he
  have hid := Forest.edges_tgt (x := e.1) (k := e.2.1) (l := e.2.2.2) e1
  have ht : e.2.2.1 ∈ h.tensors r F := mem_tensors.2 ⟨.inr hid, e2⟩
  have hax := hb.rooted.2 _ he
  by_cases hbt : e.2.2.1 ∈ h.bottoms r F
  · obtain ⟨B, b1, b2, b3, b4, b5⟩ := hl.pair _ ht hbt
    rw [hp.axis _ hbt] at hax
    have hj : e.2.2.2 = 0 := (Option.some.inj hax).symm
    rw [hj]
    refine ⟨B, b1, by unfold Nd.ndim; rw [b3]; simp, ?_⟩
    have : B.shape.getD 0 1 = want (e.2.2.1, 0) := by rw [b3]; rfl
    rw [this]
    exact fun z w hz hw => b5 z hz w hw
  · obtain ⟨A, a1, -, a3, a4⟩ := hl.rest _ ht hbt
    rw [hax] at a4
    obtain ⟨c, q1, q2, q3, q4, q5⟩ := a4
    have hlink := (edges_props hb.links.wf hb.links.sym hb.tree hb.leaf).1 _ e1
    have hback := hb.links.sym _ _ _ _ hlink
    have hk := (hb.complete _ (.inr hid) _).1 (by rw [hback]; simp)
    exact ⟨A, a1, by unfold Nd.ndim; rw [a3]; simpa using hk, fun z w hz hw => q1.orth q3 q4 hz hw⟩

end ML
