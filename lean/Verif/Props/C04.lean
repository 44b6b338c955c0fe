import Verif.Lemmas.Tree
import Verif.Props.C01

/-!
C04, C05, C06: walks over tree-shaped networks.
`IsTree h a none F` (see `Verif.Spec.Tree`) says that the network seen from `a` is a finite tree.
-/

open Py

namespace Heap

variable {R : Type}

/-- On a tree `visitor(axis=None)` terminates; it yields every tensor that is connected to the
start, each exactly once, every tensor except the first after one of its neighbours; with
`leaf=False` it yields the same list without the leaves. -/
theorem C04_visitor (h : Heap R) (hw : h.Wf) (hm : h.Mutual) (a : ℕ) (F : Forest)
    (ht : IsTree h a none F) (hl : h.isLeaf a = false) (fuel : ℕ) (hf : F.depth < fuel) :
    ∃ l, h.visitor fuel a none true = .ok l ∧ l.Nodup ∧ (∀ x, x ∈ l ↔ Linked h a x) ∧
      l.head? = some a ∧
      (∀ l₁ x l₂, l = l₁ ++ x :: l₂ → l₁ ≠ [] → ∃ y ∈ l₁, ∃ i j, h.acc y i = some (x, j)) ∧
      h.visitor fuel a none false = .ok (l.filter fun t => !(h.isLeaf t)) := by
  refine ⟨a :: F.ids, ?_, ht.nodup, ht.mem_iff_linked hw hm hl, rfl, ?_, ?_⟩
  · rw [visitor_tree ht true hf]; simp
  · intro l₁ x l₂ e hne
    cases l₁ with
    | nil => exact absurd rfl hne
    | cons z l₁ =>
      simp only [List.cons_append, List.cons.injEq] at e
      obtain ⟨rfl, e⟩ := e
      exact Forest.parent_before hw F a ht.rep (fun i id j => ht.acc_of_mem_heads hw) l₁ l₂ x e
  · rw [visitor_tree ht false hf]; simp [hl]

/-- `leaves()` of a root yields exactly the Leaf tensors of the tree, each once. -/
theorem C04_leaves (h : Heap R) (hw : h.Wf) (hm : h.Mutual) (a : ℕ) (F : Forest)
    (ht : IsTree h a none F) (hl : h.isLeaf a = false) (ha : (h.node a).axis = none)
    (fuel : ℕ) (hf : F.depth < fuel) :
    ∃ l, h.leaves fuel a = .ok l ∧ l.Nodup ∧
      ∀ x, x ∈ l ↔ Linked h a x ∧ h.isLeaf x = true := by
  obtain ⟨l, h1, h2, h3, -⟩ := C04_visitor h hw hm a F ht hl fuel hf
  refine ⟨l.filter fun t => h.isLeaf t, ?_, h2.filter _, ?_⟩
  · unfold leaves; rw [ha, h1]; rfl
  · intro x; rw [List.mem_filter, h3]

/-- The exception to C04: started at a Leaf, `visitor(axis=None)` yields only that Leaf. -/
theorem C04_from_leaf (h : Heap R) (a : ℕ) (hl : h.isLeaf a = true) (fuel : ℕ) :
    h.visitor (fuel + 1) a none true = .ok [a] ∧ h.visitor (fuel + 1) a none false = .ok [] := by
  constructor <;> rw [visitor, children_leaf_none hl] <;> simp [hl, pure, Except.pure]

/-- If the network seen from one tensor is a tree, it is one seen from every other (non-Leaf)
tensor of it, and the two walks yield the same tensors up to order. -/
theorem C05_visitor_start (h : Heap R) (hw : h.Wf) (hm : h.Mutual) (a : ℕ) (F : Forest)
    (ht : IsTree h a none F) (hl : h.isLeaf a = false) (b : ℕ) (hb : Linked h a b)
    (hlb : h.isLeaf b = false) :
    ∃ fuel₀, ∀ fuel, fuel₀ ≤ fuel → ∃ la lb, h.visitor fuel a none true = .ok la ∧
      h.visitor fuel b none true = .ok lb ∧ la.Perm lb := by
  obtain ⟨F', ht', hp⟩ := ht.reroot_any hw hm ((ht.mem_iff_linked hw hm hl b).2 hb) hlb
  refine ⟨max (F.depth + 1) (F'.depth + 1), fun fuel hf => ?_⟩
  simp only [max_le_iff] at hf
  refine ⟨_, _, visitor_tree ht true (by omega), visitor_tree ht' true (by omega), ?_⟩
  simpa using hp.symm

/-- Seen from every non-Leaf tensor the network is a tree. -/
theorem C05_tree_start (h : Heap R) (hw : h.Wf) (hm : h.Mutual) (a : ℕ) (F : Forest)
    (ht : IsTree h a none F) (hl : h.isLeaf a = false) (b : ℕ) (hb : Linked h a b)
    (hlb : h.isLeaf b = false) : ∃ F', IsTree h b none F' := by
  obtain ⟨F', ht', -⟩ := ht.reroot_any hw hm ((ht.mem_iff_linked hw hm hl b).2 hb) hlb
  exact ⟨F', ht'⟩

theorem mem_edges {h : Heap R} (hw : h.Wf) (F : Forest) (p : ℕ) (hr : F.RepIn h)
    (hp : ∀ i id j, (i, id, j) ∈ F.heads → h.acc p i = some (id, j))
    {e : ℕ × ℕ × ℕ × ℕ} (he : e ∈ F.edges p) :
    h.acc e.1 e.2.1 = some (e.2.2.1, e.2.2.2) := by
  induction F generalizing p with
  | nil => simp [Forest.edges] at he
  | cons i j id sub rest ih1 ih2 =>
    obtain ⟨h1, h2, h3⟩ := hr
    have hb : ¬ (some j = none ∧ h.isLeaf id = true) := by simp
    simp only [Forest.edges, List.cons_append, List.mem_cons, List.mem_append] at he
    rcases he with rfl | he | he
    · exact hp i id j (by simp [Forest.heads])
    · refine ih1 id h2 ?_ he
      intro i' id' j' hmem
      rw [← h1, mem_children hw hb] at hmem
      exact hmem.1
    · exact ih2 p h3 (fun i' id' j' hmem => hp i' id' j' (by simp [Forest.heads, hmem])) he

theorem edges_targets (F : Forest) (p : ℕ) :
    (F.edges p).map (fun e => e.2.2.1) = F.ids := by
  induction F generalizing p with
  | nil => rfl
  | cons i j id sub rest ih1 ih2 => simp [Forest.edges, Forest.ids, ih1, ih2]

theorem edges_cover {h : Heap R} (hw : h.Wf) (F : Forest) (p : ℕ) (hr : F.RepIn h)
    (hp : ∀ i id j, (i, id, j) ∈ F.heads → h.acc p i = some (id, j) ∧ h.acc id j = some (p, i))
    (hm : h.Mutual) {x k y l : ℕ} (hx : x ∈ F.ids) (hy : h.acc x k = some (y, l)) :
    (x, k, y, l) ∈ F.edges p ∨ (y, l, x, k) ∈ F.edges p := by
  induction F generalizing p with
  | nil => simp [Forest.ids] at hx
  | cons i j id sub rest ih1 ih2 =>
    obtain ⟨h1, h2, h3⟩ := hr
    have hb : ¬ (some j = none ∧ h.isLeaf id = true) := by simp
    have hsub : ∀ i' id' j', (i', id', j') ∈ sub.heads →
        h.acc id i' = some (id', j') ∧ h.acc id' j' = some (id, i') := by
      intro i' id' j' hmem
      rw [← h1, mem_children hw hb] at hmem
      exact ⟨hmem.1, hm _ _ _ _ hmem.1⟩
    simp only [Forest.ids, List.cons_append, List.mem_cons, List.mem_append] at hx
    simp only [Forest.edges, List.cons_append, List.mem_cons, List.mem_append]
    rcases hx with rfl | hx | hx
    · by_cases hk : k = j
      · subst hk
        have := (hp i x k (by simp [Forest.heads])).2
        rw [this] at hy; cases hy; exact .inr (.inl rfl)
      · have hmem : (k, y, l) ∈ sub.heads := by
          rw [← h1, mem_children hw hb]
          exact ⟨hy, by simpa using fun e => hk e.symm, .inl rfl⟩
        have hin : (x, k, y, l) ∈ sub.edges x := by
          clear ih1 ih2 h1 h2 h3 hsub hy hp
          induction sub with
          | nil => simp [Forest.heads] at hmem
          | cons i' j' id' sub' rest' _ ih =>
            simp only [Forest.heads, List.mem_cons, Prod.mk.injEq] at hmem
            simp only [Forest.edges, List.cons_append, List.mem_cons, List.mem_append,
              Prod.mk.injEq]
            rcases hmem with ⟨rfl, rfl, rfl⟩ | hmem
            · simp
            · exact .inr (.inr (ih hmem))
        exact .inl (.inr (.inl hin))
    · rcases ih1 id h2 hsub hx with e | e
      · exact .inl (.inr (.inl e))
      · exact .inr (.inr (.inl e))
    · rcases ih2 p h3 (fun i' id' j' hmem => hp i' id' j' (by simp [Forest.heads, hmem])) hx
        with e | e
      · exact .inl (.inr (.inr e))
      · exact .inr (.inr (.inr e))

theorem edges_props {h : Heap R} (hw : h.Wf) (hm : h.Mutual) {a : ℕ} {F : Forest}
    (ht : IsTree h a none F) (hl : h.isLeaf a = false) :
    (∀ e ∈ F.edges a, h.acc e.1 e.2.1 = some (e.2.2.1, e.2.2.2)) ∧
    ((F.edges a).map fun e => e.2.2.1).Nodup ∧
    (∀ x k y l, Linked h a x → h.acc x k = some (y, l) →
      ((x, k, y, l) ∈ F.edges a ∨ (y, l, x, k) ∈ F.edges a)) ∧
    (∀ x k y l, (x, k, y, l) ∈ F.edges a → (y, l, x, k) ∉ F.edges a) := by
  have hheads := fun i id j => ht.acc_of_mem_heads hw (i := i) (id := id) (j := j)
  have hnd := List.nodup_cons.1 ht.nodup
  refine ⟨fun e he => mem_edges hw F a ht.rep hheads he, ?_, ?_, ?_⟩
  · rw [edges_targets]; exact hnd.2
  · intro x k y l hx hy
    rw [← ht.mem_iff_linked hw hm hl, List.mem_cons] at hx
    rcases hx with rfl | hx
    · have hb : ¬ ((none : Option ℕ) = none ∧ h.isLeaf x = true) := by simp [hl]
      have hmem : (k, y, l) ∈ F.heads := by
        rw [← ht.heads, mem_children hw hb]
        exact ⟨hy, by simp, .inl rfl⟩
      refine .inl ?_
      clear ht hheads hnd
      induction F with
      | nil => simp [Forest.heads] at hmem
      | cons i' j' id' sub' rest' _ ih =>
        simp only [Forest.heads, List.mem_cons, Prod.mk.injEq] at hmem
        simp only [Forest.edges, List.cons_append, List.mem_cons, List.mem_append,
          Prod.mk.injEq]
        rcases hmem with ⟨rfl, rfl, rfl⟩ | hmem
        · simp
        · exact .inr (.inr (ih hmem))
    · exact edges_cover hw F a ht.rep
        (fun i id j hx => ⟨hheads i id j hx, hm _ _ _ _ (hheads i id j hx)⟩) hm hx hy
  · -- the near end of an edge comes earlier in the walk than the far end
    have hno : ∀ (F : Forest) (p : ℕ), (p :: F.ids).Nodup → ∀ x k y l,
        (x, k, y, l) ∈ F.edges p → (y, l, x, k) ∉ F.edges p := by
      intro F
      induction F with
      | nil => intro p _ x k y l hx; simp [Forest.edges] at hx
      | cons i j id sub rest ih1 ih2 =>
        intro p hn x k y l hx hy
        have hsrc : ∀ (F : Forest) (p x k y l : ℕ), (x, k, y, l) ∈ F.edges p → x = p ∨ x ∈ F.ids := by
          intro F
          induction F with
          | nil => intro p x k y l h; simp [Forest.edges] at h
          | cons i j id sub rest ih1 ih2 =>
            intro p x k y l h
            simp only [Forest.edges, List.cons_append, List.mem_cons, List.mem_append,
              Prod.mk.injEq] at h
            simp only [Forest.ids, List.cons_append, List.mem_cons, List.mem_append]
            rcases h with h | h | h
            · exact .inl h.1
            · rcases ih1 _ _ _ _ _ h with h | h <;> simp [h]
            · rcases ih2 _ _ _ _ _ h with h | h <;> simp [h]
        have htgt : ∀ (F : Forest) (p x k y l : ℕ), (x, k, y, l) ∈ F.edges p → y ∈ F.ids := by
          intro F p x k y l h
          rw [← edges_targets F p]
          exact List.mem_map.2 ⟨_, h, rfl⟩
        simp only [Forest.ids, List.cons_append, List.nodup_cons, List.mem_cons, List.mem_append,
          List.nodup_append, not_or] at hn
        obtain ⟨⟨n1, n2, n3⟩, ⟨n4, n5⟩, n6, n7, n8⟩ := hn
        simp only [Forest.edges, List.cons_append, List.mem_cons, List.mem_append,
          Prod.mk.injEq] at hx hy
        have hs1 := hsrc sub id
        have hs2 := hsrc rest p
        have ht1 := htgt sub id
        have ht2 := htgt rest p
        have i1 := ih1 id (List.nodup_cons.2 ⟨n4, n6⟩)
        have i2 := ih2 p (List.nodup_cons.2 ⟨n3, n7⟩)
        rcases hx with ⟨rfl, rfl, rfl, rfl⟩ | hx | hx
        · rcases hy with ⟨e, -⟩ | hy | hy
          · exact n1 e.symm
          · exact n2 (ht1 _ _ _ _ hy)
          · exact n3 (ht2 _ _ _ _ hy)
        · rcases hy with ⟨rfl, rfl, rfl, rfl⟩ | hy | hy
          · exact n2 (ht1 _ _ _ _ hx)
          · exact i1 _ _ _ _ hx hy
          · have q1 := ht1 _ _ _ _ hx
            rcases hs2 _ _ _ _ hy with rfl | q2
            · exact n2 q1
            · exact n8 _ q1 _ q2 rfl
        · rcases hy with ⟨rfl, rfl, rfl, rfl⟩ | hy | hy
          · exact n3 (ht2 _ _ _ _ hx)
          · have q1 := ht1 _ _ _ _ hy
            rcases hs2 _ _ _ _ hx with rfl | q2
            · exact n2 q1
            · exact n8 _ q1 _ q2 rfl
          · exact i2 _ _ _ _ hx hy
    exact hno F a ht.nodup

/-- `linkage_visitor(axis=None)` yields every link of the tree exactly once, in one of its two
directions: the one leading to a tensor not reached before. -/
theorem C06_linkage_visitor (h : Heap R) (hw : h.Wf) (hm : h.Mutual) (a : ℕ) (F : Forest)
    (ht : IsTree h a none F) (hl : h.isLeaf a = false) (fuel : ℕ) (hf : F.depth < fuel) :
    ∃ l, h.linkageVisitor fuel a none true false = .ok l ∧
      (∀ e ∈ l, h.acc e.1 e.2.1 = some (e.2.2.1, e.2.2.2)) ∧
      (l.map fun e => e.2.2.1).Nodup ∧
      (∀ x k y j, Linked h a x → h.acc x k = some (y, j) →
        ((x, k, y, j) ∈ l ∨ (y, j, x, k) ∈ l)) ∧
      (∀ x k y j, (x, k, y, j) ∈ l → (y, j, x, k) ∉ l) ∧
      h.visitor fuel a none true = .ok (a :: l.map fun e => e.2.2.1) ∧
      h.linkageVisitor fuel a none false false = .ok (l.filter fun e => !(h.isLeaf e.2.2.1)) := by
  obtain ⟨h1, h2, h3, h4⟩ := edges_props hw hm ht hl
  refine ⟨F.edges a, ?_, h1, h2, h3, h4, ?_, ?_⟩
  · rw [linkageVisitor_tree ht true hf]; simp
  · rw [visitor_tree ht true hf, edges_targets]; simp
  · rw [linkageVisitor_tree ht false hf]; simp

private theorem isWalk_append {x y z : ℕ} {u v : List (ℕ × ℕ × ℕ × ℕ)} (h1 : IsWalk x u y)
    (h2 : IsWalk y v z) : IsWalk x (u ++ v) z := by
  induction u generalizing x with
  | nil => cases h1; exact h2
  | cons e u ih =>
    obtain ⟨t1, i, t2, j⟩ := e
    exact ⟨h1.1, ih h1.2⟩

private theorem euler_walk (p : ℕ → Bool) (F : Forest) (a : ℕ) :
    IsWalk a ((F.euler p a).map Prod.snd) a := by
  induction F generalizing a with
  | nil => rfl
  | cons i j id sub rest ih1 ih2 =>
    simp only [Forest.euler, List.map_append]
    refine isWalk_append ?_ (ih2 a)
    split
    · simp only [List.map_append, List.map_cons, List.map_nil, List.cons_append]
      exact ⟨rfl, isWalk_append (ih1 id) ⟨rfl, rfl⟩⟩
    · rfl

private theorem euler_down {h : Heap R} (leaf : Bool) (F : Forest) (a : ℕ) (hl : F.LeafEnd h) :
    ((F.euler (fun t => leaf || !(h.isLeaf t)) a).filter fun e => !e.1).map Prod.snd =
      (F.edges a).filter fun e => leaf || !(h.isLeaf e.2.2.1) := by
  induction F generalizing a with
  | nil => rfl
  | cons i j id sub rest ih1 ih2 =>
    obtain ⟨l1, l2, l3⟩ := hl
    simp only [Forest.euler, Forest.edges, List.filter_append, List.map_append, ih2 a l3,
      List.cons_append, List.filter_cons]
    by_cases hc : (leaf || !(h.isLeaf id)) = true
    · simp [hc, ih1 id l2]
    · have hs := l1 (by cases leaf <;> simp_all)
      subst hs
      simp [hc, Forest.edges]

private theorem euler_up {h : Heap R} (leaf : Bool) (F : Forest) (a : ℕ) (hl : F.LeafEnd h) :
    (((F.euler (fun t => leaf || !(h.isLeaf t)) a).filter fun e => e.1).map
      fun e => (e.2.2.2.1, e.2.2.2.2, e.2.1, e.2.2.1)).Perm
      ((F.edges a).filter fun e => leaf || !(h.isLeaf e.2.2.1)) := by
  induction F generalizing a with
  | nil => exact List.Perm.refl _
  | cons i j id sub rest ih1 ih2 =>
    obtain ⟨l1, l2, l3⟩ := hl
    simp only [Forest.euler, Forest.edges, List.filter_append, List.map_append,
      List.cons_append, List.filter_cons]
    by_cases hc : (leaf || !(h.isLeaf id)) = true
    · simp only [hc, if_true, List.filter_append, List.map_append, List.filter_cons,
        List.filter_nil, List.map_nil, List.map_cons]
      simp only [Bool.false_eq_true, if_false, ← List.cons_append]
      refine List.Perm.append ?_ (ih2 a l3)
      rw [List.map_append]
      refine (List.perm_append_comm (l₁ := List.map _ _)).trans ?_
      exact (ih1 id l2).cons _
    · have hs := l1 (by cases leaf <;> simp_all)
      subst hs
      simpa [hc, Forest.edges] using ih2 a l3

/-- `decorated_linkage_visitor(axis=None)` yields a closed walk: every link starts where the
previous one ended, the first starts and the last ends at the start. The links flagged `False` are
those of `linkage_visitor`, and the links flagged `True` are the same, each reversed, each once. -/
theorem C06_decorated (h : Heap R) (a : ℕ) (F : Forest)
    (ht : IsTree h a none F) (leaf : Bool) (fuel : ℕ) (hf : F.depth < fuel) :
    ∃ w l, h.decoratedLinkageVisitor fuel a none leaf = .ok w ∧
      h.linkageVisitor fuel a none leaf false = .ok l ∧
      IsWalk a (w.map Prod.snd) a ∧
      (w.filter fun e => !e.1).map Prod.snd = l ∧
      ((w.filter fun e => e.1).map fun e => (e.2.2.2.1, e.2.2.2.2, e.2.1, e.2.2.1)).Perm l :=
  ⟨_, _, decorated_tree ht leaf hf, linkageVisitor_tree ht leaf hf, euler_walk _ F a,
    euler_down leaf F a ht.leafEnd, euler_up leaf F a ht.leafEnd⟩

private theorem mapM_reversed {α β : Type} (g : α → Res (List β)) (A B : α → β) (X : List α) :
    ∀ subs, (X.mapM fun x => do let sub ← g x; pure ([A x] ++ sub ++ (if false then [B x] else []))) = .ok subs →
      ∃ subs', (X.mapM fun x => do let sub ← g x; pure ([A x] ++ sub ++ (if true then [B x] else []))) = .ok subs' ∧
        subs'.flatten.Perm (subs.flatten ++ X.map B) := by
  induction X with
  | nil => intro subs h; cases h; exact ⟨[], rfl, List.Perm.refl _⟩
  | cons x X ih =>
    intro subs h
    rw [List.mapM_cons] at h ⊢
    cases hg : g x with
    | error e => rw [hg] at h; cases h
    | ok sub =>
      rw [hg] at h
      simp only [ok_bind, pure_eq_ok] at h ⊢
      obtain ⟨rest, h1, h2⟩ := bind_eq_ok.1 h
      obtain ⟨rest', r1, r2⟩ := ih rest h1
      simp only [pure_eq_ok] at r1
      rw [r1]
      simp only [ok_bind]
      cases h2
      refine ⟨_, rfl, ?_⟩
      simp only [List.flatten_cons, Bool.false_eq_true, if_false, if_true, List.append_nil, List.map_cons,
        List.singleton_append, List.cons_append, List.append_assoc]
      refine List.Perm.cons _ ?_
      refine List.Perm.append_left sub ?_
      rw [List.nil_append]
      exact (List.Perm.cons _ r2).trans List.perm_middle.symm

/-- `directed=True` adds only the reverses of the links of the starting tensor itself, not those of the links further
down. -/
theorem C06_directed (h : Heap R) (a : ℕ) (F : Forest) (ht : IsTree h a none F) (leaf : Bool) (fuel : ℕ)
    (hf : F.depth < fuel) :
    ∃ l w, h.linkageVisitor fuel a none leaf false = .ok l ∧ h.linkageVisitor fuel a none leaf true = .ok w ∧
      w.Perm (l ++ (h.children a none leaf).map fun x => (x.2.1, x.2.2, a, x.1)) := by
  obtain ⟨f, rfl⟩ : ∃ f, fuel = f + 1 := ⟨fuel - 1, by omega⟩
  have h0 := linkageVisitor_tree ht leaf hf
  rw [linkageVisitor] at h0
  obtain ⟨subs, h1, h2⟩ := bind_eq_ok.1 h0
  obtain ⟨subs', r1, r2⟩ := mapM_reversed (fun x : ℕ × ℕ × ℕ => h.linkageVisitor f x.2.1 (some x.2.2) leaf false)
    (fun x => (a, x.1, x.2.1, x.2.2)) (fun x => (x.2.1, x.2.2, a, x.1)) _ subs h1
  refine ⟨_, subs'.flatten, linkageVisitor_tree ht leaf hf, ?_, ?_⟩
  · rw [linkageVisitor]
    erw [r1]
    rfl
  · rw [← Except.ok.inj h2]
    exact r2

/-! Instance: a root with a leaf and a tensor, which carries two leaves. -/

/-- `0 - (1 leaf, 2 - (3 leaf, 4 leaf))` -/
def exTree : Heap ℤ :=
  let h := (empty.alloc (Node.tensor none none none)).1
  let h := (h.alloc (Node.leaf none)).1
  let h := (h.alloc (Node.tensor none none (some 0))).1
  let h := (h.alloc (Node.leaf none)).1
  let h := (h.alloc (Node.leaf none)).1
  (((h.link 0 0 1 0).link 0 1 2 0).link 2 1 3 0).link 2 2 4 0

/-- The branches of `exTree` seen from tensor 0. -/
def exForest : Forest :=
  .cons 0 0 1 .nil (.cons 1 0 2 (.cons 1 0 3 .nil (.cons 2 0 4 .nil .nil)) .nil)

example : IsTree exTree 0 none exForest where
  heads := by decide
  rep := ⟨by decide, trivial, by decide, ⟨by decide, trivial, by decide, trivial, trivial⟩, trivial⟩
  nodup := by decide
  leafEnd := ⟨fun _ => rfl, trivial, by decide,
    ⟨fun _ => rfl, trivial, fun _ => rfl, trivial, trivial⟩, trivial⟩

theorem exTree_wf : exTree.Wf := by
  unfold exTree
  exact wf_link (wf_link (wf_link (wf_link (wf_alloc (wf_alloc (wf_alloc (wf_alloc (wf_alloc
    wf_empty _ Dict.wf_nil) _ Dict.wf_nil) _ Dict.wf_nil) _ Dict.wf_nil) _
    Dict.wf_nil) _ _ _ _) _ _ _ _) _ _ _ _) _ _ _ _

theorem exTree_mutual : exTree.Mutual := by
  unfold exTree
  refine mutual_link (mutual_link (mutual_link (mutual_link ?_ rfl rfl (by decide)) rfl rfl
    (by decide)) rfl rfl (by decide)) rfl rfl (by decide)
  have : ∀ a i, Heap.acc (((((Heap.empty.alloc (Node.tensor (R := ℤ) none none none)).1.alloc
      (Node.leaf none)).1.alloc (Node.tensor none none (some 0))).1.alloc (Node.leaf none)).1.alloc
      (Node.leaf none)).1 a i = none := by
    intro a i
    simp only [acc_alloc]
    split_ifs <;> rfl
  intro a i b j e
  rw [this] at e; cases e

example : exTree.visitor 3 0 none true = .ok [0, 1, 2, 3, 4] ∧
    exTree.visitor 3 2 none true = .ok [2, 0, 1, 3, 4] := by decide

end Heap
