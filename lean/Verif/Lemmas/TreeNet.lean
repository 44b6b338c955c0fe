import Verif.Lemmas.Network
import Verif.Props.C04

/-!
Tree tensor networks are networks; moves of the root keep them.
-/

open Py

theorem Forest.edges_src {F : Forest} {p x k y l : ℕ} (h : (x, k, y, l) ∈ F.edges p) :
    x = p ∨ x ∈ F.ids := by
  induction F generalizing p with
  | nil => simp [Forest.edges] at h
  | cons i j id sub rest ih1 ih2 =>
    simp only [Forest.edges, List.cons_append, List.mem_cons, List.mem_append, Prod.mk.injEq] at h
    simp only [Forest.ids, List.cons_append, List.mem_cons, List.mem_append]
    rcases h with h | h | h
    · exact .inl h.1
    · rcases ih1 h with h | h <;> simp [h]
    · rcases ih2 h with h | h <;> simp [h]

theorem Forest.edges_tgt {F : Forest} {p x k y l : ℕ} (h : (x, k, y, l) ∈ F.edges p) : y ∈ F.ids := by
  rw [← Heap.edges_targets F p]
  exact List.mem_map.2 ⟨_, h, rfl⟩

/-- No edge of a tree joins a tensor to itself, and no two edges join the same tensors in opposite
directions. -/
theorem Forest.edges_acyclic {F : Forest} {p : ℕ} (hn : (p :: F.ids).Nodup) {x k y l : ℕ}
    (hx : (x, k, y, l) ∈ F.edges p) : x ≠ y ∧ ∀ k' l', (y, l', x, k') ∉ F.edges p := by
  induction F generalizing p with
  | nil => simp [Forest.edges] at hx
  | cons i j id sub rest ih1 ih2 =>
    simp only [Forest.ids, List.cons_append, List.nodup_cons, List.mem_cons, List.mem_append,
      List.nodup_append, not_or] at hn
    obtain ⟨⟨n1, n2, n3⟩, ⟨n4, n5⟩, n6, n7, n8⟩ := hn
    have i1 := @ih1 id (List.nodup_cons.2 ⟨n4, n6⟩)
    have i2 := @ih2 p (List.nodup_cons.2 ⟨n3, n7⟩)
    simp only [Forest.edges, List.cons_append, List.mem_cons, List.mem_append,
      Prod.mk.injEq] at hx
    refine ⟨?_, ?_⟩
    · rcases hx with ⟨rfl, rfl, rfl, rfl⟩ | hx | hx
      · exact n1
      · exact (i1 hx).1
      · exact (i2 hx).1
    · intro k' l' hy
      simp only [Forest.edges, List.cons_append, List.mem_cons, List.mem_append,
        Prod.mk.injEq] at hy
      rcases hx with ⟨rfl, rfl, rfl, rfl⟩ | hx | hx
      · rcases hy with ⟨e, -⟩ | hy | hy
        · exact n1 e.symm
        · exact n2 (edges_tgt hy)
        · exact n3 (edges_tgt hy)
      · rcases hy with ⟨rfl, rfl, rfl, rfl⟩ | hy | hy
        · exact n2 (edges_tgt hx)
        · exact (i1 hx).2 _ _ hy
        · have q1 := edges_tgt hx
          rcases edges_src hy with rfl | q2
          · exact n2 q1
          · exact n8 _ q1 _ q2 rfl
      · rcases hy with ⟨rfl, rfl, rfl, rfl⟩ | hy | hy
        · exact n3 (edges_tgt hx)
        · have q1 := edges_tgt hy
          rcases edges_src hx with rfl | q2
          · exact n2 q1
          · exact n8 _ q1 _ q2 rfl
        · exact (i2 hx).2 _ _ hy

theorem Forest.edges_src_leaf {R : Type} {h : Heap R} {F : Forest} {p : ℕ} (hp : h.isLeaf p = false)
    (hl : F.LeafEnd h) {x k y l : ℕ} (hx : (x, k, y, l) ∈ F.edges p) : h.isLeaf x = false := by
  induction F generalizing p with
  | nil => simp [Forest.edges] at hx
  | cons i j id sub rest ih1 ih2 =>
    obtain ⟨l1, l2, l3⟩ := hl
    simp only [Forest.edges, List.cons_append, List.mem_cons, List.mem_append, Prod.mk.injEq] at hx
    rcases hx with ⟨rfl, -⟩ | hx | hx
    · exact hp
    · cases hid : h.isLeaf id with
      | true => rw [l1 hid] at hx; simp [Forest.edges] at hx
      | false => exact ih1 hid l2 hx
    · exact ih2 hp l3 hx

theorem Forest.edges_rem {i j id : ℕ} {sub F : Forest} (hf : F.Has i j id sub)
    (hs : F.heads.Pairwise fun x y => x.1 < y.1) (p : ℕ) :
    (F.edges p).Perm ((p, i, id, j) :: sub.edges id ++ (F.rem i).edges p) := by
  induction F with
  | nil => exact hf.elim
  | cons i' j' id' sub' rest _ ih =>
    simp only [heads, List.pairwise_cons] at hs
    rcases hf with ⟨rfl, rfl, rfl, rfl⟩ | hf
    · have : (rest.rem i) = rest := by
        have hh : ∀ x ∈ rest.heads, x.1 ≠ i := fun x hx => by have := hs.1 x hx; omega
        clear ih hs
        induction rest with
        | nil => rfl
        | cons a b c d e _ ih2 =>
          simp only [rem]
          rw [if_neg (hh (a, c, b) (by simp [heads])), ih2 fun x hx => hh x (by simp [heads, hx])]
      simp only [edges, rem, if_pos, this]
      exact List.Perm.refl _
    · have hne : i' ≠ i := by
        have := hs.1 _ hf.mem_heads
        simp only at this; omega
      simp only [edges, rem, if_neg hne]
      have := ih hf hs.2
      refine ((this.append_left _).trans ?_)
      simp only [List.cons_append]
      refine List.Perm.trans (l₂ := (p, i, id, j) :: (p, i', id', j') :: (sub'.edges id' ++
        (sub.edges id ++ (rest.rem i).edges p))) ?_ ?_
      · refine ((List.perm_middle).cons _).trans ?_
        exact List.Perm.swap _ _ _
      · refine List.Perm.cons _ ?_
        rw [← List.append_assoc]
        refine ((List.perm_append_comm.append_right _).cons _).trans ?_
        rw [List.append_assoc]
        exact List.perm_middle.symm

theorem Forest.edges_ins (i j id : ℕ) (sub F : Forest) (p : ℕ) :
    ((F.ins i j id sub).edges p).Perm ((p, i, id, j) :: sub.edges id ++ F.edges p) := by
  induction F with
  | nil => simp [ins, edges]
  | cons i' j' id' sub' rest _ ih =>
    simp only [ins]
    split
    · simp [edges]
    · simp only [edges]
      refine ((ih.append_left _).trans ?_)
      simp only [List.cons_append]
      refine List.Perm.trans (l₂ := (p, i, id, j) :: (p, i', id', j') :: (sub'.edges id' ++
        (sub.edges id ++ rest.edges p))) ?_ ?_
      · refine ((List.perm_middle).cons _).trans ?_
        exact List.Perm.swap _ _ _
      · refine List.Perm.cons _ ?_
        rw [← List.append_assoc]
        refine ((List.perm_append_comm.append_right _).cons _).trans ?_
        rw [List.append_assoc]
        exact List.perm_middle.symm

theorem Heap.children_true_congr {R : Type} {h h' : Heap R} (hw : h.Wf) (hw' : h'.Wf) {a : ℕ} (axis : Option ℕ)
    (e : ∀ k, h'.acc a k = h.acc a k) (hl : h'.isLeaf a = h.isLeaf a) :
    h'.children a axis true = h.children a axis true := by
  unfold children
  rw [linkages_congr hw' hw e, hl]
  simp

theorem IsTree.congr {R : Type} {h h' : Heap R} (hw : h.Wf) (hw' : h'.Wf) {a : ℕ} {axis : Option ℕ} {F : Forest}
    (ht : IsTree h a axis F) (e : ∀ c k, h'.acc c k = h.acc c k)
    (hl : ∀ c ∈ a :: F.ids, h'.isLeaf c = h.isLeaf c) : IsTree h' a axis F := by
  have key : ∀ F : Forest, (∀ c ∈ F.ids, h'.isLeaf c = h.isLeaf c) → F.RepIn h → F.LeafEnd h →
      F.RepIn h' ∧ F.LeafEnd h' := by
    intro F
    induction F with
    | nil => intros; exact ⟨trivial, trivial⟩
    | cons i j id sub rest ih1 ih2 =>
      intro hl h1 h2
      obtain ⟨a1, a2, a3⟩ := h1
      obtain ⟨b1, b2, b3⟩ := h2
      obtain ⟨c1, c2⟩ := ih1 (fun c hc => hl c (by simp [Forest.ids, hc])) a2 b2
      obtain ⟨d1, d2⟩ := ih2 (fun c hc => hl c (by simp [Forest.ids, hc])) a3 b3
      have hid := hl id (by simp [Forest.ids])
      refine ⟨⟨?_, c1, d1⟩, ?_, c2, d2⟩
      · rw [Heap.children_true_congr hw hw' _ (e id) hid, a1]
      · rw [hid]; exact b1
  obtain ⟨c1, c2⟩ := key F (fun c hc => hl c (by simp [hc])) ht.rep ht.leafEnd
  exact ⟨by rw [Heap.children_true_congr hw hw' _ (e a) (hl a (by simp)), ht.heads], c1, ht.nodup, c2⟩

namespace Heap

variable {R : Type} [CommRing R]

theorem mem_tensors {h : Heap R} {r : ℕ} {F : Forest} {t : ℕ} :
    t ∈ h.tensors r F ↔ (t = r ∨ t ∈ F.ids) ∧ h.isLeaf t = false := by
  unfold tensors; simp [List.mem_filter]

theorem mem_bonds {h : Heap R} {r : ℕ} {F : Forest} {e : ℕ × ℕ × ℕ × ℕ} :
    e ∈ h.bonds r F ↔ e ∈ F.edges r ∧ h.isLeaf e.2.2.1 = false := by
  unfold bonds; simp [List.mem_filter]

namespace IsTTN

variable {h h' : Heap R} {r : ℕ} {F : Forest}

theorem mem_linked (ht : h.IsTTN r F) (x : ℕ) : (x = r ∨ x ∈ F.ids) ↔ Linked h r x := by
  rw [← ht.tree.mem_iff_linked ht.links.wf ht.links.sym ht.leaf, List.mem_cons]

theorem isLink_edge (ht : h.IsTTN r F) {e : ℕ × ℕ × ℕ × ℕ} (he : e ∈ F.edges r) : h.IsLink e := by
  have h1 := (edges_props ht.links.wf ht.links.sym ht.tree ht.leaf).1 e he
  exact ⟨h1, ht.links.sym _ _ _ _ h1⟩

theorem isNet (ht : h.IsTTN r F) : h.IsNet (h.tensors r F) (h.bonds r F) := by
  obtain ⟨p1, p2, p3, p4⟩ := edges_props ht.links.wf ht.links.sym ht.tree ht.leaf
  have hcov : ∀ t ∈ h.tensors r F, ∀ k u l, h.acc t k = some (u, l) → u ∈ h.tensors r F →
      (t, k, u, l) ∈ h.bonds r F ∨ (u, l, t, k) ∈ h.bonds r F := by
    intro t h1 k u l e h2
    rw [mem_tensors] at h1 h2
    rcases p3 t k u l ((ht.mem_linked t).1 h1.1) e with q | q
    · exact .inl (mem_bonds.2 ⟨q, h2.2⟩)
    · exact .inr (mem_bonds.2 ⟨q, h1.2⟩)
  have huniq : ∀ e ∈ F.edges r, ∀ f ∈ F.edges r, e.2.2.1 = f.2.2.1 → e = f :=
    fun e he f hf => List.inj_on_of_nodup_map p2 he hf
  refine ⟨ht.links, ht.tree.nodup.filter _, ?_, ht.full, ?_, ?_, ?_, ?_, ht.dims, ht.names⟩
  · intro t h1
    rcases (mem_tensors.1 h1).1 with rfl | q
    · exact ht.lt
    · rw [← edges_targets F r] at q
      obtain ⟨e, he, rfl⟩ := List.mem_map.1 q
      exact (ht.links.lt (p1 e he)).2
  · -- once
    have hpw : (h.bonds r F).Pairwise fun e f => e.2.2.1 ≠ f.2.2.1 := by
      have : (F.edges r).Pairwise fun e f => e.2.2.1 ≠ f.2.2.1 := List.pairwise_map.1 p2
      exact this.filter _
    have hlink : ∀ e ∈ h.bonds r F, e ∈ F.edges r := fun e he => (mem_bonds.1 he).1
    clear hcov
    generalize h.bonds r F = E at hpw hlink
    induction E with
    | nil => simp
    | cons e E ih =>
      obtain ⟨q1, q2⟩ := List.pairwise_cons.1 hpw
      have hE := hlink e (by simp)
      have h0 := ht.isLink_edge hE
      rw [halves_cons, List.nodup_cons, List.nodup_cons]
      have hac := (Forest.edges_acyclic ht.tree.nodup (x := e.1) (k := e.2.1) (y := e.2.2.1) (l := e.2.2.2) hE)
      refine ⟨?_, ?_, ih q2 fun f hf => hlink f (by simp [hf])⟩
      · intro q
        rcases List.mem_cons.1 q with q | q
        · simp only [Prod.mk.injEq] at q; exact hac.1 q.1
        · obtain ⟨f, hf, q⟩ := mem_halves.1 q
          have hF := hlink f (by simp [hf])
          have h1 := ht.isLink_edge hF
          obtain ⟨a, i, b, j⟩ := e
          obtain ⟨a', i', b', j'⟩ := f
          rcases q with q | q <;> cases q
          · have e1 := h0.1; have e2 := h1.1
            simp only at e1 e2
            rw [e1] at e2; cases e2
            exact q1 _ hf rfl
          · have e1 := h0.1; have e2 := h1.2
            simp only at e1 e2
            rw [e1] at e2; cases e2
            exact hac.2 _ _ hF
      · intro q
        obtain ⟨f, hf, q⟩ := mem_halves.1 q
        have hF := hlink f (by simp [hf])
        have h1 := ht.isLink_edge hF
        obtain ⟨a, i, b, j⟩ := e
        obtain ⟨a', i', b', j'⟩ := f
        rcases q with q | q <;> cases q
        · have e1 := h0.2; have e2 := h1.1
          simp only at e1 e2
          rw [e1] at e2; cases e2
          exact hac.2 _ _ hF
        · exact q1 _ hf rfl
  · intro e he
    obtain ⟨e1, e2⟩ := mem_bonds.1 he
    refine ⟨ht.isLink_edge e1, mem_tensors.2 ⟨Forest.edges_src (k := e.2.1) (y := e.2.2.1) (l := e.2.2.2) e1,
      Forest.edges_src_leaf ht.leaf ht.tree.leafEnd (k := e.2.1) (y := e.2.2.1) (l := e.2.2.2) e1⟩,
      mem_tensors.2 ⟨.inr (Forest.edges_tgt (x := e.1) (k := e.2.1) (l := e.2.2.2) e1), e2⟩⟩
  · intro t h1 k u l e h2
    rcases hcov t h1 k u l e h2 with q | q
    · exact mem_halves.2 ⟨_, q, .inl rfl⟩
    · exact mem_halves.2 ⟨_, q, .inr rfl⟩
  · intro t h1 k u l e h2
    have c1 := hcov t h1 k u l e h2
    refine ⟨?_, ?_⟩
    · rintro rfl
      rcases c1 with q | q <;>
        exact (Forest.edges_acyclic ht.tree.nodup (mem_bonds.1 q).1).1 rfl
    · intro k' l' e'
      rcases c1 with q | q <;> rcases hcov t h1 k' u l' e' h2 with q' | q' <;>
        have m1 := (mem_bonds.1 q).1 <;> have m2 := (mem_bonds.1 q').1
      · have := huniq _ m1 _ m2 rfl; cases this; rfl
      · exact absurd m2 ((Forest.edges_acyclic ht.tree.nodup m1).2 _ _)
      · exact absurd m2 ((Forest.edges_acyclic ht.tree.nodup m1).2 _ _)
      · have := huniq _ m1 _ m2 rfl; cases this; rfl

/-- Replacing arrays of tensors by arrays of the same shapes keeps a tree tensor network; leaves do not matter. -/
theorem congr' (ht : h.IsTTN r F) (ha : ∀ c, h'.access c = h.access c) (hn : h'.next = h.next)
    (hl : ∀ c, h'.isLeaf c = h.isLeaf c) (hm : ∀ c, (h'.node c).name = (h.node c).name)
    (hA : ∀ c A, h.isLeaf c = false → h.array c = some A → A.Wf → ∃ B, h'.array c = some B ∧ B.Wf ∧ B.shape = A.shape) :
    h'.IsTTN r F := by
  have hi' := ht.links.congr' ha hn
  have hacc : ∀ c k, h'.acc c k = h.acc c k := fun c k => by rw [acc_def, ha, ← acc_def]
  have e1 : h'.tensors r F = h.tensors r F := by unfold tensors; simp only [hl]
  have e2 : h'.bonds r F = h.bonds r F := by unfold bonds; simp only [hl]
  have hfull : ∀ t ∈ h.tensors r F, ∃ A B, h.Full t A ∧ h'.Full t B ∧ B.shape = A.shape := by
    intro t ht'
    obtain ⟨A, hf⟩ := ht.full t ht'
    obtain ⟨B, b1, b2, b3⟩ := hA t A hf.leaf hf.array hf.wf
    refine ⟨A, B, hf, ⟨by rw [hl]; exact hf.leaf, b1, b2, by rw [b3]; exact hf.pos, fun k => ?_⟩, b3⟩
    rw [hacc, hf.acc]; unfold Nd.ndim; rw [b3]
  have hdim : ∀ t ∈ h.tensors r F, ∀ k, h'.hdim (t, k) = h.hdim (t, k) := by
    intro t ht' k
    obtain ⟨A, B, f1, f2, f3⟩ := hfull t ht'
    rw [f1.hdim_eq, f2.hdim_eq, f3]
  refine ⟨hi', ht.tree.congr ht.links.wf hi'.wf hacc (fun c _ => hl c), by rw [hl]; exact ht.leaf,
    by rw [hn]; exact ht.lt, ?_, ?_, ?_⟩
  · rw [e1]; intro t ht'
    obtain ⟨A, B, -, f2, -⟩ := hfull t ht'
    exact ⟨B, f2⟩
  · rw [e2]; intro e he
    obtain ⟨-, q1, q2⟩ := ht.isNet.isLink e he
    rw [hdim _ q1, hdim _ q2]; exact ht.dims e he
  · rw [e1]; intro t ht'; rw [hm]; exact ht.names t ht'

variable {csvd : Svd R} {op : Option (Operator R)} {i fin j mid : ℕ}

/-- Replacing arrays by arrays of the same shapes keeps a tree tensor network. -/
theorem congr (ht : h.IsTTN r F) (ha : ∀ c, h'.access c = h.access c) (hn : h'.next = h.next)
    (hl : ∀ c, h'.isLeaf c = h.isLeaf c) (hm : ∀ c, (h'.node c).name = (h.node c).name)
    (hA : ∀ c A, h.array c = some A → A.Wf → ∃ B, h'.array c = some B ∧ B.Wf ∧ B.shape = A.shape) :
    h'.IsTTN r F := ht.congr' ha hn hl hm fun c A _ => hA c A

/-- What a move of the root of a tree tensor network does. -/
structure Moved (h h' : Heap R) (r i fin j : ℕ) (F F' : Forest) : Prop where
  ttn : h'.IsTTN fin F'
  oldTree : IsTree h' r none F
  tensors : (h'.tensors fin F').Perm (h.tensors r F)
  bonds : (h'.bonds fin F').Perm ((fin, j, r, i) :: (h.bonds r F).erase (r, i, fin, j))

theorem isLeaf_eq (ht : h.IsTTN r F) (m : MoveSpec csvd op h h' r i fin j mid) :
    ∀ c ∈ r :: F.ids, h'.isLeaf c = h.isLeaf c := by
  obtain ⟨p1, -, -, -⟩ := edges_props ht.links.wf ht.links.sym ht.tree ht.leaf
  intro c hc
  refine (m.other c ?_).2.1
  rintro rfl
  have h0 := m.fresh
  rcases List.mem_cons.1 hc with rfl | q
  · have := ht.lt; omega
  · rw [← edges_targets F r] at q
    obtain ⟨e, he, rfl⟩ := List.mem_map.1 q
    have := (ht.links.lt (p1 e he)).2
    omega

theorem moved (ht : h.IsTTN r F) (m : MoveSpec csvd op h h' r i fin j mid)
    (hb : h.acc r i = some (fin, j)) (hl : h.isLeaf fin = false) :
    ∃ F', Moved h h' r i fin j F F' := by
  have hwf := ht.links.wf
  have hlf := ht.isLeaf_eq m
  have hmem : (i, fin, j) ∈ F.heads := by
    rw [← ht.tree.heads, mem_children hwf (by simp [ht.leaf])]
    exact ⟨hb, by simp, .inl rfl⟩
  obtain ⟨sub, hf⟩ := Forest.exists_has hmem
  have hfin : fin ∈ F.ids := Forest.mem_heads_ids hmem
  have tree1 : IsTree h' r none F := ht.tree.congr hwf m.links.wf m.acc hlf
  have hlfin : h'.isLeaf fin = false := by rw [hlf fin (by simp [hfin])]; exact hl
  have tree2 := tree1.reroot hf m.links.wf m.links.sym hlfin
  have hids := tree1.reroot_ids hf m.links.wf
  set F' := sub.ins j i r (F.rem i) with hF'
  have htens : (h'.tensors fin F').Perm (h.tensors r F) := by
    unfold Heap.tensors
    refine (hids.filter _).trans (List.Perm.of_eq ?_)
    refine List.filter_congr fun c hc => ?_
    rw [hlf c hc]
  have hrF : h.isLeaf r = false := ht.leaf
  have hr' : h'.isLeaf r = false := by rw [hlf r (by simp)]; exact hrF
  have he1 := Forest.edges_rem hf (ht.tree.pairwise hwf) r
  have he2 := Forest.edges_ins j i r (F.rem i) sub fin
  have hbonds : (h'.bonds fin F').Perm ((fin, j, r, i) :: (h.bonds r F).erase (r, i, fin, j)) := by
    unfold Heap.bonds
    have e1 : ((F'.edges fin).filter fun e => !(h'.isLeaf e.2.2.1)).Perm
        ((fin, j, r, i) :: (((F.rem i).edges r ++ sub.edges fin).filter fun e => !(h'.isLeaf e.2.2.1))) := by
      refine (he2.filter _).trans (List.Perm.of_eq ?_)
      simp [hr']
    refine e1.trans (List.Perm.cons _ ?_)
    have e2 : ((F.edges r).filter fun e => !(h.isLeaf e.2.2.1)).Perm
        ((r, i, fin, j) :: ((sub.edges fin ++ (F.rem i).edges r).filter fun e => !(h.isLeaf e.2.2.1))) := by
      refine (he1.filter _).trans (List.Perm.of_eq ?_)
      simp [hl]
    have e3 := e2.erase (r, i, fin, j)
    rw [List.erase_cons_head] at e3
    refine List.Perm.trans ?_ e3.symm
    refine (List.Perm.filter _ List.perm_append_comm).trans (List.Perm.of_eq ?_)
    refine List.filter_congr fun e he => ?_
    have : e ∈ F.edges r := by
      rw [he1.mem_iff]; simp only [List.cons_append, List.mem_cons]; exact .inr he
    rw [hlf e.2.2.1 (List.mem_cons_of_mem _ (Forest.edges_tgt (x := e.1) (k := e.2.1) (l := e.2.2.2) this))]
  have hn := ht.isNet
  have hrT : r ∈ h.tensors r F := mem_tensors.2 ⟨.inl rfl, hrF⟩
  have hfT : fin ∈ h.tensors r F := mem_tensors.2 ⟨.inr hfin, hl⟩
  have hn' := hn.move m hrT hfT hb
  refine ⟨F', ⟨m.links, tree2, hlfin, ?_, ?_, ?_, ?_⟩, tree1, htens, hbonds⟩
  · exact hn'.lt _ hfT
  · intro t h1; exact hn'.full t (htens.mem_iff.1 h1)
  · intro e he
    have := hbonds.mem_iff.1 he
    rcases List.mem_cons.1 this with rfl | q
    · exact m.dims.symm
    · exact hn'.dims e (List.mem_of_mem_erase q)
  · intro t h1; exact hn'.names t (htens.mem_iff.1 h1)

/-- The bonds of the tree other than the moved one are kept, and end at neither `r` nor `fin`. -/
theorem Moved.plain (ht : h.IsTTN r F) (m : MoveSpec csvd op h h' r i fin j mid) {F' : Forest}
    (mv : Moved h h' r i fin j F F') (hp : h.PlainNames (h.tensors r F)) : h'.PlainNames (h'.tensors fin F') := by
  intro t ht' nm hnm
  have q := mv.tensors.mem_iff.1 ht'
  rw [(m.other t fun e => ht.isNet.mid_not_mem m (e ▸ q)).1] at hnm
  exact hp t q nm hnm

theorem Moved.other (ht : h.IsTTN r F) (hb : h.acc r i = some (fin, j)) (hl : h.isLeaf fin = false)
    {F' : Forest} (mv : Moved h h' r i fin j F F') {e : ℕ × ℕ × ℕ × ℕ} (he : e ∈ h'.bonds fin F') :
    e = (fin, j, r, i) ∨ (e ∈ h.bonds r F ∧ e.2.2.1 ≠ r ∧ e.2.2.1 ≠ fin) := by
  have hmem : (i, fin, j) ∈ F.heads := by
    rw [← ht.tree.heads, mem_children ht.links.wf (by simp [ht.leaf])]
    exact ⟨hb, by simp, .inl rfl⟩
  have hfin : fin ∈ F.ids := Forest.mem_heads_ids hmem
  have hrT : r ∈ h.tensors r F := mem_tensors.2 ⟨.inl rfl, ht.leaf⟩
  have hfT : fin ∈ h.tensors r F := mem_tensors.2 ⟨.inr hfin, hl⟩
  have hn := ht.isNet
  obtain ⟨p1, p2, p3, p4⟩ := edges_props ht.links.wf ht.links.sym ht.tree ht.leaf
  have hre : (r, i, fin, j) ∈ h.bonds r F := by
    rcases hn.mem_bond hrT hfT hb with q | q
    · exact q
    · exact absurd (Forest.edges_tgt (mem_bonds.1 q).1) (List.nodup_cons.1 ht.tree.nodup).1
  rcases List.mem_cons.1 (mv.bonds.mem_iff.1 he) with q | q
  · exact .inl q
  · have hnd : (h.bonds r F).Nodup := (List.Nodup.of_map _ p2).filter _
    obtain ⟨q1, q2⟩ := (List.Nodup.mem_erase_iff hnd).1 q
    refine .inr ⟨q2, ?_, ?_⟩
    · intro q3
      have := Forest.edges_tgt (x := e.1) (k := e.2.1) (l := e.2.2.2) (mem_bonds.1 q2).1
      rw [q3] at this
      exact (List.nodup_cons.1 ht.tree.nodup).1 this
    · intro q3
      exact q1 (List.inj_on_of_nodup_map p2 (mem_bonds.1 q2).1 (mem_bonds.1 hre).1 q3)

theorem Moved.rooted (ht : h.IsTTN r F) (m : MoveSpec csvd op h h' r i fin j mid)
    (hb : h.acc r i = some (fin, j)) (hl : h.isLeaf fin = false) (hr : h.Rooted r F)
    {F' : Forest} (mv : Moved h h' r i fin j F F') : h'.Rooted fin F' := by
  refine ⟨m.axisFin, fun e he => ?_⟩
  have hn := ht.isNet
  rcases mv.other ht hb hl he with rfl | ⟨q1, q2, q3⟩
  · exact m.axisSelf
  · have hT := (hn.isLink e q1).2.2
    have q4 : e.2.2.1 ≠ mid := by intro q; exact hn.mid_not_mem m (q ▸ hT)
    rw [(m.otherAxis _ q2 q3 q4).1]
    exact hr.2 e q1

theorem Moved.canonical [StarRing R] (ht : h.IsTTN r F) (m : MoveSpec csvd op h h' r i fin j mid)
    (hb : h.acc r i = some (fin, j)) (hl : h.isLeaf fin = false) (hiso : SvdIso csvd)
    (hr : h.CanonicalTree r F) {F' : Forest} (mv : Moved h h' r i fin j F F') :
    h'.CanonicalTree fin F' := by
  intro e he
  have hn := ht.isNet
  rcases mv.other ht hb hl he with rfl | ⟨q1, q2, q3⟩
  · exact m.canonical hiso
  · have hT := (hn.isLink e q1).2.2
    have q4 : e.2.2.1 ≠ mid := by intro q; exact hn.mid_not_mem m (q ▸ hT)
    obtain ⟨A, h1, h2⟩ := hr e q1
    exact ⟨A, by rw [(m.otherAxis _ q2 q3 q4).2]; exact h1, h2⟩

theorem Moved.amp (ht : h.IsTTN r F) (m : MoveSpec csvd op h h' r i fin j mid)
    (hb : h.acc r i = some (fin, j)) (hl : h.isLeaf fin = false) (hex : SvdExact csvd) (hop : op = none)
    {F' : Forest} (mv : Moved h h' r i fin j F F') {x : ℕ → ℕ} (hx : h.InRange (h.tensors r F) x) :
    h'.treeAmp fin F' x = h.treeAmp r F x := by
  have hn := ht.isNet
  have hmem : (i, fin, j) ∈ F.heads := by
    rw [← ht.tree.heads, mem_children ht.links.wf (by simp [ht.leaf])]
    exact ⟨hb, by simp, .inl rfl⟩
  have hrT : r ∈ h.tensors r F := mem_tensors.2 ⟨.inl rfl, ht.leaf⟩
  have hfT : fin ∈ h.tensors r F := mem_tensors.2 ⟨.inr (Forest.mem_heads_ids hmem), hl⟩
  unfold treeAmp
  rw [(hn.move m hrT hfT hb).amp_listing mv.ttn.isNet mv.tensors, hn.move_amp m hrT hfT hb hex hop hx]

theorem Moved.inRange (ht : h.IsTTN r F) (m : MoveSpec csvd op h h' r i fin j mid)
    (hb : h.acc r i = some (fin, j)) (hl : h.isLeaf fin = false)
    {F' : Forest} (mv : Moved h h' r i fin j F F') {x : ℕ → ℕ} :
    h'.InRange (h'.tensors fin F') x ↔ h.InRange (h.tensors r F) x := by
  have hn := ht.isNet
  have hmem : (i, fin, j) ∈ F.heads := by
    rw [← ht.tree.heads, mem_children ht.links.wf (by simp [ht.leaf])]
    exact ⟨hb, by simp, .inl rfl⟩
  have hrT : r ∈ h.tensors r F := mem_tensors.2 ⟨.inl rfl, ht.leaf⟩
  have hfT : fin ∈ h.tensors r F := mem_tensors.2 ⟨.inr (Forest.mem_heads_ids hmem), hl⟩
  rw [← hn.move_inRange m hrT hfT hb]
  unfold InRange
  simp only [mv.tensors.mem_iff]

end IsTTN

end Heap
