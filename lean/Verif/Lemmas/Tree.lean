import Verif.Spec.Tree
import Verif.Lemmas.Heap

open Py

namespace Heap

variable {R : Type}

theorem mem_linkages {h : Heap R} (hw : h.Wf) {a i t j : ℕ} :
    (i, t, j) ∈ h.linkages a ↔ h.acc a i = some (t, j) := by
  unfold linkages
  rw [List.mem_insertionSort, acc_def, Dict.get?_some_iff_mem (hw a)]
  simp

theorem mem_children {h : Heap R} (hw : h.Wf) {a : ℕ} {axis : Option ℕ} {leaf : Bool} {i t j : ℕ}
    (hl : ¬ (axis = none ∧ h.isLeaf a = true)) :
    (i, t, j) ∈ h.children a axis leaf ↔
      h.acc a i = some (t, j) ∧ axis ≠ some i ∧ (leaf = true ∨ h.isLeaf t = false) := by
  unfold children
  rw [if_neg hl, List.mem_filter, mem_linkages hw]
  cases axis with
  | none => simp
  | some k => simp [eq_comm (a := i)]

theorem children_leaf_none {h : Heap R} {a : ℕ} {leaf : Bool} (hl : h.isLeaf a = true) :
    h.children a none leaf = [] := by
  unfold children; simp [hl]

theorem children_false (h : Heap R) (a : ℕ) (axis : Option ℕ) :
    h.children a axis false = (h.children a axis true).filter fun x => !(h.isLeaf x.2.1) := by
  unfold children
  split
  · simp
  · rw [List.filter_filter]
    congr 1
    funext x
    simp [Bool.and_comm]

theorem pairwise_linkages {h : Heap R} (hw : h.Wf) (a : ℕ) :
    (h.linkages a).Pairwise fun x y => x.1 < y.1 := by
  have h1 : (h.linkages a).Pairwise fun x y => x.1 ≤ y.1 := by
    haveI : Std.Total (fun x y : ℕ × ℕ × ℕ => x.1 ≤ y.1) := ⟨fun x y => le_total _ _⟩
    haveI : IsTrans (ℕ × ℕ × ℕ) (fun x y => x.1 ≤ y.1) := ⟨fun x y z h1 h2 => le_trans h1 h2⟩
    exact List.pairwise_insertionSort _ _
  have h2 : ((h.linkages a).map (fun x => x.1)).Nodup := by
    have hp : ((h.linkages a).map (fun x => x.1)).Perm (Dict.keys (h.access a)) := by
      unfold linkages
      refine ((List.perm_insertionSort _ _).map _).trans ?_
      rw [List.map_map]
      exact List.Perm.refl _
    exact hp.nodup_iff.2 (hw a)
  rw [List.Nodup, List.pairwise_map] at h2
  refine (h1.and h2).imp ?_
  rintro x y ⟨h3, h4⟩
  omega

theorem pairwise_children {h : Heap R} (hw : h.Wf) (a : ℕ) (axis : Option ℕ) (leaf : Bool) :
    (h.children a axis leaf).Pairwise fun x y => x.1 < y.1 := by
  unfold children
  split
  · exact List.Pairwise.nil
  · exact (pairwise_linkages hw a).filter _

/-- A sorted list is determined by its members. -/
theorem sorted_ext {l l' : List (ℕ × ℕ × ℕ)} (h : l.Pairwise fun x y => x.1 < y.1)
    (h' : l'.Pairwise fun x y => x.1 < y.1) (he : ∀ x, x ∈ l ↔ x ∈ l') : l = l' := by
  have n1 : l.Nodup := h.imp (fun {x y} hxy e => by subst e; omega)
  have n2 : l'.Nodup := h'.imp (fun {x y} hxy e => by subst e; omega)
  refine List.Perm.eq_of_pairwise (le := fun x y => x.1 < y.1) ?_ h h'
    ((List.perm_ext_iff_of_nodup n1 n2).2 he)
  intro a b _ _ h1 h2; omega

/-- Links only depend on the lookups. -/
theorem linkages_congr {h h' : Heap R} (hw : h.Wf) (hw' : h'.Wf) {a b : ℕ}
    (e : ∀ k, h.acc a k = h'.acc b k) : h.linkages a = h'.linkages b := by
  refine sorted_ext (pairwise_linkages hw a) (pairwise_linkages hw' b) ?_
  rintro ⟨i, t, j⟩
  rw [mem_linkages hw, mem_linkages hw', e]

theorem order_congr {h h' : Heap R} (hw : h.Wf) (hw' : h'.Wf) {a : ℕ}
    (e : ∀ k, h.acc a k = h'.acc a k) (hl : h.isLeaf a = h'.isLeaf a) :
    h.order a = h'.order a := by
  unfold order
  rw [hl, Dict.length_eq_of_get?_eq (hw a) (hw' a) e]

theorem children_congr {h h' : Heap R} (hw : h.Wf) (hw' : h'.Wf) {a : ℕ} (axis : Option ℕ)
    (leaf : Bool) (e : ∀ k, h.acc a k = h'.acc a k) (hl : ∀ b, h.isLeaf b = h'.isLeaf b) :
    h.children a axis leaf = h'.children a axis leaf := by
  unfold children
  rw [linkages_congr hw hw' e, hl]
  simp only [hl]

end Heap

namespace Forest

variable {R : Type}

theorem mem_heads_ids {F : Forest} {x : ℕ × ℕ × ℕ} (hx : x ∈ F.heads) : x.2.1 ∈ F.ids := by
  induction F with
  | nil => simp [heads] at hx
  | cons i j id sub rest ih1 ih2 =>
    simp only [heads, List.mem_cons] at hx
    rcases hx with rfl | hx
    · simp [ids]
    · simp [ids, ih2 hx]

end Forest

/-! ### Branches -/

namespace Forest

variable {R : Type}

/-- The forest has the top-level branch `(i, j, id, sub)`. -/
def Has : Forest → ℕ → ℕ → ℕ → Forest → Prop
  | nil, _, _, _, _ => False
  | cons i' j' id' sub' rest, i, j, id, sub => (i = i' ∧ j = j' ∧ id = id' ∧ sub = sub') ∨ rest.Has i j id sub

/-- Remove the top-level branch at axis `i`. -/
def rem (i : ℕ) : Forest → Forest
  | nil => nil
  | cons i' j' id' sub' rest => if i' = i then rest.rem i else cons i' j' id' sub' (rest.rem i)

/-- Insert a top-level branch, keeping the axes sorted. -/
def ins : Forest → ℕ → ℕ → ℕ → Forest → Forest
  | nil, i, j, id, sub => cons i j id sub nil
  | cons i' j' id' sub' rest, i, j, id, sub =>
    if i < i' then cons i j id sub (cons i' j' id' sub' rest)
    else cons i' j' id' sub' (rest.ins i j id sub)

theorem Has.mem_heads {i j id : ℕ} {sub F : Forest} (h : F.Has i j id sub) :
    (i, id, j) ∈ F.heads := by
  induction F with
  | nil => exact h.elim
  | cons i' j' id' sub' rest _ ih =>
    rcases h with ⟨rfl, rfl, rfl, rfl⟩ | h
    · simp [heads]
    · simp [heads, ih h]

theorem exists_has {i j id : ℕ} {F : Forest} (h : (i, id, j) ∈ F.heads) :
    ∃ sub, F.Has i j id sub := by
  induction F with
  | nil => simp [heads] at h
  | cons i' j' id' sub' rest _ ih =>
    simp only [heads, List.mem_cons, Prod.mk.injEq] at h
    rcases h with ⟨rfl, rfl, rfl⟩ | h
    · exact ⟨sub', .inl ⟨rfl, rfl, rfl, rfl⟩⟩
    · obtain ⟨s, hs⟩ := ih h
      exact ⟨s, .inr hs⟩

theorem Has.repIn {h : Heap R} {i j id : ℕ} {sub F : Forest} (hf : F.Has i j id sub)
    (hr : F.RepIn h) : h.children id (some j) true = sub.heads ∧ sub.RepIn h := by
  induction F with
  | nil => exact hf.elim
  | cons i' j' id' sub' rest _ ih =>
    rcases hf with ⟨rfl, rfl, rfl, rfl⟩ | hf
    · exact ⟨hr.1, hr.2.1⟩
    · exact ih hf hr.2.2

theorem Has.leafEnd {h : Heap R} {i j id : ℕ} {sub F : Forest} (hf : F.Has i j id sub)
    (hr : F.LeafEnd h) : (h.isLeaf id = true → sub = nil) ∧ sub.LeafEnd h := by
  induction F with
  | nil => exact hf.elim
  | cons i' j' id' sub' rest _ ih =>
    rcases hf with ⟨rfl, rfl, rfl, rfl⟩ | hf
    · exact ⟨hr.1, hr.2.1⟩
    · exact ih hf hr.2.2

theorem Has.sublist {i j id : ℕ} {sub F : Forest} (hf : F.Has i j id sub) :
    (id :: sub.ids).Sublist F.ids := by
  induction F with
  | nil => exact hf.elim
  | cons i' j' id' sub' rest _ ih =>
    rcases hf with ⟨rfl, rfl, rfl, rfl⟩ | hf
    · simp [ids]
    · simp only [ids]
      exact (ih hf).trans (List.sublist_append_right _ _)

theorem heads_rem (i : ℕ) (F : Forest) : (F.rem i).heads = F.heads.filter fun x => x.1 ≠ i := by
  induction F with
  | nil => rfl
  | cons i' j' id' sub' rest _ ih =>
    simp only [rem, heads]
    split
    · rename_i e; simp [ih, e]
    · rename_i e; simp [heads, ih, e]

theorem ids_rem {i j id : ℕ} {sub F : Forest} (hf : F.Has i j id sub)
    (hs : F.heads.Pairwise fun x y => x.1 < y.1) :
    F.ids.Perm (id :: sub.ids ++ (F.rem i).ids) := by
  induction F with
  | nil => exact hf.elim
  | cons i' j' id' sub' rest _ ih =>
    simp only [heads, List.pairwise_cons] at hs
    rcases hf with ⟨rfl, rfl, rfl, rfl⟩ | hf
    · simp only [rem, if_true, ids]
      have : (rest.rem i) = rest := by
        have h1 : ∀ x ∈ rest.heads, i < x.1 := fun x hx => hs.1 x hx
        clear hs ih
        induction rest with
        | nil => rfl
        | cons i' j' id' sub' rest _ ih =>
          have := h1 (i', id', j') (by simp [heads])
          simp only [rem]
          rw [if_neg (by simp at this; omega), ih]
          intro x hx
          exact h1 x (by simp [heads, hx])
      rw [this]
    · have h1 := hs.1 _ hf.mem_heads
      simp only at h1
      simp only [rem, if_neg (show ¬ i' = i by omega), ids]
      have h2 := ih hf hs.2
      refine ((h2.append_left _)).trans ?_
      have : (id' :: sub'.ids ++ (id :: sub.ids ++ (rest.rem i).ids)).Perm
        (id :: sub.ids ++ (id' :: sub'.ids ++ (rest.rem i).ids)) := by
        rw [← List.append_assoc, ← List.append_assoc]
        exact List.perm_append_comm.append_right _
      exact this

theorem repIn_rem {h : Heap R} (i : ℕ) {F : Forest} (hr : F.RepIn h) : (F.rem i).RepIn h := by
  induction F with
  | nil => trivial
  | cons i' j' id' sub' rest _ ih =>
    simp only [rem]
    split
    · exact ih hr.2.2
    · exact ⟨hr.1, hr.2.1, ih hr.2.2⟩

theorem leafEnd_rem {h : Heap R} (i : ℕ) {F : Forest} (hr : F.LeafEnd h) :
    (F.rem i).LeafEnd h := by
  induction F with
  | nil => trivial
  | cons i' j' id' sub' rest _ ih =>
    simp only [rem]
    split
    · exact ih hr.2.2
    · exact ⟨hr.1, hr.2.1, ih hr.2.2⟩

theorem mem_heads_ins {i j id : ℕ} {sub F : Forest} {x : ℕ × ℕ × ℕ} :
    x ∈ (F.ins i j id sub).heads ↔ x = (i, id, j) ∨ x ∈ F.heads := by
  induction F with
  | nil => simp [ins, heads]
  | cons i' j' id' sub' rest _ ih =>
    simp only [ins]
    split
    · simp [heads]
    · simp only [heads, List.mem_cons, ih]; tauto

theorem pairwise_ins {i j id : ℕ} {sub F : Forest} (hs : F.heads.Pairwise fun x y => x.1 < y.1)
    (hi : ∀ x ∈ F.heads, x.1 ≠ i) :
    (F.ins i j id sub).heads.Pairwise fun x y => x.1 < y.1 := by
  induction F with
  | nil => simp [ins, heads]
  | cons i' j' id' sub' rest _ ih =>
    simp only [heads, List.pairwise_cons] at hs
    simp only [ins]
    split
    · rename_i hlt
      simp only [heads, List.pairwise_cons]
      refine ⟨?_, hs⟩
      intro x hx
      simp only [List.mem_cons] at hx
      rcases hx with rfl | hx
      · exact hlt
      · exact hlt.trans (hs.1 x hx)
    · rename_i hlt
      simp only [heads, List.pairwise_cons]
      refine ⟨?_, ih hs.2 (fun x hx => hi x (by simp [heads, hx]))⟩
      intro x hx
      rw [mem_heads_ins] at hx
      rcases hx with rfl | hx
      · have := hi (i', id', j') (by simp [heads])
        simp only at this ⊢; omega
      · exact hs.1 x hx

theorem ids_ins (i j id : ℕ) (sub F : Forest) :
    (F.ins i j id sub).ids.Perm (id :: sub.ids ++ F.ids) := by
  induction F with
  | nil => simp [ins, ids]
  | cons i' j' id' sub' rest _ ih =>
    simp only [ins]
    split
    · simp [ids]
    · simp only [ids]
      refine (ih.append_left _).trans ?_
      rw [← List.append_assoc, ← List.append_assoc]
      exact List.perm_append_comm.append_right _

theorem repIn_ins {h : Heap R} {i j id : ℕ} {sub F : Forest}
    (h1 : h.children id (some j) true = sub.heads) (h2 : sub.RepIn h) (hr : F.RepIn h) :
    (F.ins i j id sub).RepIn h := by
  induction F with
  | nil => exact ⟨h1, h2, trivial⟩
  | cons i' j' id' sub' rest _ ih =>
    simp only [ins]
    split
    · exact ⟨h1, h2, hr⟩
    · exact ⟨hr.1, hr.2.1, ih hr.2.2⟩

theorem leafEnd_ins {h : Heap R} {i j id : ℕ} {sub F : Forest}
    (h1 : h.isLeaf id = true → sub = nil) (h2 : sub.LeafEnd h) (hr : F.LeafEnd h) :
    (F.ins i j id sub).LeafEnd h := by
  induction F with
  | nil => exact ⟨h1, h2, trivial⟩
  | cons i' j' id' sub' rest _ ih =>
    simp only [ins]
    split
    · exact ⟨h1, h2, hr⟩
    · exact ⟨hr.1, hr.2.1, ih hr.2.2⟩

theorem has_ins_self (i j id : ℕ) (sub F : Forest) : (F.ins i j id sub).Has i j id sub := by
  induction F with
  | nil => exact .inl ⟨rfl, rfl, rfl, rfl⟩
  | cons i' j' id' sub' rest _ ih =>
    simp only [ins]
    split
    · exact .inl ⟨rfl, rfl, rfl, rfl⟩
    · exact .inr ih

theorem has_ins {i j id : ℕ} {sub F : Forest} {i' j' id' : ℕ} {sub' : Forest}
    (hf : F.Has i' j' id' sub') : (F.ins i j id sub).Has i' j' id' sub' := by
  induction F with
  | nil => exact hf.elim
  | cons a b c d rest _ ih =>
    simp only [ins]
    split
    · exact .inr hf
    · rcases hf with hf | hf
      · exact .inl hf
      · exact .inr (ih hf)

/-- Tensor `b` occurs in the forest `n + 1` links below the top. -/
def At : Forest → ℕ → ℕ → Prop
  | nil, _, _ => False
  | cons _ _ id sub rest, b, n => (id = b ∧ n = 0) ∨ (∃ m, n = m + 1 ∧ sub.At b m) ∨ rest.At b n

theorem exists_at {b : ℕ} {F : Forest} (h : b ∈ F.ids) : ∃ n, F.At b n := by
  induction F with
  | nil => simp [ids] at h
  | cons i j id sub rest ih1 ih2 =>
    simp only [ids, List.cons_append, List.mem_cons, List.mem_append] at h
    rcases h with rfl | h | h
    · exact ⟨0, .inl ⟨rfl, rfl⟩⟩
    · obtain ⟨n, hn⟩ := ih1 h
      exact ⟨n + 1, .inr (.inl ⟨n, rfl, hn⟩)⟩
    · obtain ⟨n, hn⟩ := ih2 h
      exact ⟨n, .inr (.inr hn)⟩

theorem at_has {b n : ℕ} {F : Forest} (h : F.At b n) :
    ∃ i j id sub, F.Has i j id sub ∧ ((id = b ∧ n = 0) ∨ ∃ m, n = m + 1 ∧ sub.At b m) := by
  induction F with
  | nil => exact h.elim
  | cons i j id sub rest _ ih2 =>
    rcases h with h | h | h
    · exact ⟨i, j, id, sub, .inl ⟨rfl, rfl, rfl, rfl⟩, .inl h⟩
    · exact ⟨i, j, id, sub, .inl ⟨rfl, rfl, rfl, rfl⟩, .inr h⟩
    · obtain ⟨i', j', id', sub', h1, h2⟩ := ih2 h
      exact ⟨i', j', id', sub', .inr h1, h2⟩

theorem at_ins {b n i j id : ℕ} {sub F : Forest} (h : F.At b n) : (F.ins i j id sub).At b n := by
  induction F with
  | nil => exact h.elim
  | cons i' j' id' sub' rest _ ih =>
    simp only [ins]
    split
    · exact .inr (.inr h)
    · rcases h with h | h | h
      · exact .inl h
      · exact .inr (.inl h)
      · exact .inr (.inr (ih h))

theorem At.ne_nil {b n : ℕ} {F : Forest} (h : F.At b n) : F ≠ nil := by
  rintro rfl; exact h

end Forest

/-! ### Moving the start of the walk -/

namespace IsTree

variable {R : Type} {h : Heap R} {a : ℕ} {axis : Option ℕ} {F : Forest}

theorem pairwise (ht : IsTree h a axis F) (hw : h.Wf) : F.heads.Pairwise fun x y => x.1 < y.1 := by
  rw [← ht.heads]; exact Heap.pairwise_children hw _ _ _

theorem not_leaf {i j id : ℕ} {sub : Forest} (ht : IsTree h a none F) (hf : F.Has i j id sub) :
    h.isLeaf a = false := by
  by_contra hl
  have : h.isLeaf a = true := by simpa using hl
  have h1 := ht.heads
  rw [Heap.children_leaf_none this] at h1
  have := hf.mem_heads
  rw [← h1] at this
  simp at this

theorem sub {i j id : ℕ} {sub : Forest} (ht : IsTree h a axis F) (hf : F.Has i j id sub) :
    IsTree h id (some j) sub where
  heads := (hf.repIn ht.rep).1
  rep := (hf.repIn ht.rep).2
  nodup := hf.sublist.nodup (List.nodup_cons.1 ht.nodup).2
  leafEnd := (hf.leafEnd ht.leafEnd).2

theorem acc_of_has {i j id : ℕ} {sub : Forest} (ht : IsTree h a axis F) (hw : h.Wf)
    (hf : F.Has i j id sub) : h.acc a i = some (id, j) := by
  have h1 := hf.mem_heads
  rw [← ht.heads] at h1
  unfold Heap.children at h1
  split at h1
  · simp at h1
  · rw [List.mem_filter, Heap.mem_linkages hw] at h1
    exact h1.1

/-- Forget one branch: the tree seen from `a` when entered through that branch. -/
theorem rem {i j id : ℕ} {sub : Forest} (ht : IsTree h a none F) (hf : F.Has i j id sub)
    (hw : h.Wf) : IsTree h a (some i) (F.rem i) where
  heads := by
    rw [Forest.heads_rem, ← ht.heads]
    unfold Heap.children
    have := ht.not_leaf hf
    simp [this]
  rep := Forest.repIn_rem i ht.rep
  nodup := by
    have h1 := (Forest.ids_rem hf (ht.pairwise hw)).cons a
    have h2 := h1.nodup_iff.1 ht.nodup
    refine h2.sublist ?_
    exact (List.sublist_append_right _ _).cons_cons a
  leafEnd := Forest.leafEnd_rem i ht.leafEnd

/-- Start the walk at the other end of a link. -/
theorem reroot {i j b : ℕ} {sub : Forest} (ht : IsTree h a none F) (hf : F.Has i j b sub)
    (hw : h.Wf) (hm : h.Mutual) (hb : h.isLeaf b = false) :
    IsTree h b none (sub.ins j i a (F.rem i)) where
  heads := by
    have hs := ht.sub hf
    have hb' : ¬ ((none : Option ℕ) = none ∧ h.isLeaf b = true) := by simp [hb]
    have hb'' : ¬ (some j = none ∧ h.isLeaf b = true) := by simp
    have hj : ∀ x ∈ sub.heads, x.1 ≠ j := by
      rintro ⟨k, t, l⟩ hx
      rw [← hs.heads, Heap.mem_children hw hb''] at hx
      intro e; exact hx.2.1 (by simp at e; rw [e])
    refine Heap.sorted_ext (Heap.pairwise_children hw _ _ _)
      (Forest.pairwise_ins (hs.pairwise hw) hj) ?_
    rintro ⟨k, t, l⟩
    rw [Forest.mem_heads_ins, Heap.mem_children hw hb', ← hs.heads, Heap.mem_children hw hb'']
    have hba := hm _ _ _ _ (ht.acc_of_has hw hf)
    by_cases hk : k = j
    · subst hk; rw [hba]; simp; grind
    · have : ¬ j = k := fun e => hk e.symm
      simp [hk, this]
  rep := Forest.repIn_ins (ht.rem hf hw).heads (ht.rem hf hw).rep (ht.sub hf).rep
  nodup := by
    have h1 := (Forest.ids_rem hf (ht.pairwise hw)).cons a
    have h2 := h1.nodup_iff.1 ht.nodup
    have h3 := (Forest.ids_ins j i a (F.rem i) sub).cons b
    rw [h3.nodup_iff]
    refine (List.Perm.nodup_iff ?_).1 h2
    have : (a :: (b :: sub.ids ++ (F.rem i).ids)).Perm ((a :: (F.rem i).ids) ++ (b :: sub.ids)) := by
      simp only [List.cons_append, List.perm_cons]
      exact (List.perm_append_comm (l₁ := b :: sub.ids))
    refine this.trans ?_
    exact List.perm_middle
  leafEnd := Forest.leafEnd_ins (fun e => by rw [ht.not_leaf hf] at e; cases e)
    (Forest.leafEnd_rem i ht.leafEnd) (ht.sub hf).leafEnd

theorem reroot_ids {i j b : ℕ} {sub : Forest} (ht : IsTree h a none F) (hf : F.Has i j b sub)
    (hw : h.Wf) : (b :: (sub.ins j i a (F.rem i)).ids).Perm (a :: F.ids) := by
  have h1 := (Forest.ids_rem hf (ht.pairwise hw)).cons a
  have h3 := (Forest.ids_ins j i a (F.rem i) sub).cons b
  refine h3.trans (List.Perm.trans ?_ h1.symm)
  have : (a :: (b :: sub.ids ++ (F.rem i).ids)).Perm ((a :: (F.rem i).ids) ++ (b :: sub.ids)) := by
    simp only [List.cons_append, List.perm_cons]
    exact (List.perm_append_comm (l₁ := b :: sub.ids))
  refine List.Perm.trans ?_ this.symm
  exact List.perm_middle.symm

/-- The walk can start anywhere. -/
theorem reroot_any (ht : IsTree h a none F) (hw : h.Wf) (hm : h.Mutual) {b : ℕ}
    (hb : b ∈ a :: F.ids) (hl : h.isLeaf b = false) :
    ∃ F', IsTree h b none F' ∧ (b :: F'.ids).Perm (a :: F.ids) := by
  rcases List.mem_cons.1 hb with rfl | hb'
  · exact ⟨F, ht, List.Perm.refl _⟩
  obtain ⟨n, hn⟩ := Forest.exists_at hb'
  clear hb hb'
  induction n generalizing a F with
  | zero =>
    obtain ⟨i, j, id, sub, hf, h2⟩ := Forest.at_has hn
    rcases h2 with ⟨rfl, -⟩ | ⟨m, h3, -⟩
    · exact ⟨_, ht.reroot hf hw hm hl, ht.reroot_ids hf hw⟩
    · omega
  | succ n ih =>
    obtain ⟨i, j, id, sub, hf, h2⟩ := Forest.at_has hn
    rcases h2 with ⟨-, h3⟩ | ⟨m, h3, h4⟩
    · omega
    · have hl' : h.isLeaf id = false := by
        by_contra hc
        exact h4.ne_nil ((hf.leafEnd ht.leafEnd).1 (by simpa using hc))
      have e : m = n := by omega
      subst e
      obtain ⟨F', h5, h6⟩ := ih (ht.reroot hf hw hm hl') (Forest.at_ins h4)
      exact ⟨F', h5, h6.trans (ht.reroot_ids hf hw)⟩

end IsTree

/-! ### The walks -/

namespace Heap

variable {R : Type}

theorem visitor_heads (h : Heap R) (leaf : Bool) (F : Forest) (hr : F.RepIn h) (hl : F.LeafEnd h)
    (fuel : ℕ) (hd : F.depth ≤ fuel) :
    ∃ subs, ((F.heads.filter fun x => leaf || !(h.isLeaf x.2.1)).mapM fun x =>
        h.visitor fuel x.2.1 (some x.2.2) leaf) = .ok subs ∧
      subs.flatten = F.ids.filter fun t => leaf || !(h.isLeaf t) := by
  induction F generalizing fuel with
  | nil => exact ⟨[], rfl, rfl⟩
  | cons i j id sub rest ih1 ih2 =>
    obtain ⟨h1, h2, h3⟩ := hr
    obtain ⟨l1, l2, l3⟩ := hl
    simp only [Forest.depth, max_le_iff] at hd
    obtain ⟨s2, e2, f2⟩ := ih2 h3 l3 fuel hd.2
    obtain ⟨f, rfl⟩ : ∃ f, fuel = f + 1 := ⟨fuel - 1, by omega⟩
    obtain ⟨s1, e1, f1⟩ := ih1 h2 l2 f (by omega)
    simp only [Forest.heads, Forest.ids, List.cons_append, List.filter_cons, List.filter_append]
    by_cases hc : (leaf || !(h.isLeaf id)) = true
    · have hch : h.children id (some j) leaf = sub.heads.filter fun x => leaf || !(h.isLeaf x.2.1) := by
        cases leaf with
        | true => simp [h1]
        | false => rw [children_false, h1]; simp
      have hv : h.visitor (f + 1) id (some j) leaf = .ok (id :: s1.flatten) := by
        rw [visitor, hch, e1]
        simp only [hc, if_true]; rfl
      simp only [hc, if_true]
      rw [List.mapM_cons, hv, ok_bind, e2, ok_bind]
      refine ⟨_, rfl, ?_⟩
      simp [f1, f2]
    · have hs := l1 (by cases leaf <;> simp_all)
      simp only [hc, if_false]
      refine ⟨s2, e2, ?_⟩
      subst hs
      simpa [Forest.ids] using f2

/-- The walk over a tree. -/
theorem visitor_tree {h : Heap R} {a : ℕ} {axis : Option ℕ} {F : Forest} (ht : IsTree h a axis F)
    (leaf : Bool) {fuel : ℕ} (hd : F.depth < fuel) :
    h.visitor fuel a axis leaf = .ok
      ((if leaf || !(h.isLeaf a) then [a] else []) ++
        F.ids.filter fun t => leaf || !(h.isLeaf t)) := by
  obtain ⟨f, rfl⟩ : ∃ f, fuel = f + 1 := ⟨fuel - 1, by omega⟩
  obtain ⟨s, e, hs⟩ := visitor_heads h leaf F ht.rep ht.leafEnd f (by omega)
  have hch : h.children a axis leaf = F.heads.filter fun x => leaf || !(h.isLeaf x.2.1) := by
    cases leaf with
    | true => simp [ht.heads]
    | false => rw [children_false, ht.heads]; simp
  rw [visitor, hch, e, ← hs]; rfl

theorem linkageVisitor_heads (h : Heap R) (leaf : Bool) (F : Forest) (hr : F.RepIn h)
    (hl : F.LeafEnd h) (fuel : ℕ) (hd : F.depth ≤ fuel) (a : ℕ) :
    ∃ subs, ((F.heads.filter fun x => leaf || !(h.isLeaf x.2.1)).mapM fun x => do
        let sub ← h.linkageVisitor fuel x.2.1 (some x.2.2) leaf false
        pure ([(a, x.1, x.2.1, x.2.2)] ++ sub ++
          (if false then [(x.2.1, x.2.2, a, x.1)] else []))) = .ok subs ∧
      subs.flatten = (F.edges a).filter fun e => leaf || !(h.isLeaf e.2.2.1) := by
  induction F generalizing fuel a with
  | nil => exact ⟨[], rfl, rfl⟩
  | cons i j id sub rest ih1 ih2 =>
    obtain ⟨h1, h2, h3⟩ := hr
    obtain ⟨l1, l2, l3⟩ := hl
    simp only [Forest.depth, max_le_iff] at hd
    obtain ⟨s2, e2, f2⟩ := ih2 h3 l3 fuel hd.2 a
    obtain ⟨f, rfl⟩ : ∃ f, fuel = f + 1 := ⟨fuel - 1, by omega⟩
    obtain ⟨s1, e1, f1⟩ := ih1 h2 l2 f (by omega) id
    simp only [Forest.heads, Forest.edges, List.cons_append, List.filter_cons, List.filter_append]
    by_cases hc : (leaf || !(h.isLeaf id)) = true
    · have hch : h.children id (some j) leaf = sub.heads.filter fun x => leaf || !(h.isLeaf x.2.1) := by
        cases leaf with
        | true => simp [h1]
        | false => rw [children_false, h1]; simp
      have hv : h.linkageVisitor (f + 1) id (some j) leaf false = .ok s1.flatten := by
        rw [linkageVisitor, hch]
        erw [e1]; rfl
      simp only [hc, if_true]
      rw [List.mapM_cons, hv, ok_bind, pure_eq_ok, ok_bind]
      erw [e2]
      rw [ok_bind]
      refine ⟨_, rfl, ?_⟩
      simp [f1, f2]
    · have hs := l1 (by cases leaf <;> simp_all)
      simp only [hc, if_false]
      refine ⟨s2, e2, ?_⟩
      subst hs
      simpa [Forest.edges] using f2

/-- The walk over the links of a tree. -/
theorem linkageVisitor_tree {h : Heap R} {a : ℕ} {axis : Option ℕ} {F : Forest}
    (ht : IsTree h a axis F) (leaf : Bool) {fuel : ℕ} (hd : F.depth < fuel) :
    h.linkageVisitor fuel a axis leaf false = .ok
      ((F.edges a).filter fun e => leaf || !(h.isLeaf e.2.2.1)) := by
  obtain ⟨f, rfl⟩ : ∃ f, fuel = f + 1 := ⟨fuel - 1, by omega⟩
  obtain ⟨s, e, hs⟩ := linkageVisitor_heads h leaf F ht.rep ht.leafEnd f (by omega) a
  have hch : h.children a axis leaf = F.heads.filter fun x => leaf || !(h.isLeaf x.2.1) := by
    cases leaf with
    | true => simp [ht.heads]
    | false => rw [children_false, ht.heads]; simp
  rw [linkageVisitor, hch, ← hs]
  erw [e]; rfl

end Heap

/-- The walk around a forest, down (`false`) and up (`true`), keeping the links into tensors
that satisfy `p`. -/
def Forest.euler (p : ℕ → Bool) (a : ℕ) : Forest → List (Bool × ℕ × ℕ × ℕ × ℕ)
  | .nil => []
  | .cons i j id sub rest =>
    (if p id then (false, a, i, id, j) :: sub.euler p id ++ [(true, id, j, a, i)] else []) ++
      rest.euler p a

namespace Heap

variable {R : Type}

theorem decorated_heads (h : Heap R) (leaf : Bool) (F : Forest) (hr : F.RepIn h)
    (fuel : ℕ) (hd : F.depth ≤ fuel) (a : ℕ) :
    ∃ subs, ((F.heads.filter fun x => leaf || !(h.isLeaf x.2.1)).mapM fun x => do
        let sub ← h.decoratedLinkageVisitor fuel x.2.1 (some x.2.2) leaf
        pure ([(false, a, x.1, x.2.1, x.2.2)] ++ sub ++ [(true, x.2.1, x.2.2, a, x.1)])) = .ok subs ∧
      subs.flatten = F.euler (fun t => leaf || !(h.isLeaf t)) a := by
  induction F generalizing fuel a with
  | nil => exact ⟨[], rfl, rfl⟩
  | cons i j id sub rest ih1 ih2 =>
    obtain ⟨h1, h2, h3⟩ := hr
    simp only [Forest.depth, max_le_iff] at hd
    obtain ⟨s2, e2, f2⟩ := ih2 h3 fuel hd.2 a
    obtain ⟨f, rfl⟩ : ∃ f, fuel = f + 1 := ⟨fuel - 1, by omega⟩
    obtain ⟨s1, e1, f1⟩ := ih1 h2 f (by omega) id
    simp only [Forest.heads, Forest.euler, List.filter_cons]
    by_cases hc : (leaf || !(h.isLeaf id)) = true
    · have hch : h.children id (some j) leaf = sub.heads.filter fun x => leaf || !(h.isLeaf x.2.1) := by
        cases leaf with
        | true => simp [h1]
        | false => rw [children_false, h1]; simp
      have hv : h.decoratedLinkageVisitor (f + 1) id (some j) leaf = .ok s1.flatten := by
        rw [decoratedLinkageVisitor, hch]
        erw [e1]; rfl
      simp only [hc, if_true]
      rw [List.mapM_cons, hv, ok_bind, pure_eq_ok, ok_bind]
      erw [e2]
      rw [ok_bind]
      refine ⟨_, rfl, ?_⟩
      simp [f1, f2]
    · simp only [hc, if_false]
      exact ⟨s2, e2, by simpa using f2⟩

theorem decorated_tree {h : Heap R} {a : ℕ} {axis : Option ℕ} {F : Forest}
    (ht : IsTree h a axis F) (leaf : Bool) {fuel : ℕ} (hd : F.depth < fuel) :
    h.decoratedLinkageVisitor fuel a axis leaf = .ok
      (F.euler (fun t => leaf || !(h.isLeaf t)) a) := by
  obtain ⟨f, rfl⟩ : ∃ f, fuel = f + 1 := ⟨fuel - 1, by omega⟩
  obtain ⟨s, e, hs⟩ := decorated_heads h leaf F ht.rep f (by omega) a
  have hch : h.children a axis leaf = F.heads.filter fun x => leaf || !(h.isLeaf x.2.1) := by
    cases leaf with
    | true => simp [ht.heads]
    | false => rw [children_false, ht.heads]; simp
  rw [decoratedLinkageVisitor, hch, ← hs]
  erw [e]; rfl

end Heap

/-! ### Reachability -/

namespace Forest

variable {R : Type}

theorem closed_of_rep {h : Heap R} (hw : h.Wf) (hm : h.Mutual) (F : Forest) (p : ℕ)
    (hr : F.RepIn h) (hp : ∀ i id j, (i, id, j) ∈ F.heads → h.acc id j = some (p, i))
    {x k y l : ℕ} (hx : x ∈ F.ids) (hy : h.acc x k = some (y, l)) : y = p ∨ y ∈ F.ids := by
  induction F generalizing p with
  | nil => simp [ids] at hx
  | cons i j id sub rest ih1 ih2 =>
    obtain ⟨h1, h2, h3⟩ := hr
    have hb : ¬ (some j = none ∧ h.isLeaf id = true) := by simp
    simp only [ids, List.cons_append, List.mem_cons, List.mem_append] at hx ⊢
    rcases hx with rfl | hx | hx
    · by_cases hk : k = j
      · subst hk
        have := hp i x k (by simp [heads])
        rw [this] at hy; cases hy; exact .inl rfl
      · have : (k, y, l) ∈ sub.heads := by
          rw [← h1, Heap.mem_children hw hb]
          exact ⟨hy, by simpa using fun e => hk e.symm, .inl rfl⟩
        exact .inr (.inr (.inl (mem_heads_ids this)))
    · have := ih1 id h2 (by
        intro i' id' j' hmem
        rw [← h1, Heap.mem_children hw hb] at hmem
        exact hm _ _ _ _ hmem.1) hx
      rcases this with rfl | this
      · exact .inr (.inl rfl)
      · exact .inr (.inr (.inl this))
    · have := ih2 p h3 (fun i' id' j' hmem => hp i' id' j' (by simp [heads, hmem])) hx
      rcases this with rfl | this
      · exact .inl rfl
      · exact .inr (.inr (.inr this))

theorem linked_of_mem {h : Heap R} (hw : h.Wf) (F : Forest) (p : ℕ) (hr : F.RepIn h)
    (hp : ∀ i id j, (i, id, j) ∈ F.heads → h.acc p i = some (id, j)) {x : ℕ} (hx : x ∈ F.ids) :
    Linked h p x := by
  induction F generalizing p with
  | nil => simp [ids] at hx
  | cons i j id sub rest ih1 ih2 =>
    obtain ⟨h1, h2, h3⟩ := hr
    have hb : ¬ (some j = none ∧ h.isLeaf id = true) := by simp
    have hstep : Linked h p id := Relation.ReflTransGen.single ⟨i, j, hp i id j (by simp [heads])⟩
    simp only [ids, List.cons_append, List.mem_cons, List.mem_append] at hx
    rcases hx with rfl | hx | hx
    · exact hstep
    · refine hstep.trans (ih1 id h2 ?_ hx)
      intro i' id' j' hmem
      rw [← h1, Heap.mem_children hw hb] at hmem
      exact hmem.1
    · exact ih2 p h3 (fun i' id' j' hmem => hp i' id' j' (by simp [heads, hmem])) hx

end Forest

namespace IsTree

variable {R : Type} {h : Heap R} {a : ℕ} {F : Forest}

theorem acc_of_mem_heads (ht : IsTree h a none F) (hw : h.Wf) {i id j : ℕ}
    (hx : (i, id, j) ∈ F.heads) : h.acc a i = some (id, j) := by
  obtain ⟨s, hs⟩ := Forest.exists_has hx
  exact ht.acc_of_has hw hs

theorem mem_iff_linked (ht : IsTree h a none F) (hw : h.Wf) (hm : h.Mutual)
    (hl : h.isLeaf a = false) (x : ℕ) : x ∈ a :: F.ids ↔ Linked h a x := by
  constructor
  · intro hx
    rcases List.mem_cons.1 hx with rfl | hx
    · exact Relation.ReflTransGen.refl
    · exact Forest.linked_of_mem hw F a ht.rep (fun i id j => ht.acc_of_mem_heads hw) hx
  · intro hx
    induction hx with
    | refl => simp
    | @tail y z _ hyz ih =>
      obtain ⟨k, l, hkl⟩ := hyz
      rcases List.mem_cons.1 ih with rfl | ih
      · have hb : ¬ ((none : Option ℕ) = none ∧ h.isLeaf y = true) := by simp [hl]
        have : (k, z, l) ∈ F.heads := by
          rw [← ht.heads, Heap.mem_children hw hb]
          exact ⟨hkl, by simp, .inl rfl⟩
        exact List.mem_cons_of_mem _ (Forest.mem_heads_ids this)
      · rcases Forest.closed_of_rep hw hm F a ht.rep
          (fun i id j hx => hm _ _ _ _ (ht.acc_of_mem_heads hw hx)) ih hkl with rfl | e
        · simp
        · exact List.mem_cons_of_mem _ e

end IsTree

/-- In the order of the walk every tensor of a forest comes after a tensor it is linked from. -/
theorem Forest.parent_before {R : Type} {h : Heap R} (hw : h.Wf) (F : Forest) (p : ℕ)
    (hr : F.RepIn h) (hp : ∀ i id j, (i, id, j) ∈ F.heads → h.acc p i = some (id, j))
    (l₁ l₂ : List ℕ) (x : ℕ) (hx : F.ids = l₁ ++ x :: l₂) :
    ∃ y ∈ p :: l₁, ∃ i j, h.acc y i = some (x, j) := by
  induction F generalizing p l₁ l₂ with
  | nil => simp [ids] at hx
  | cons i j id sub rest ih1 ih2 =>
    obtain ⟨h1, h2, h3⟩ := hr
    have hb : ¬ (some j = none ∧ h.isLeaf id = true) := by simp
    simp only [ids] at hx
    rw [List.append_eq_append_iff] at hx
    have hsub : ∀ i' id' j', (i', id', j') ∈ sub.heads → h.acc id i' = some (id', j') := by
      intro i' id' j' hmem
      rw [← h1, Heap.mem_children hw hb] at hmem
      exact hmem.1
    rcases hx with ⟨m, e1, e2⟩ | ⟨m, e1, e2⟩
    · obtain ⟨y, hy, r⟩ := ih2 p h3
        (fun i' id' j' hmem => hp i' id' j' (by simp [heads, hmem])) m l₂ e2
      refine ⟨y, ?_, r⟩
      simp only [List.mem_cons] at hy ⊢
      rw [e1]
      rcases hy with rfl | hy
      · exact .inl rfl
      · exact .inr (by simp [hy])
    · cases l₁ with
      | nil =>
        cases m with
        | nil =>
          simp at e1
        | cons y m =>
          simp at e1 e2
          obtain ⟨rfl, rfl⟩ := e1
          refine ⟨p, by simp, i, j, ?_⟩
          rw [e2.1]
          exact hp i id j (by simp [heads])
      | cons z l₁ =>
        simp only [List.cons_append, List.cons.injEq] at e1
        obtain ⟨rfl, e1⟩ := e1
        cases m with
        | nil =>
          simp at e1 e2
          obtain ⟨y, hy, r⟩ := ih2 p h3
            (fun i' id' j' hmem => hp i' id' j' (by simp [heads, hmem])) [] l₂ e2.symm
          refine ⟨y, ?_, r⟩
          simp at hy; simp [hy]
        | cons w m =>
          simp only [List.cons_append, List.cons.injEq] at e2
          obtain ⟨rfl, e2⟩ := e2
          obtain ⟨y, hy, r⟩ := ih1 id h2 hsub l₁ m e1
          exact ⟨y, List.mem_cons_of_mem _ hy, r⟩
