import Verif.Lemmas.SplitArrays
import Verif.Lemmas.SplitMutual

/-!
`unite` on tensors whose axes are all linked: it succeeds, and its full effect.
-/

open scoped BigOperators
open Py

namespace Heap

variable {R : Type} [CommRing R]

/-- Tensor `t` is a non-leaf with array `A`, without empty axes, and every axis of `A` is linked. -/
structure Full (h : Heap R) (t : ℕ) (A : Nd R) : Prop where
  leaf : h.isLeaf t = false
  array : h.array t = some A
  wf : A.Wf
  pos : ∀ d ∈ A.shape, 0 < d
  acc : ∀ k, h.acc t k ≠ none ↔ k < A.ndim

/-- The dimension of a half-edge `(tensor, axis)`. -/
def hdim (h : Heap R) (p : ℕ × ℕ) : ℕ :=
  match h.array p.1 with
  | some A => A.shape.getD p.2 1
  | none => 1

theorem Full.hdim_eq {h : Heap R} {t : ℕ} {A : Nd R} (hA : h.Full t A) (k : ℕ) :
    h.hdim (t, k) = A.shape.getD k 1 := by
  unfold hdim; simp only [hA.array]

theorem Full.hdim_pos {h : Heap R} {t : ℕ} {A : Nd R} (hA : h.Full t A) (k : ℕ) :
    0 < h.hdim (t, k) := by
  rw [hA.hdim_eq]
  by_cases hk : k < A.shape.length
  · rw [List.getD_eq_getElem _ _ hk]; exact hA.pos _ (List.getElem_mem hk)
  · rw [List.getD_eq_default _ _ (by omega)]; exact Nat.one_pos

/-- The array of a tensor, labelled by half-edges. -/
theorem Full.lab {h : Heap R} {t : ℕ} {A : Nd R} (hA : h.Full t A) :
    A.Lab ((List.range A.ndim).map fun k => (t, k)) h.hdim
      (fun f => A.get ((List.range A.ndim).map fun k => f (t, k))) := by
  have h1 := Nd.Lab.self hA.wf
  have h2 : A.Lab (List.range A.ndim) (fun k => h.hdim (t, k))
      (fun f => A.get ((List.range A.ndim).map f)) :=
    h1.congr_dim fun k _ => (hA.hdim_eq k).symm
  exact h2.map (fun k => (t, k))

theorem Full.order {h : Heap R} {t : ℕ} {A : Nd R} (hw : h.Wf) (hA : h.Full t A) :
    h.order t = A.ndim := by
  unfold Heap.order
  rw [hA.leaf]
  simp only [Bool.false_eq_true, if_false]
  have h1 : (Dict.keys (h.access t)).Perm (List.range A.ndim) := by
    rw [List.perm_ext_iff_of_nodup (hw t) List.nodup_range]
    intro k
    rw [Dict.mem_keys_iff, List.mem_range, ← hA.acc k, acc_def, Option.isSome_iff_ne_none]
  have := h1.length_eq
  simpa [Dict.keys] using this

/-- The links of a tensor whose linked axes are listed in increasing order by `K`. -/
theorem children_eq {h : Heap R} (hw : h.Wf) {t : ℕ} (hl : h.isLeaf t = false) {K : List ℕ}
    (hK : K.Pairwise (· < ·)) (hm : ∀ k, h.acc t k ≠ none ↔ k ∈ K) :
    h.children t none = K.map fun k => (k, (h.acc t k).getD (0, 0)) := by
  refine sorted_ext (pairwise_children hw t none true) ?_ ?_
  · rw [List.pairwise_map]; exact hK
  · rintro ⟨i, u, j⟩
    rw [mem_children hw (by simp [hl])]
    simp only [List.mem_map, Prod.mk.injEq]
    constructor
    · rintro ⟨h1, -⟩
      refine ⟨i, (hm i).1 (by rw [h1]; simp), rfl, by rw [h1]; simp⟩
    · rintro ⟨k, hk, rfl, e⟩
      have := (hm k).2 hk
      cases hx : h.acc t k with
      | none => exact absurd hx this
      | some x => rw [hx] at e; simp at e; subst e; simp

/-- The half-edges of the united tensor, in the order of its axes. -/
def uniteLabels (s i n t j m : ℕ) : List (ℕ × ℕ) :=
  (List.range i).map (fun k => (s, k)) ++
    ((List.range j).map (fun k => (t, k)) ++ (List.range' (j + 1) (m - j - 1)).map fun k => (t, k)) ++
    (List.range' (i + 1) (n - i - 1)).map fun k => (s, k)

theorem mem_uniteLabels {s i n t j m : ℕ} (hi : i < n) (hj : j < m) {x k : ℕ} :
    (x, k) ∈ uniteLabels s i n t j m ↔ (x = s ∧ k < n ∧ k ≠ i) ∨ (x = t ∧ k < m ∧ k ≠ j) := by
  unfold uniteLabels
  simp only [List.mem_append, List.mem_map, List.mem_range, List.mem_range'_1, Prod.mk.injEq]
  constructor
  · rintro ((⟨a, h1, rfl, rfl⟩ | ⟨a, h1, rfl, rfl⟩ | ⟨a, h1, rfl, rfl⟩) | ⟨a, h1, rfl, rfl⟩) <;> omega
  · rintro (⟨rfl, h1, h2⟩ | ⟨rfl, h1, h2⟩)
    · rcases Nat.lt_or_ge k i with h3 | h3
      · exact .inl (.inl ⟨k, h3, rfl, rfl⟩)
      · exact .inr ⟨k, by omega, rfl, rfl⟩
    · rcases Nat.lt_or_ge k j with h3 | h3
      · exact .inl (.inr (.inl ⟨k, h3, rfl, rfl⟩))
      · exact .inl (.inr (.inr ⟨k, by omega, rfl, rfl⟩))

theorem hole_pairwise (i n : ℕ) : (List.range i ++ List.range' (i + 1) (n - i - 1)).Pairwise (· < ·) := by
  rw [List.pairwise_append]
  refine ⟨List.pairwise_lt_range, List.pairwise_lt_range', ?_⟩
  intro a ha b hb
  simp only [List.mem_range, List.mem_range'_1] at ha hb
  omega

theorem mem_hole {i n k : ℕ} (hi : i < n) :
    k ∈ List.range i ++ List.range' (i + 1) (n - i - 1) ↔ k < n ∧ k ≠ i := by
  simp only [List.mem_append, List.mem_range, List.mem_range'_1]; omega

theorem nodup_uniteLabels {s i n t j m : ℕ} (hst : s ≠ t) : (uniteLabels s i n t j m).Nodup := by
  have inj : ∀ (a : ℕ) (l : List ℕ), l.Nodup → (l.map fun k => (a, k)).Nodup := by
    intro a l hl
    exact nodup_map_of hl (by simp)
  have h1 := (hole_pairwise i n).imp (fun {a b} h => Nat.ne_of_lt h)
  have h2 := (hole_pairwise j m).imp (fun {a b} h => Nat.ne_of_lt h)
  have e : (uniteLabels s i n t j m).Perm
      ((List.range i ++ List.range' (i + 1) (n - i - 1)).map (fun k => (s, k)) ++
       (List.range j ++ List.range' (j + 1) (m - j - 1)).map fun k => (t, k)) := by
    unfold uniteLabels
    rw [List.map_append, List.map_append, List.append_assoc _ (List.map _ _ ++ _) _, List.append_assoc _ (List.map _ _) (_ ++ _)]
    exact (List.Perm.append_left _ List.perm_append_comm)
  rw [e.nodup_iff, List.nodup_append]
  refine ⟨inj s _ h1, inj t _ h2, ?_⟩
  intro a ha b hb hab
  obtain ⟨x, -, rfl⟩ := List.mem_map.1 ha
  obtain ⟨y, -, rfl⟩ := List.mem_map.1 hb
  simp only [Prod.mk.injEq] at hab
  exact hst hab.1

/-- What a successful `unite` did to everything but the links. -/
theorem unite_core {h h' : Heap R} {self axis : ℕ} {root : Option ℕ} {nrm : Bool} {r t2 j : ℕ}
    {a1 a2 arr : Nd R} {name : Option (List Char)}
    (hi : h.LinkInv) (ht : h.acc self axis = some (t2, j)) (hr : ∀ x, root = some x → x < h.next)
    (h1 : h.array self = some a1) (h2 : h.array t2 = some a2)
    (hp : Tensor.partialProduct a1 axis (some a2) j = .ok arr)
    (hn : uniteName (h.node self).name (h.node t2).name = .ok name)
    (e : h.unite self axis root nrm = .ok (h', r)) :
    (∀ c, c ≠ r → (h'.node c).core = (h.node c).core) ∧ h'.array r = some arr ∧
      (h'.node r).axis = none ∧
      (root = none → r = h.next ∧ h'.next = h.next + 1 ∧ (h'.node r).isLeaf = false ∧
        (h'.node r).name = name ∧ (h'.node r).normalized = nrm) ∧
      (∀ x, root = some x → r = x ∧ h'.next = h.next ∧ (h'.node r).isLeaf = (h.node r).isLeaf ∧
        (h'.node r).name = (h.node r).name ∧ (h'.node r).normalized = (h.node r).normalized ∧
        (h'.node r).aux = (h.node r).aux) := by
  obtain ⟨t2', j', a1', a2', arr', name', g1, g2, g3, info, e1, -, e3, e4, -, -, e7, e8, e9, e10, e11,
    rfl⟩ := unite_iff.1 e
  rw [ht] at e1; cases e1
  rw [h1] at e3; cases e3
  rw [h2] at e4; cases e4
  rw [hp] at e7; cases e7
  rw [hn] at e8; cases e8
  obtain ⟨w1, f1, acc1, r1, x1, s1, t1⟩ := place_spec e9 hi.wf hi.fresh hr
  have e10' : unlinkAll [(self, axis, t2, j)] g1 = .ok g2 := by
    simp only [unlinkAll, e10, ok_bind]
  obtain ⟨-, -, u3, u4, u5, -⟩ := unlinkAll_spec w1 e10'
  obtain ⟨q1, -⟩ := uniteLoop_iff.1 e11
  obtain ⟨-, -, v3, v4, v5, -⟩ := unlinkAll_spec u3 q1
  obtain ⟨-, b2, b3, -⟩ := linkAll_basic info g3
  have hc : ∀ c, (((g3.linkAll info).node c).core) = (g1.node c).core := fun c =>
    (b3 c).trans ((v5 c).trans (u5 c))
  obtain ⟨p1, p2, p3, p4, p5⟩ := place_core e9
  obtain ⟨c1, c2, c3, c4, -, c6, c7⟩ := core_eq (hc r)
  refine ⟨fun c hcr => (hc c).trans (by rw [p1 c hcr]), c3.trans p2, c2.trans p3, ?_, ?_⟩
  · intro hx
    obtain ⟨y1, y2, y3⟩ := p4 hx
    obtain ⟨z1, z2⟩ := t1 hx
    refine ⟨z1, by omega, c7.trans y1, c1.trans y2, c6.trans y3⟩
  · intro x hx
    obtain ⟨y1, y2, y3, y4⟩ := p5 x hx
    obtain ⟨z1, z2⟩ := s1 x hx
    exact ⟨z1, by omega, c7.trans y1, c1.trans y2, c6.trans y3, c4.trans y4⟩

/-- `unite` on two tensors with all axes linked, joined by exactly one link. -/
theorem unite_full {h : Heap R} {s t i j : ℕ} {A B : Nd R} {root : Option ℕ} {nrm : Bool}
    {nm : Option (List Char)} (hi : h.LinkInv) (hA : h.Full s A) (hB : h.Full t B)
    (hb : h.acc s i = some (t, j)) (hst : s ≠ t) (ls : ∀ k l, h.acc s k ≠ some (s, l))
    (lt : ∀ k l, h.acc t k ≠ some (t, l)) (l1 : ∀ k l, h.acc s k = some (t, l) → k = i)
    (hax : (h.node s).axis = none ∨ (h.node t).axis = none)
    (hd : h.hdim (s, i) = h.hdim (t, j))
    (hn : uniteName (h.node s).name (h.node t).name = .ok nm) (hr : h.Usable [s, t] root)
    (hrl : ∀ x, root = some x → h.isLeaf x = false) :
    ∃ h' r C, h.unite s i root nrm = .ok (h', r) ∧ h'.LinkInv ∧ h'.Full r C ∧
      C.Lab (uniteLabels s i A.ndim t j B.ndim) h.hdim
        (fun f => ∑ v ∈ Finset.range (h.hdim (s, i)),
          A.get ((List.range A.ndim).map fun k => Nd.upd f (s, i) v (s, k)) *
          B.get ((List.range B.ndim).map fun k => Nd.upd f (t, j) v (t, k))) ∧
      (∀ n p, (uniteLabels s i A.ndim t j B.ndim)[n]? = some p → h'.acc r n = h.acc p.1 p.2) ∧
      (∀ x k, x ≠ s → x ≠ t → x ≠ r →
        (∀ l, h.acc x k ≠ some (s, l) ∧ h.acc x k ≠ some (t, l)) → h'.acc x k = h.acc x k) ∧
      (∀ x ∈ [s, t], x ≠ r → ∀ k, h'.acc x k = none) ∧
      (∀ c, c ≠ r → (h'.node c).core = (h.node c).core) ∧ (h'.node r).axis = none ∧
      (root = none → r = h.next ∧ h'.next = h.next + 1 ∧ (h'.node r).isLeaf = false ∧
        (h'.node r).name = nm ∧ (h'.node r).normalized = nrm) ∧
      (∀ x, root = some x → r = x ∧ h'.next = h.next ∧ (h'.node r).isLeaf = (h.node r).isLeaf ∧
        (h'.node r).name = (h.node r).name ∧ (h'.node r).normalized = (h.node r).normalized ∧
        (h'.node r).aux = (h.node r).aux) := by
  have hin : i < A.ndim := (hA.acc i).1 (by rw [hb]; simp)
  have hbs := hi.sym _ _ _ _ hb
  have hjn : j < B.ndim := (hB.acc j).1 (by rw [hbs]; simp)
  have l2 : ∀ k l, h.acc t k = some (s, l) → k = j := by
    intro k l e
    have e1 := hi.sym _ _ _ _ e
    have := l1 _ _ e1
    subst this
    rw [hb] at e1; cases e1; rfl
  -- the array
  have labA := hA.lab
  have labB := hB.lab
  rw [range_split hin] at labA
  rw [range_split hjn] at labB
  simp only [List.map_append, List.map_cons] at labA labB
  obtain ⟨C, c1, c2⟩ := Nd.Lab.partialProduct (k := (s, i)) (k' := (t, j)) labA labB
    (by simp only [List.mem_append, List.mem_map, Prod.mk.injEq, List.mem_range, List.mem_range'_1]
        rintro (⟨a, h1, -, rfl⟩ | ⟨a, h1, -, rfl⟩) <;> omega)
    (by simp only [List.mem_append, List.mem_map, Prod.mk.injEq, List.mem_range, List.mem_range'_1]
        rintro (⟨a, h1, -, rfl⟩ | ⟨a, h1, -, rfl⟩) <;> omega) hd
  simp only [List.length_map, List.length_range] at c1
  set Lh := uniteLabels s i A.ndim t j B.ndim with hLh
  have c2' : C.Lab Lh h.hdim
        (fun f => ∑ v ∈ Finset.range (h.hdim (s, i)),
          A.get ((List.range A.ndim).map fun k => Nd.upd f (s, i) v (s, k)) *
          B.get ((List.range B.ndim).map fun k => Nd.upd f (t, j) v (t, k))) := by
    refine c2.congr fun f _ => ?_
    refine Finset.sum_congr rfl fun v _ => ?_
    rw [range_split hin, range_split hjn]
    simp
  -- existence
  obtain ⟨⟨h1, r⟩, ep⟩ : ∃ x, h.place root nm C none nrm = x := ⟨_, rfl⟩
  obtain ⟨w1, f1, acc1, r1, x1, s1, t1⟩ := place_spec ep hi.wf hi.fresh (fun x hx => (hr x hx).1)
  have hi1 : h1.LinkInv := ⟨w1, fun a i b j => by rw [acc1, acc1]; exact hi.sym a i b j, f1⟩
  obtain ⟨h2, e2⟩ := unlinkAll_ok (L := [(s, i, t, j)]) w1
    (by
      intro e he; simp only [List.mem_cons, List.not_mem_nil, or_false] at he; subst he
      exact ⟨by rw [acc1]; exact hb, by rw [acc1]; exact hbs⟩)
    (by simp [hst])
  obtain ⟨-, -, u3, u4, u5, u6⟩ := unlinkAll_spec w1 e2
  have acc2 : ∀ c k, h2.acc c k = if (c, k) = (s, i) ∨ (c, k) = (t, j) then none else h.acc c k := by
    intro c k; rw [u6, acc1]; simp [halves]
  -- a general fact about heaps with these links
  have hold : ∀ hm : Heap R, hm.Wf →
      (∀ c k, hm.acc c k = if (c, k) = (s, i) ∨ (c, k) = (t, j) then none else h.acc c k) →
      hm.isLeaf s = false → hm.isLeaf t = false →
      hm.uniteOld s t i = Lh.map fun p => (p.1, p.2, (h.acc p.1 p.2).getD (0, 0)) := by
    intro hm hw ha m1 m2
    have q1 : ∀ k, hm.acc s k ≠ none ↔ k ∈ List.range i ++ List.range' (i + 1) (A.ndim - i - 1) := by
      intro k
      rw [mem_hole hin, ha, ← hA.acc k]
      by_cases hk : k = i
      · subst hk; simp
      · simp [hk, hst]
    have q2 : ∀ k, hm.acc t k ≠ none ↔ k ∈ List.range j ++ List.range' (j + 1) (B.ndim - j - 1) := by
      intro k
      rw [mem_hole hjn, ha, ← hB.acc k]
      by_cases hk : k = j
      · subst hk; simp
      · simp [hk, hst.symm]
    unfold uniteOld
    rw [children_eq hw m1 (hole_pairwise i A.ndim) q1, children_eq hw m2 (hole_pairwise j B.ndim) q2]
    have z1 : ∀ k, k ∈ List.range i ++ List.range' (i + 1) (A.ndim - i - 1) → hm.acc s k = h.acc s k := by
      intro k hk
      have := ((mem_hole hin).1 hk).2
      rw [ha]; simp [this, hst]
    have z2 : ∀ k, k ∈ List.range j ++ List.range' (j + 1) (B.ndim - j - 1) → hm.acc t k = h.acc t k := by
      intro k hk
      have := ((mem_hole hjn).1 hk).2
      rw [ha]; simp [this, hst.symm]
    have y1 : (List.map (fun x => (s, x)) ((List.range i ++ List.range' (i + 1) (A.ndim - i - 1)).map
        fun k => (k, (hm.acc s k).getD (0, 0)))) = (List.range i).map (fun k => (s, k, (h.acc s k).getD (0, 0))) ++
          (List.range' (i + 1) (A.ndim - i - 1)).map (fun k => (s, k, (h.acc s k).getD (0, 0))) := by
      rw [List.map_map, ← List.map_append]
      refine List.map_congr_left fun k hk => ?_
      simp only [Function.comp, z1 k hk]
    have y2 : (List.map (fun x => (t, x)) ((List.range j ++ List.range' (j + 1) (B.ndim - j - 1)).map
        fun k => (k, (hm.acc t k).getD (0, 0)))) = (List.range j).map (fun k => (t, k, (h.acc t k).getD (0, 0))) ++
          (List.range' (j + 1) (B.ndim - j - 1)).map (fun k => (t, k, (h.acc t k).getD (0, 0))) := by
      rw [List.map_map, ← List.map_append]
      refine List.map_congr_left fun k hk => ?_
      simp only [Function.comp, z2 k hk]
    rw [y1, y2, List.take_append_of_le_length (by simp), List.take_of_length_le (by simp),
      List.drop_append_of_le_length (by simp), List.drop_of_length_le (by simp)]
    rw [hLh]; unfold uniteLabels
    simp [Function.comp_def]
  have hl2s : h2.isLeaf s = false := by rw [isLeaf_of_core u5]; exact place_isLeaf ep hA.leaf
  have hl2t : h2.isLeaf t = false := by rw [isLeaf_of_core u5]; exact place_isLeaf ep hB.leaf
  have hold2 := hold h2 u3 acc2 hl2s hl2t
  have hfar : ∀ p ∈ Lh, ∃ x l, h.acc p.1 p.2 = some (x, l) ∧ x ≠ s ∧ x ≠ t := by
    rintro ⟨x, k⟩ hp
    rw [hLh, mem_uniteLabels hin hjn] at hp
    rcases hp with ⟨rfl, q1, q2⟩ | ⟨rfl, q1, q2⟩
    · have := (hA.acc k).2 q1
      cases hx : h.acc x k with
      | none => exact absurd hx this
      | some y =>
        obtain ⟨y, l⟩ := y
        refine ⟨y, l, rfl, ?_, ?_⟩
        · rintro rfl; exact ls _ _ hx
        · rintro rfl; exact q2 (l1 _ _ hx)
    · have := (hB.acc k).2 q1
      cases hx : h.acc x k with
      | none => exact absurd hx this
      | some y =>
        obtain ⟨y, l⟩ := y
        refine ⟨y, l, rfl, ?_, ?_⟩
        · rintro rfl; exact q2 (l2 _ _ hx)
        · rintro rfl; exact lt _ _ hx
  have hmemst : ∀ p ∈ Lh, p.1 = s ∨ p.1 = t := by
    rintro ⟨x, k⟩ hp
    rw [hLh, mem_uniteLabels hin hjn] at hp
    rcases hp with ⟨rfl, -⟩ | ⟨rfl, -⟩
    · exact .inl rfl
    · exact .inr rfl
  have hnd : (halves (h2.uniteOld s t i)).Nodup := by
    rw [hold2, nodup_halves_iff]
    simp only [List.map_map, Function.comp_def]
    refine ⟨by simpa using nodup_uniteLabels hst, ?_, ?_⟩
    · refine nodup_map_of (nodup_uniteLabels hst) ?_
      intro p hp q hq e
      obtain ⟨x, l, e1, -⟩ := hfar p hp
      obtain ⟨y, m, e2, -⟩ := hfar q hq
      rw [e1, e2] at e
      simp only [Option.getD_some, Prod.mk.injEq] at e
      obtain ⟨rfl, rfl⟩ := e
      have w1 := hi.sym _ _ _ _ e1
      have w2 := hi.sym _ _ _ _ e2
      rw [w1] at w2
      simpa using w2
    · intro e he e' he'
      obtain ⟨p, hp, rfl⟩ := List.mem_map.1 he
      obtain ⟨q, hq, rfl⟩ := List.mem_map.1 he'
      obtain ⟨y, m, e2, y1, y2⟩ := hfar q hq
      simp only [e2, Option.getD_some]
      intro e
      simp only [Prod.mk.injEq] at e
      rcases hmemst p hp with w | w
      · exact y1 (e.1.symm.trans w)
      · exact y2 (e.1.symm.trans w)
  obtain ⟨h3, e3⟩ := unlinkAll_ok u3 (L := h2.uniteOld s t i)
    (by
      rw [hold2]
      intro e he
      obtain ⟨p, hp, rfl⟩ := List.mem_map.1 he
      obtain ⟨y, m, e2, y1, y2⟩ := hfar p hp
      have hp' := hp
      rw [hLh] at hp'
      have e2' := hi.sym _ _ _ _ e2
      have np : ¬ ((p.1, p.2) = (s, i) ∨ (p.1, p.2) = (t, j)) := by
        rcases p with ⟨x, k⟩
        rw [mem_uniteLabels hin hjn] at hp'
        simp only [Prod.mk.injEq]
        omega
      constructor
      · simp only [acc2, if_neg np, e2, Option.getD_some]
      · simp only [acc2, e2, Option.getD_some, Prod.mk.injEq, y1, y2, false_and, or_self, if_false, e2'])
    hnd
  have e2' : h1.unlink s i t j = .ok h2 := by
    simp only [unlinkAll, bind_eq_ok] at e2
    obtain ⟨x, q1, q2⟩ := e2
    cases q2; exact q1
  have hun : h.unite s i root nrm = .ok (h3.linkAll (uniteInfo r (h2.uniteOld s t i)), r) := by
    refine unite_iff.2 ⟨t, j, A, B, C, nm, h1, h2, h3, uniteInfo r (h2.uniteOld s t i), hb, ?_, hA.array,
      hB.array, hin, hjn, c1, hn, ep, e2', uniteLoop_iff.2 ⟨e3, rfl⟩, rfl⟩
    rintro ⟨q1, q2⟩
    rcases hax with q | q
    · exact q1 q
    · exact q2 q
  obtain ⟨hm, m1, m2, m3, m4, m5, m6, m7, m8, m9, m10, m11⟩ := unite_links hi hA.leaf hb hB.leaf hr hun
  have holdm := hold hm m1.wf m2 (m3 s (by simp)) (m3 t (by simp))
  obtain ⟨k1, k2, k3, k4, k5⟩ := unite_core hi hb (fun x hx => (hr x hx).1) hA.array hB.array c1 hn hun
  have hacc : ∀ n p, Lh[n]? = some p →
      (h3.linkAll (uniteInfo r (h2.uniteOld s t i))).acc r n = h.acc p.1 p.2 := by
    intro n p hp
    have hmem : (r, n, (h.acc p.1 p.2).getD (0, 0)) ∈ uniteInfo r (hm.uniteOld s t i) := by
      unfold uniteInfo
      rw [holdm]
      refine List.mem_map.2 ⟨((p.1, p.2, (h.acc p.1 p.2).getD (0, 0)), n), ?_, rfl⟩
      rw [List.mem_zipIdx_iff_getElem?, List.getElem?_map, hp]; rfl
    have := (m7 _ hmem).1
    simp only at this
    obtain ⟨y, m, e2, -⟩ := hfar p (List.mem_of_getElem? hp)
    rw [e2] at this ⊢
    simpa using this
  have hr' : r ∈ [s, t] ∨ ∀ k, h.acc r k = none := by
    cases root with
    | none =>
      right; intro k
      rw [acc_def, hi.fresh r (by have := (t1 rfl).1; omega)]; rfl
    | some x =>
      obtain ⟨rfl, -⟩ := s1 x rfl
      exact (hr r rfl).2
  have hinfo : ∀ e ∈ uniteInfo r (h2.uniteOld s t i), ∃ n p x l, Lh[n]? = some p ∧
      h.acc p.1 p.2 = some (x, l) ∧ x ≠ s ∧ x ≠ t ∧ e = (r, n, x, l) := by
    intro e he
    unfold uniteInfo at he
    rw [hold2] at he
    obtain ⟨⟨e, q⟩, hq, rfl⟩ := List.mem_map.1 he
    rw [List.mem_zipIdx_iff_getElem?, List.getElem?_map] at hq
    simp only [Option.map_eq_some_iff] at hq
    obtain ⟨p, hp, rfl⟩ := hq
    obtain ⟨y, m, e2, y1, y2⟩ := hfar p (List.mem_of_getElem? hp)
    exact ⟨q, p, y, m, hp, e2, y1, y2, by simp [e2]⟩
  have hrout : ∀ n, Lh.length ≤ n →
      (h3.linkAll (uniteInfo r (h2.uniteOld s t i))).acc r n = none := by
    intro n hn'
    have hnotnew : (r, n) ∉ halves (uniteInfo r (h2.uniteOld s t i)) := by
      intro hx
      obtain ⟨e, he, hh⟩ := mem_halves.1 hx
      obtain ⟨m, p, x, l, hp, e2, y1, y2, rfl⟩ := hinfo e he
      rcases hh with hh | hh
      · simp only [Prod.mk.injEq, true_and] at hh
        subst hh
        have := (List.getElem?_eq_some_iff.1 hp).1
        omega
      · simp only [Prod.mk.injEq] at hh
        obtain ⟨rfl, rfl⟩ := hh
        rcases hr' with q | q
        · simp only [List.mem_cons, List.not_mem_nil, or_false] at q
          rcases q with q | q
          · exact y1 q
          · exact y2 q
        · have := hi.sym _ _ _ _ e2
          rw [q] at this; cases this
    rw [(linkAll_basic _ h3).2.2.2 r n hnotnew, (unlinkAll_spec u3 e3).2.2.2.2.2]
    split
    · rfl
    · rename_i hno
      rw [acc2]
      split
      · rfl
      · rename_i hne
        rcases hr' with q | q
        · by_contra hx
          apply hno
          have hmem : (r, n) ∈ Lh := by
            rw [hLh, mem_uniteLabels hin hjn]
            simp only [List.mem_cons, List.not_mem_nil, or_false] at q
            simp only [Prod.mk.injEq, not_or, not_and] at hne
            rcases q with rfl | rfl
            · exact .inl ⟨rfl, (hA.acc n).1 hx, hne.1 rfl⟩
            · exact .inr ⟨rfl, (hB.acc n).1 hx, hne.2 rfl⟩
          rw [hold2]
          exact mem_halves.2 ⟨_, List.mem_map.2 ⟨_, hmem, rfl⟩, .inl rfl⟩
        · exact q n
  have hCn : C.ndim = Lh.length := c2'.ndim
  refine ⟨_, r, C, hun, m5, ⟨?_, k2, c2'.wf, ?_, ?_⟩, c2', hacc, ?_, m6, k1, k3, k4, k5⟩
  · cases root with
    | none => exact (m10 rfl).2
    | some x =>
      exact m9 _ (by rw [(s1 x rfl).1]; exact hrl x rfl)
  · intro d hd'
    rw [c2'.shape] at hd'
    obtain ⟨p, hp, rfl⟩ := List.mem_map.1 hd'
    rcases hmemst p hp with w | w
    · have := hA.hdim_pos p.2
      rw [← w] at this; exact this
    · have := hB.hdim_pos p.2
      rw [← w] at this; exact this
  · intro k
    rw [hCn]
    constructor
    · intro hk
      by_contra hc
      exact hk (hrout k (by omega))
    · intro hk
      rw [hacc k _ (List.getElem?_eq_getElem hk)]
      obtain ⟨y, m, e2, -⟩ := hfar Lh[k] (List.getElem_mem hk)
      rw [e2]; simp
  · intro x k x1 x2 x3 hx
    have g1 : (x, k) ∉ halves (hm.uniteOld s t i) := by
      rw [holdm]
      intro hc
      obtain ⟨e, he, hh⟩ := mem_halves.1 hc
      obtain ⟨p, hp, rfl⟩ := List.mem_map.1 he
      obtain ⟨y, m, e2, y1, y2⟩ := hfar p hp
      rcases hh with hh | hh
      · simp only [Prod.mk.injEq] at hh
        rcases hmemst p hp with w | w
        · exact x1 (hh.1.trans w)
        · exact x2 (hh.1.trans w)
      · simp only [e2, Option.getD_some, Prod.mk.injEq] at hh
        obtain ⟨rfl, rfl⟩ := hh
        have := hi.sym _ _ _ _ e2
        rcases hmemst p hp with w | w
        · exact (hx p.2).1 (by rw [this, w])
        · exact (hx p.2).2 (by rw [this, w])
    have g2 : (x, k) ∉ halves (uniteInfo r (hm.uniteOld s t i)) := by
      rw [holdm, ← hold2]
      intro hc
      obtain ⟨e, he, hh⟩ := mem_halves.1 hc
      obtain ⟨m, p, y, l, hp, e2, y1, y2, rfl⟩ := hinfo e he
      rcases hh with hh | hh
      · simp only [Prod.mk.injEq] at hh; exact x3 hh.1
      · simp only [Prod.mk.injEq] at hh
        obtain ⟨rfl, rfl⟩ := hh
        have := hi.sym _ _ _ _ e2
        rcases hmemst p (List.mem_of_getElem? hp) with w | w
        · exact (hx p.2).1 (by rw [this, w])
        · exact (hx p.2).2 (by rw [this, w])
    rw [m8 x k g1 g2, m2, if_neg]
    simp [x1, x2]

end Heap
