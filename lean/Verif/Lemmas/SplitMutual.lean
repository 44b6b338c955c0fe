import Verif.Lemmas.SplitInv

/-!
`split` and `unite` keep all links mutual.
-/

open Py

namespace Heap

variable {R : Type} [CommRing R]

theorem halves_perm (L : List (ℕ × ℕ × ℕ × ℕ)) :
    (halves L).Perm ((L.map fun e => (e.1, e.2.1)) ++ L.map fun e => e.2.2) := by
  induction L with
  | nil => exact List.Perm.refl _
  | cons e L ih =>
    rw [halves_cons, List.map_cons, List.map_cons, List.cons_append, List.perm_cons]
    exact (ih.cons _).trans (List.perm_middle.symm)

theorem nodup_halves_iff (L : List (ℕ × ℕ × ℕ × ℕ)) :
    (halves L).Nodup ↔ (L.map fun e => (e.1, e.2.1)).Nodup ∧ (L.map fun e => e.2.2).Nodup ∧
      ∀ e ∈ L, ∀ e' ∈ L, (e.1, e.2.1) ≠ e'.2.2 := by
  rw [(halves_perm L).nodup_iff, List.nodup_append]
  simp only [List.mem_map, ne_eq]
  constructor
  · rintro ⟨h1, h2, h3⟩
    exact ⟨h1, h2, fun e he e' he' => h3 _ ⟨e, he, rfl⟩ _ ⟨e', he', rfl⟩⟩
  · rintro ⟨h1, h2, h3⟩
    refine ⟨h1, h2, ?_⟩
    rintro _ ⟨e, he, rfl⟩ _ ⟨e', he', rfl⟩
    exact h3 e he e' he'

/-- The link invariant: unique slots, mutual links, nothing linked before it exists. -/
structure LinkInv (h : Heap R) : Prop where
  wf : h.Wf
  sym : h.Mutual
  fresh : h.Fresh

theorem LinkInv.lt {h : Heap R} (hi : h.LinkInv) {a i b j : ℕ} (e : h.acc a i = some (b, j)) :
    a < h.next ∧ b < h.next := by
  have key : ∀ a i b j, h.acc a i = some (b, j) → a < h.next := by
    intro a i b j e
    by_contra hc
    rw [acc_def, hi.fresh a (by omega)] at e
    cases e
  exact ⟨key _ _ _ _ e, key _ _ _ _ (hi.sym _ _ _ _ e)⟩

/-- After removing all links of `a`, `a` has none. -/
theorem unlinkAll_children {h h' : Heap R} (hw : h.Wf) {a : ℕ} (hl : h.isLeaf a = false)
    {L : List (ℕ × ℕ × ℕ × ℕ)} (hL : ∀ x ∈ h.children a none, (a, x) ∈ L)
    (e : unlinkAll L h = .ok h') (k : ℕ) : h'.acc a k = none := by
  obtain ⟨-, -, -, -, -, f6⟩ := unlinkAll_spec hw e
  rw [f6]
  split
  · rfl
  · rename_i hn
    cases hk : h.acc a k with
    | none => rfl
    | some x =>
      obtain ⟨t, j⟩ := x
      have h1 : (k, t, j) ∈ h.children a none :=
        (mem_children hw (by simp [hl])).2 ⟨hk, by simp, .inl rfl⟩
      exact absurd (mem_halves.2 ⟨_, hL _ h1, .inl rfl⟩) hn

theorem children_congr_acc {h h' : Heap R} (hw : h.Wf) (hw' : h'.Wf) {a : ℕ}
    (e : ∀ k, h.acc a k = h'.acc a k) (hl : h.isLeaf a = h'.isLeaf a) :
    h.children a none = h'.children a none := by
  unfold children
  rw [linkages_congr hw hw' e, hl]
  simp

theorem idxOf_inj {α : Type*} [BEq α] [LawfulBEq α] {l : List α} {x y : α} (hx : x ∈ l) (hy : y ∈ l)
    (e : l.idxOf x = l.idxOf y) : x = y := by
  have h1 := List.idxOf_lt_length_iff.2 hx
  have h2 := List.idxOf_lt_length_iff.2 hy
  have e1 : l[l.idxOf x] = x := List.getElem_idxOf h1
  have e2 : l[l.idxOf y] = y := List.getElem_idxOf h2
  rw [← e1, ← e2]
  simp only [e]

theorem idxOf_pyInsert_ne {l : List ℕ} {k i : ℕ} (hk : k ≤ l.length)
    (hi : some i ∈ pyInsert (l.map some) k none) :
    (pyInsert (l.map some) k none).idxOf (some i) ≠ k := by
  intro e
  have h1 := List.idxOf_lt_length_iff.2 hi
  have h2 : (pyInsert (l.map some) k none)[k]? = some none := by
    unfold pyInsert
    rw [List.getElem?_append_right (by simp)]
    simp [hk]
  have h3 : (pyInsert (l.map some) k none)[k]? = some (some i) := by
    have := List.getElem_idxOf h1
    rw [← this, ← List.getElem?_eq_getElem, e]
  rw [h2] at h3
  cases h3

/-- A tensor may be passed to `split` or `unite` as the one to write into if it is one of those
whose links are removed, or has no links. -/
def Usable (h : Heap R) (own : List ℕ) (t : Option ℕ) : Prop :=
  ∀ x, t = some x → x < h.next ∧ (x ∈ own ∨ ∀ k, h.acc x k = none)

theorem splitArrays_lengths {csvd : Svd R} {a : Nd R} {axes1 shape1 shape2 : List ℕ} {i1 i2 : ℕ}
    {ra ca : Nd R} (e : splitArrays csvd a axes1 shape1 shape2 i1 i2 = .ok (ra, ca)) :
    i1 ≤ shape1.length ∧ i2 ≤ shape2.length := by
  unfold splitArrays at e
  simp only [bind_eq_ok] at e
  obtain ⟨_, -, _, -, ⟨u, s, vh⟩, -, us, -, root, h1, root', h2, child, h3, child', h4, -⟩ := e
  unfold Nd.reshapeInfer at h1 h3
  simp only at h1 h3
  unfold Nd.moveaxis at h2 h4
  simp only [Nd.ndim] at h2 h4
  split at h1
  · cases h1
  split at h3
  · cases h3
  cases h1; cases h3
  split at h2
  · rename_i q
    split at h4
    · rename_i q'
      simp at q q'
      omega
    · cases h4
  · cases h2

theorem length_shapeOn {shape axes s : List ℕ} (e : shapeOn shape axes = .ok s) :
    s.length = axes.length := by
  unfold shapeOn at e
  induction axes generalizing s with
  | nil => simp only [List.mapM_nil, pure_eq_ok, Except.ok.injEq] at e; subst e; rfl
  | cons x l ih =>
    rw [List.mapM_cons] at e
    simp only [bind_eq_ok, pure_eq_ok] at e
    obtain ⟨d, -, ds, e2, e3⟩ := e
    cases e3
    simp [ih e2]

theorem nodup_map_of {α β : Type*} {l : List α} {f : α → β} (hl : l.Nodup)
    (hf : ∀ x ∈ l, ∀ y ∈ l, f x = f y → x = y) : (l.map f).Nodup :=
  (List.nodup_map_iff_inj_on hl).2 hf

/-- The new links of `split` have distinct ends. -/
theorem split_nodup {h h3 : Heap R} (hi : h.LinkInv) {self r c i1 i2 : ℕ} {axes1 axes2 : List ℕ}
    (hl : h.isLeaf self = false) (hrc : r ≠ c)
    (hr : r = self ∨ ∀ k, h.acc r k = none) (hc : c = self ∨ ∀ k, h.acc c k = none)
    (h1 : i1 ≤ axes1.length) (h2 : i2 ≤ axes2.length)
    (e : unlinkAll ((h.children self none).map fun x => (self, x)) h = .ok h3)
    (hx : ∀ x ∈ h.children self none, some x.1 ∈ pyInsert (axes1.map some) i1 none ∨
      some x.1 ∈ pyInsert (axes2.map some) i2 none) :
    (halves ((r, i1, c, i2) :: (h.children self none).map (splitLink r c
      (pyInsert (axes1.map some) i1 none) (pyInsert (axes2.map some) i2 none)))).Nodup := by
  set A1 := pyInsert (axes1.map some) i1 none with hA1
  set A2 := pyInsert (axes2.map some) i2 none with hA2
  set ch := h.children self none with hch
  obtain ⟨f1, f2, -, -, -, -⟩ := unlinkAll_spec hi.wf e
  have hmem : ∀ i t j, (i, t, j) ∈ ch ↔ h.acc self i = some (t, j) := by
    intro i t j
    rw [hch, mem_children hi.wf (by simp [hl])]; simp
  have hself : ∀ i t j, (i, t, j) ∈ ch → t ≠ self := by
    rintro i t j hm rfl
    have hb := hi.sym _ _ _ _ ((hmem _ _ _).1 hm)
    have := ((nodup_halves_iff _).1 f2).2.2 (t, j, t, i)
      (List.mem_map.2 ⟨_, (hmem _ _ _).2 hb, rfl⟩) (t, i, t, j) (List.mem_map.2 ⟨_, hm, rfl⟩)
    exact this rfl
  have hother : ∀ x, (x = self ∨ ∀ k, h.acc x k = none) → ∀ i t j, (i, t, j) ∈ ch → t ≠ x := by
    rintro x (rfl | hx) i t j hm
    · exact hself i t j hm
    · rintro rfl
      have hb := hi.sym _ _ _ _ ((hmem _ _ _).1 hm)
      rw [hx] at hb; cases hb
  have hnd : ch.Nodup := (pairwise_children hi.wf self none true).imp
    (fun {x y} hxy e => by subst e; omega)
  have hfst : ∀ x ∈ ch, ∀ y ∈ ch, x.1 = y.1 → x = y := by
    rintro ⟨i, t, j⟩ hx ⟨i', t', j'⟩ hy hxy
    simp only at hxy; subst hxy
    have := (hmem _ _ _).1 hx
    rw [(hmem _ _ _).1 hy] at this
    cases this; rfl
  have hsl : ∀ x ∈ ch, (splitLink r c A1 A2 x).2.2 = x.2 ∧
      ((splitLink r c A1 A2 x).1 = r ∧ (splitLink r c A1 A2 x).2.1 = A1.idxOf (some x.1) ∧
          some x.1 ∈ A1 ∨
        (splitLink r c A1 A2 x).1 = c ∧ (splitLink r c A1 A2 x).2.1 = A2.idxOf (some x.1) ∧
          some x.1 ∈ A2) := by
    intro x hx'
    unfold splitLink
    split
    · rename_i hq; exact ⟨rfl, .inl ⟨rfl, rfl, hq⟩⟩
    · rename_i hq; exact ⟨rfl, .inr ⟨rfl, rfl, (hx x hx').resolve_left hq⟩⟩
  rw [nodup_halves_iff]
  refine ⟨?_, ?_, ?_⟩
  · rw [List.map_cons, List.nodup_cons, List.map_map]
    refine ⟨?_, ?_⟩
    · intro hm
      obtain ⟨x, hx1, hx2⟩ := List.mem_map.1 hm
      obtain ⟨-, ⟨q1, q2, q3⟩ | ⟨q1, q2, q3⟩⟩ := hsl x hx1
      · simp only [Function.comp, q1, q2, Prod.mk.injEq] at hx2
        exact idxOf_pyInsert_ne h1 q3 hx2.2
      · simp only [Function.comp, q1, Prod.mk.injEq] at hx2
        exact hrc hx2.1.symm
    · refine nodup_map_of hnd ?_
      intro x hx1 y hy1 hxy
      simp only [Function.comp, Prod.mk.injEq] at hxy
      obtain ⟨-, ⟨q1, q2, q3⟩ | ⟨q1, q2, q3⟩⟩ := hsl x hx1 <;>
      obtain ⟨-, ⟨p1, p2, p3⟩ | ⟨p1, p2, p3⟩⟩ := hsl y hy1
      · rw [q2, p2] at hxy
        have := idxOf_inj q3 p3 hxy.2
        exact hfst x hx1 y hy1 (by simpa using this)
      · rw [q1, p1] at hxy; exact absurd hxy.1 hrc
      · rw [q1, p1] at hxy; exact absurd hxy.1.symm hrc
      · rw [q2, p2] at hxy
        have := idxOf_inj q3 p3 hxy.2
        exact hfst x hx1 y hy1 (by simpa using this)
  · rw [List.map_cons, List.nodup_cons, List.map_map]
    have e1 : (ch.map ((fun e => e.2.2) ∘ splitLink r c A1 A2)) = ch.map fun x => x.2 := by
      apply List.map_congr_left
      intro x hx1; exact (hsl x hx1).1
    rw [e1]
    refine ⟨?_, ?_⟩
    · intro hm
      obtain ⟨⟨i, t, j⟩, hx1, hx2⟩ := List.mem_map.1 hm
      simp only [Prod.mk.injEq] at hx2
      exact hother c hc i t j hx1 hx2.1
    · have := ((nodup_halves_iff _).1 f2).2.1
      rw [List.map_map] at this
      exact this
  · have near : ∀ e ∈ (r, i1, c, i2) :: ch.map (splitLink r c A1 A2), e.1 = r ∨ e.1 = c := by
      intro e he
      rcases List.mem_cons.1 he with rfl | he
      · exact .inl rfl
      · obtain ⟨x, hx1, rfl⟩ := List.mem_map.1 he
        rcases (hsl x hx1).2 with q | q
        · exact .inl q.1
        · exact .inr q.1
    intro e he e' he' heq
    rcases List.mem_cons.1 he' with rfl | he'
    · rcases List.mem_cons.1 he with rfl | he
      · simp only [Prod.mk.injEq] at heq; exact hrc heq.1
      · obtain ⟨x, hx1, rfl⟩ := List.mem_map.1 he
        obtain ⟨-, ⟨q1, q2, q3⟩ | ⟨q1, q2, q3⟩⟩ := hsl x hx1
        · rw [q1] at heq; simp only [Prod.mk.injEq] at heq; exact hrc heq.1
        · rw [q1, q2] at heq; simp only [Prod.mk.injEq] at heq
          exact idxOf_pyInsert_ne h2 q3 heq.2
    · obtain ⟨⟨i, t, j⟩, hx1, rfl⟩ := List.mem_map.1 he'
      rw [(hsl _ hx1).1] at heq
      simp only [Prod.mk.injEq] at heq
      rcases near e he with q | q
      · exact hother r hr i t j hx1 (heq.1.symm.trans q)
      · exact hother c hc i t j hx1 (heq.1.symm.trans q)

theorem splitLink_cases (r c : ℕ) (A1 A2 : List (Option ℕ)) (x : ℕ × ℕ × ℕ) :
    (splitLink r c A1 A2 x).2.2 = x.2 ∧
      ((splitLink r c A1 A2 x).1 = r ∨ (splitLink r c A1 A2 x).1 = c) := by
  unfold splitLink
  split <;> simp

theorem core_eq {n m : Node R} (h : n.core = m.core) :
    n.name = m.name ∧ n.axis = m.axis ∧ n.array = m.array ∧ n.aux = m.aux ∧ n.penv = m.penv ∧
      n.normalized = m.normalized ∧ n.isLeaf = m.isLeaf := by
  unfold Node.core at h
  simp only [Node.mk.injEq] at h
  tauto

theorem access_eq_nil {h : Heap R} (hw : h.Wf) {x : ℕ} (hx : ∀ k, h.acc x k = none) :
    h.access x = [] := by
  rw [List.eq_nil_iff_forall_not_mem]
  rintro ⟨k, v⟩ hk
  have h4 := (Dict.get?_some_iff_mem (hw x) k v).2 hk
  rw [← acc_def, hx] at h4
  cases h4

theorem linkInv_relink {L L' : List (ℕ × ℕ × ℕ × ℕ)} {h h' : Heap R} (hi : h.LinkInv)
    (e : unlinkAll L h = .ok h') (hn : (halves L').Nodup)
    (hf : ∀ x ∈ halves L', h'.acc x.1 x.2 = none ∧ x.1 < h.next) : (h'.linkAll L').LinkInv := by
  obtain ⟨u1, u2, u3, u4, u5, u6⟩ := unlinkAll_spec hi.wf e
  obtain ⟨b1, b2, b3, b4⟩ := linkAll_basic L' h'
  refine ⟨b1 u3, mutual_linkAll hn (mutual_unlinkAll hi.wf hi.sym e) (fun x hx => (hf x hx).1), ?_⟩
  intro x hx
  rw [b2, u4] at hx
  refine access_eq_nil (b1 u3) fun k => ?_
  rw [b4 x k, u6]
  · split
    · rfl
    · rw [acc_def, hi.fresh x hx]; rfl
  · intro hm
    have := (hf _ hm).2
    simp only at this
    omega

theorem place_isLeaf {h h' : Heap R} {t : Option ℕ} {name : Option (List Char)} {arr : Nd R}
    {axis : Option ℕ} {nrm : Bool} {r : ℕ} (e : h.place t name arr axis nrm = (h', r)) {x : ℕ}
    (hl : h.isLeaf x = false) : h'.isLeaf x = false := by
  unfold isLeaf at hl ⊢
  obtain ⟨p1, -, -, p4, p5⟩ := place_core e
  by_cases hs : x = r
  · subst hs
    cases t with
    | none => exact (p4 rfl).1
    | some y => rw [(p5 y rfl).1]; exact hl
  · rw [p1 _ hs]; exact hl

theorem isLeaf_of_core {h h' : Heap R} (hc : ∀ c, (h'.node c).core = (h.node c).core) (x : ℕ) :
    h'.isLeaf x = h.isLeaf x := (core_eq (hc x)).2.2.2.2.2.2

/-- The new links made by `split`. -/
def splitInfo (h : Heap R) (self r c : ℕ) (axis : AxisArg) (indice : Option (ℕ × ℕ)) :
    List (ℕ × ℕ × ℕ × ℕ) :=
  (r, (indiceOf axis indice).1, c, (indiceOf axis indice).2) ::
    (h.children self none).map (splitLink r c
      (pyInsert ((axes1Of axis).map some) (indiceOf axis indice).1 none)
      (pyInsert ((axes2Of (h.order self) (axes1Of axis)).map some) (indiceOf axis indice).2 none))

/-- The links removed by `split`. -/
def splitOld (h : Heap R) (self : ℕ) : List (ℕ × ℕ × ℕ × ℕ) :=
  (h.children self none).map fun x => (self, x)

theorem split_links {csvd : Svd R} {h h' : Heap R} {self : ℕ} {axis : AxisArg}
    {indice : Option (ℕ × ℕ)} {root child : Option ℕ} {nrm : Bool} {r c : ℕ} (hi : h.LinkInv)
    (hl : h.isLeaf self = false) (hr : h.Usable [self] root) (hc : h.Usable [self] child)
    (hrc : ∀ x, root = some x → child ≠ some x)
    (e : h.split csvd self axis indice root child nrm = .ok (h', r, c)) :
    h'.LinkInv ∧ r ≠ c ∧
      (∀ e ∈ h.splitInfo self r c axis indice, h'.IsLink e) ∧
      (∀ x k, (x, k) ∉ halves (h.splitOld self) → (x, k) ∉ halves (h.splitInfo self r c axis indice) →
        h'.acc x k = h.acc x k) ∧
      (∀ x k, (x, k) ∈ halves (h.splitOld self) → (x, k) ∉ halves (h.splitInfo self r c axis indice) →
        h'.acc x k = none) ∧
      (∀ x, h.isLeaf x = false → h'.isLeaf x = false) ∧
      (root = none → r = h.next ∧ h'.isLeaf r = false) ∧ (∀ x, root = some x → r = x) ∧
      (child = none → h'.isLeaf c = false) ∧ (∀ x, child = some x → c = x) := by
  obtain ⟨a, shape1, shape2, n1, n2, ra, ca, h1, h2, h3, info, -, -, e1, e2, -, e4, e5, e6, e7, rfl⟩ :=
    split_iff.1 e
  obtain ⟨l1, l2⟩ := splitArrays_lengths e4
  rw [length_shapeOn e1] at l1
  rw [length_shapeOn e2] at l2
  obtain ⟨w1, f1, a1, r1, x1, s1, t1⟩ := place_spec e5 hi.wf hi.fresh (fun x hx => (hr x hx).1)
  obtain ⟨w2, f2, a2, r2, x2, s2, t2⟩ := place_spec e6 w1 f1
    (fun x hx => lt_of_lt_of_le (hc x hx).1 x1)
  have acc2 : ∀ c k, h2.acc c k = h.acc c k := fun c k => (a2 c k).trans (a1 c k)
  have hi2 : h2.LinkInv := ⟨w2, fun a i b j => by rw [acc2, acc2]; exact hi.sym a i b j, f2⟩
  have hnew : ∀ x, h.next ≤ x → ∀ k, h.acc x k = none := by
    intro x hx k
    rw [acc_def, hi.fresh x hx]; rfl
  have hr' : r = self ∨ ∀ k, h2.acc r k = none := by
    cases root with
    | none => right; intro k; rw [acc2]; exact hnew r (by have := (t1 rfl).1; omega) k
    | some x =>
      obtain ⟨rfl, -⟩ := s1 x rfl
      rcases (hr r rfl).2 with h | h
      · left; simpa using h
      · right; intro k; rw [acc2]; exact h k
  have hc' : c = self ∨ ∀ k, h2.acc c k = none := by
    cases child with
    | none => right; intro k; rw [acc2]; exact hnew c (by have := (t2 rfl).1; omega) k
    | some x =>
      obtain ⟨rfl, -⟩ := s2 x rfl
      rcases (hc c rfl).2 with h | h
      · left; simpa using h
      · right; intro k; rw [acc2]; exact h k
  have hrc' : r ≠ c := by
    rintro rfl
    cases child with
    | none => have := (t2 rfl).1; omega
    | some x =>
      obtain ⟨rfl, -⟩ := s2 x rfl
      cases root with
      | none => have := (t1 rfl).1; have := (hc r rfl).1; omega
      | some y =>
        obtain ⟨rfl, -⟩ := s1 y rfl
        exact hrc r rfl rfl
  have hl2 : h2.isLeaf self = false := by
    unfold isLeaf at hl ⊢
    obtain ⟨p1, -, -, p4, p5⟩ := place_core e5
    obtain ⟨q1, -, -, q4, q5⟩ := place_core e6
    have hh1 : (h1.node self).isLeaf = false := by
      by_cases hs : self = r
      · subst hs
        cases root with
        | none => exact (p4 rfl).1
        | some x => rw [(p5 x rfl).1]; exact hl
      · rw [p1 _ hs]; exact hl
    by_cases hs : self = c
    · subst hs
      cases child with
      | none => exact (q4 rfl).1
      | some x => rw [(q5 x rfl).1]; exact hh1
    · rw [q1 _ hs]; exact hh1
  have hch : h.children self none = h2.children self none :=
    children_congr_acc hi.wf w2 (fun k => (acc2 self k).symm) (by rw [hl, hl2])
  rw [hch] at e7
  obtain ⟨g1, g2, rfl⟩ := splitLoop_iff.1 e7
  have hnd := split_nodup hi2 hl2 hrc' hr' hc' l1 l2 g1 g2
  obtain ⟨u1, u2, u3, u4, u5, u6⟩ := unlinkAll_spec w2 g1
  have hself : ∀ k, h3.acc self k = none := unlinkAll_children w2 hl2
    (fun x hx => List.mem_map.2 ⟨x, hx, rfl⟩) g1
  have hnone : ∀ x, (x = self ∨ ∀ k, h2.acc x k = none) → ∀ k, h3.acc x k = none := by
    rintro x (rfl | hx) k
    · exact hself k
    · rw [u6]; split
      · rfl
      · exact hx k
  obtain ⟨-, -, k3, k4, k5, k6⟩ := relink w2 g1 hnd
  have ei : h.splitInfo self r c axis indice =
      [(r, (indiceOf axis indice).1, c, (indiceOf axis indice).2)] ++
        (h2.children self none).map (splitLink r c
        (pyInsert ((axes1Of axis).map some) (indiceOf axis indice).1 none)
        (pyInsert ((axes2Of (h.order self) (axes1Of axis)).map some) (indiceOf axis indice).2 none)) := by
    rw [← hch]; rfl
  have eo : h.splitOld self = (h2.children self none).map fun x => (self, x) := by
    rw [← hch]; rfl
  rw [ei, eo]
  refine ⟨?_, hrc', k4, fun x k m1 m2 => (k5 x k m1 m2).trans (acc2 x k), k6, ?_, ?_, ?_, ?_, ?_⟩
  rotate_left
  · intro x hx
    exact (isLeaf_of_core k3 x).trans (place_isLeaf e6 (place_isLeaf e5 hx))
  · intro hx
    refine ⟨(t1 hx).1, ?_⟩
    exact (isLeaf_of_core k3 r).trans (place_isLeaf e6 ((place_core e5).2.2.2.1 hx).1)
  · intro x hx; exact (s1 x hx).1
  · intro hx
    exact (isLeaf_of_core k3 c).trans ((place_core e6).2.2.2.1 hx).1
  · intro x hx; exact (s2 x hx).1
  refine linkInv_relink hi2 g1 hnd ?_
  intro x hx
  obtain ⟨e, he, hh⟩ := mem_halves.1 hx
  rcases List.mem_cons.1 he with rfl | he
  · rcases hh with rfl | rfl
    · exact ⟨hnone r hr' _, lt_of_lt_of_le r1 x2⟩
    · exact ⟨hnone c hc' _, r2⟩
  · obtain ⟨y, hy, rfl⟩ := List.mem_map.1 he
    obtain ⟨q1, q2⟩ := splitLink_cases r c
      (pyInsert ((axes1Of axis).map some) (indiceOf axis indice).1 none)
      (pyInsert ((axes2Of (h.order self) (axes1Of axis)).map some) (indiceOf axis indice).2 none) y
    rcases hh with rfl | rfl
    · simp only
      rcases q2 with q | q <;> rw [q]
      · exact ⟨hnone r hr' _, lt_of_lt_of_le r1 x2⟩
      · exact ⟨hnone c hc' _, r2⟩
    · simp only [q1]
      refine ⟨?_, ?_⟩
      · rw [u6, if_pos]
        exact mem_halves.2 ⟨_, List.mem_map.2 ⟨y, hy, rfl⟩, .inr rfl⟩
      · have := (mem_children w2 (by simp [hl2])).1 hy
        exact (hi2.lt this.1).2

theorem mem_uniteList {l1 l2 : List (ℕ × ℕ × ℕ × ℕ)} {k : ℕ} {e : ℕ × ℕ × ℕ × ℕ} :
    e ∈ l1.take k ++ l2 ++ l1.drop k ↔ e ∈ l1 ∨ e ∈ l2 := by
  have : e ∈ l1 ↔ e ∈ l1.take k ∨ e ∈ l1.drop k := by
    rw [← List.mem_append, List.take_append_drop]
  simp only [List.mem_append, this]
  tauto

/-- The links removed by `unite` (apart from the bond), in order. -/
def uniteOld (h : Heap R) (self t2 axis : ℕ) : List (ℕ × ℕ × ℕ × ℕ) :=
  ((h.children self none).map fun x => (self, x)).take axis ++
    ((h.children t2 none).map fun x => (t2, x)) ++
    ((h.children self none).map fun x => (self, x)).drop axis

/-- The links made by `unite`. -/
def uniteInfo (r : ℕ) (L : List (ℕ × ℕ × ℕ × ℕ)) : List (ℕ × ℕ × ℕ × ℕ) :=
  L.zipIdx.map fun p => (r, p.2, p.1.2.2)

theorem unite_links {h h' : Heap R} {self axis : ℕ} {root : Option ℕ} {nrm : Bool} {r t2 j : ℕ}
    (hi : h.LinkInv) (hl : h.isLeaf self = false) (ht : h.acc self axis = some (t2, j))
    (hl2 : h.isLeaf t2 = false) (hr : h.Usable [self, t2] root)
    (e : h.unite self axis root nrm = .ok (h', r)) :
    ∃ hm : Heap R, hm.LinkInv ∧
      (∀ c k, hm.acc c k = if (c, k) = (self, axis) ∨ (c, k) = (t2, j) then none else h.acc c k) ∧
      (∀ x ∈ [self, t2], hm.isLeaf x = false) ∧
      (∀ e ∈ hm.uniteOld self t2 axis, hm.IsLink e) ∧
      h'.LinkInv ∧ (∀ x ∈ [self, t2], x ≠ r → ∀ k, h'.acc x k = none) ∧
      (∀ e ∈ uniteInfo r (hm.uniteOld self t2 axis), h'.IsLink e) ∧
      (∀ x k, (x, k) ∉ halves (hm.uniteOld self t2 axis) →
        (x, k) ∉ halves (uniteInfo r (hm.uniteOld self t2 axis)) → h'.acc x k = hm.acc x k) ∧
      (∀ x, h.isLeaf x = false → h'.isLeaf x = false) ∧
      (root = none → r = h.next ∧ h'.isLeaf r = false) ∧ (∀ x, root = some x → r = x) := by
  obtain ⟨t2', j', a1, a2, arr, name, h1, h2, h3, info, e1, -, -, -, -, -, -, -, e9, e10, e11, rfl⟩ :=
    unite_iff.1 e
  rw [ht] at e1; cases e1
  obtain ⟨w1, f1, acc1, r1, x1, s1, t1⟩ := place_spec e9 hi.wf hi.fresh (fun x hx => (hr x hx).1)
  have hi1 : h1.LinkInv := ⟨w1, fun a i b j => by rw [acc1, acc1]; exact hi.sym a i b j, f1⟩
  have e10' : unlinkAll [(self, axis, t2, j)] h1 = .ok h2 := by
    simp only [unlinkAll, e10, ok_bind]
  obtain ⟨u1, u2, u3, u4, u5, u6⟩ := unlinkAll_spec w1 e10'
  have hi2 : h2.LinkInv := linkInv_relink (L' := []) hi1 e10' (by simp) (by simp)
  obtain ⟨g1, rfl⟩ := uniteLoop_iff.1 e11
  set L := ((h2.children self none).map fun x => (self, x)).take axis ++
          ((h2.children t2 none).map fun x => (t2, x)) ++
          ((h2.children self none).map fun x => (self, x)).drop axis with hL
  have hl2' : h2.isLeaf t2 = false := by
    rw [isLeaf_of_core u5]; exact place_isLeaf e9 hl2
  have hl' : h2.isLeaf self = false := by
    rw [isLeaf_of_core u5]; exact place_isLeaf e9 hl
  have hmem : ∀ s i t j, (s, i, t, j) ∈ L ↔ s ∈ [self, t2] ∧ h2.acc s i = some (t, j) := by
    intro s i t j
    have m1 := mem_children hi2.wf (a := self) (axis := none) (leaf := true) (i := i) (t := t) (j := j)
      (by simp [hl'])
    have m2 := mem_children hi2.wf (a := t2) (axis := none) (leaf := true) (i := i) (t := t) (j := j)
      (by simp [hl2'])
    rw [hL, mem_uniteList]
    simp only [List.mem_map, Prod.mk.injEq, List.mem_cons, List.not_mem_nil, or_false]
    constructor
    · rintro (⟨x, hx, rfl, rfl⟩ | ⟨x, hx, rfl, rfl⟩)
      · exact ⟨.inl rfl, (m1.1 hx).1⟩
      · exact ⟨.inr rfl, (m2.1 hx).1⟩
    · rintro ⟨rfl | rfl, hx⟩
      · exact .inl ⟨_, m1.2 ⟨hx, by simp, .inl rfl⟩, rfl, rfl⟩
      · exact .inr ⟨_, m2.2 ⟨hx, by simp, .inl rfl⟩, rfl, rfl⟩
  obtain ⟨v1, v2, v3, v4, v5, v6⟩ := unlinkAll_spec hi2.wf g1
  have hnone : ∀ x ∈ [self, t2], ∀ k, h3.acc x k = none := by
    intro x hx k
    rw [v6]
    split
    · rfl
    · rename_i hn
      cases hk : h2.acc x k with
      | none => rfl
      | some y => exact absurd (mem_halves.2 ⟨_, (hmem x k y.1 y.2).2 ⟨hx, hk⟩, .inl rfl⟩) hn
  have hacc2 : ∀ x k, h.acc x k = none → h2.acc x k = none := by
    intro x k hx; rw [u6, acc1]; split
    · rfl
    · exact hx
  have hfar : ∀ s i t j, (s, i, t, j) ∈ L → t ∉ [self, t2] := by
    intro s i t j hm hc
    have hb := hi2.sym _ _ _ _ ((hmem _ _ _ _).1 hm).2
    exact ((nodup_halves_iff _).1 v2).2.2 _ ((hmem t j s i).2 ⟨hc, hb⟩) _ hm rfl
  have hr' : r ∈ [self, t2] ∨ ∀ k, h2.acc r k = none := by
    cases root with
    | none =>
      right; intro k
      refine hacc2 _ _ ?_
      rw [acc_def, hi.fresh r (by have := (t1 rfl).1; omega)]; rfl
    | some x =>
      obtain ⟨rfl, -⟩ := s1 x rfl
      rcases (hr r rfl).2 with q | q
      · exact .inl q
      · exact .inr fun k => hacc2 _ _ (q k)
  have hfar' : ∀ s i t j, (s, i, t, j) ∈ L → t ≠ r := by
    rintro s i t j hm rfl
    rcases hr' with q | q
    · exact hfar _ _ _ _ hm q
    · have hb := hi2.sym _ _ _ _ ((hmem _ _ _ _).1 hm).2
      rw [q] at hb; cases hb
  have hr3 : ∀ k, h3.acc r k = none := by
    intro k
    rcases hr' with q | q
    · exact hnone r q k
    · rw [v6]; split
      · rfl
      · exact q k
  have hfst : ∀ (L : List (ℕ × ℕ × ℕ × ℕ)) (n : ℕ),
      (((L.zipIdx n).map fun p => (r, p.2, p.1.2.2)).map fun e : ℕ × ℕ × ℕ × ℕ => e.2.2) =
      L.map fun e => e.2.2 := by
    intro L
    induction L with
    | nil => intro n; rfl
    | cons x L ih => intro n; simp only [List.zipIdx_cons, List.map_cons, ih]
  have hnd : (halves ([] ++ (L.zipIdx ([] : List (ℕ × ℕ × ℕ × ℕ)).length).map
      fun p => (r, p.2, p.1.2.2))).Nodup := by
    rw [List.nil_append, nodup_halves_iff]
    refine ⟨?_, ?_, ?_⟩
    · rw [List.map_map]
      have : ((fun e : ℕ × ℕ × ℕ × ℕ => (e.1, e.2.1)) ∘
          fun p : (ℕ × ℕ × ℕ × ℕ) × ℕ => (r, p.2, p.1.2.2)) = (fun n => (r, n)) ∘ Prod.snd := rfl
      rw [this, ← List.map_map]
      refine nodup_map_of ?_ ?_
      · rw [List.zipIdx_map_snd]; exact List.nodup_range'
      · intro x _ y _ h; simpa using h
    · rw [hfst]
      exact ((nodup_halves_iff _).1 v2).2.1
    · intro e he e' he' heq
      obtain ⟨p, hp, rfl⟩ := List.mem_map.1 he
      obtain ⟨⟨⟨s, i, t, j⟩, n⟩, hq, rfl⟩ := List.mem_map.1 he'
      simp only [Prod.mk.injEq] at heq
      exact hfar' s i t j (List.fst_mem_of_mem_zipIdx hq) heq.1.symm
  have hfree : ∀ x ∈ halves ([] ++ (L.zipIdx ([] : List (ℕ × ℕ × ℕ × ℕ)).length).map
      fun p => (r, p.2, p.1.2.2)), h3.acc x.1 x.2 = none ∧ x.1 < h2.next := by
    intro x hx
    obtain ⟨e, he, hh⟩ := mem_halves.1 hx
    rw [List.nil_append] at he
    obtain ⟨⟨⟨s, i, t, j⟩, n⟩, hq, rfl⟩ := List.mem_map.1 he
    have hm := List.fst_mem_of_mem_zipIdx hq
    rcases hh with rfl | rfl
    · exact ⟨hr3 _, by rw [u4]; exact r1⟩
    · refine ⟨?_, (hi2.lt ((hmem _ _ _ _).1 hm).2).2⟩
      simp only
      rw [v6, if_pos (mem_halves.2 ⟨_, hm, .inr rfl⟩)]
  obtain ⟨-, -, k3, k4, k5, k6⟩ := relink hi2.wf g1 hnd
  refine ⟨h2, hi2, ?_, by simp [hl', hl2'], v1, linkInv_relink hi2 g1 hnd hfree, ?_, k4, k5, ?_, ?_, ?_⟩
  · intro c k; rw [u6, acc1]; simp [halves]
  rotate_left
  · intro x hx
    rw [isLeaf_of_core k3, isLeaf_of_core u5]
    exact place_isLeaf e9 hx
  · intro hx
    refine ⟨(t1 hx).1, ?_⟩
    rw [isLeaf_of_core k3, isLeaf_of_core u5]
    exact ((place_core e9).2.2.2.1 hx).1
  · intro x hx; exact (s1 x hx).1
  intro x hx hxr k
  rw [(linkAll_basic _ h3).2.2.2 x k, hnone x hx]
  intro hm
  obtain ⟨e, he, hh⟩ := mem_halves.1 hm
  rw [List.nil_append] at he
  obtain ⟨⟨⟨s, i, t, j⟩, n⟩, hq, rfl⟩ := List.mem_map.1 he
  rcases hh with hh | hh
  · simp only [Prod.mk.injEq] at hh; exact hxr hh.1
  · simp only [Prod.mk.injEq] at hh
    rw [hh.1] at hx
    exact hfar _ _ _ _ (List.fst_mem_of_mem_zipIdx hq) hx

end Heap
