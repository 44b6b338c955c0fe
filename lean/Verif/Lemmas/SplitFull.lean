import Verif.Lemmas.UniteFull

/-!
`split` on a tensor whose axes are all linked: it succeeds, and its full effect.
-/

open scoped BigOperators
open Py

namespace Heap

variable {R : Type} [CommRing R]

/-- What a successful `split` did to everything but the links. -/
theorem split_core {csvd : Svd R} {h h' : Heap R} {self : ℕ} {axis : AxisArg}
    {indice : Option (ℕ × ℕ)} {root child : Option ℕ} {nrm : Bool} {r c : ℕ} {a ra ca : Nd R}
    {shape1 shape2 : List ℕ} {n1 n2 : List Char} (hi : h.LinkInv) (hl : h.isLeaf self = false)
    (hr : ∀ x, root = some x → x < h.next) (hc : ∀ x, child = some x → x < h.next) (hrc : r ≠ c)
    (ha : h.array self = some a) (e1 : shapeOn a.shape (axes1Of axis) = .ok shape1)
    (e2 : shapeOn a.shape (axes2Of (h.order self) (axes1Of axis)) = .ok shape2)
    (e3 : splitNames (h.node self).name = .ok (n1, n2))
    (e4 : splitArrays csvd a (axes1Of axis) shape1 shape2 (indiceOf axis indice).1
          (indiceOf axis indice).2 = .ok (ra, ca))
    (e : h.split csvd self axis indice root child nrm = .ok (h', r, c)) :
    (∀ x, x ≠ r → x ≠ c → (h'.node x).core = (h.node x).core) ∧
      h'.array r = some ra ∧ h'.array c = some ca ∧ (h'.node r).axis = none ∧
      (h'.node c).axis = some (indiceOf axis indice).2 ∧ h.next ≤ h'.next ∧
      (root = none → r = h.next ∧ (h'.node r).isLeaf = false ∧
        (h'.node r).name = some n1 ∧ (h'.node r).normalized = nrm) ∧
      (∀ x, root = some x → r = x ∧ (h'.node r).isLeaf = (h.node r).isLeaf ∧
        (h'.node r).name = (h.node r).name ∧ (h'.node r).normalized = (h.node r).normalized ∧
        (h'.node r).aux = (h.node r).aux) ∧
      (child = none → h.next ≤ c ∧ (h'.node c).isLeaf = false ∧
        (h'.node c).name = some n2 ∧ (h'.node c).normalized = nrm) ∧
      (∀ x, child = some x → c = x ∧ (h'.node c).isLeaf = (h.node c).isLeaf ∧
        (h'.node c).name = (h.node c).name ∧ (h'.node c).normalized = (h.node c).normalized ∧
        (h'.node c).aux = (h.node c).aux) := by
  obtain ⟨a', shape1', shape2', n1', n2', ra', ca', g1, g2, g3, info, -, f1, f2, f3, f4, f5, f6, f7, f8,
    rfl⟩ := split_iff.1 e
  rw [ha] at f1; cases f1
  rw [e1] at f2; cases f2
  rw [e2] at f3; cases f3
  rw [e3] at f4; cases f4
  rw [e4] at f5; cases f5
  obtain ⟨w1, y1, a1, r1, x1, s1, t1⟩ := place_spec f6 hi.wf hi.fresh hr
  obtain ⟨w2, y2, a2, r2, x2, s2, t2⟩ := place_spec f7 w1 y1
    (fun x hx => lt_of_lt_of_le (hc x hx) x1)
  obtain ⟨q1, -, -⟩ := splitLoop_iff.1 f8
  obtain ⟨-, -, v3, v4, v5, -⟩ := unlinkAll_spec w2 q1
  obtain ⟨-, b2, b3, -⟩ := linkAll_basic info g3
  have hcore : ∀ c, (((g3.linkAll info).node c).core) = (g2.node c).core := fun c =>
    (b3 c).trans (v5 c)
  obtain ⟨p1, p2, p3, p4, p5⟩ := place_core f6
  obtain ⟨z1, z2, z3, z4, z5⟩ := place_core f7
  obtain ⟨c1, c2, c3, c4, -, c6, c7⟩ := core_eq (hcore r)
  obtain ⟨d1, d2, d3, d4, -, d6, d7⟩ := core_eq (hcore c)
  have hrn : g2.node r = g1.node r := z1 r hrc
  refine ⟨fun x h1 h2 => (hcore x).trans (by rw [z1 x h2, p1 x h1]), ?_, d3.trans z2, ?_, d2.trans z3,
    by omega, ?_, ?_, ?_, ?_⟩
  · refine c3.trans ?_
    rw [hrn]; exact p2
  · rw [c2, hrn]; exact p3
  · intro hx
    obtain ⟨l1, l2, l3⟩ := p4 hx
    rw [c7, c1, c6, hrn]
    exact ⟨(t1 hx).1, l1, l2, l3⟩
  · intro x hx
    obtain ⟨l1, l2, l3, l4⟩ := p5 x hx
    rw [c7, c1, c6, c4, hrn]
    exact ⟨(s1 x hx).1, l1, l2, l3, l4⟩
  · intro hx
    obtain ⟨l1, l2, l3⟩ := z4 hx
    rw [d7, d1, d6]
    refine ⟨?_, l1, l2, l3⟩
    have := (t2 hx).1
    omega
  · intro x hx
    obtain ⟨l1, l2, l3, l4⟩ := z5 x hx
    rw [d7, d1, d6, d4]
    have hgc : g1.node c = h.node c := p1 c hrc.symm
    rw [hgc] at l1 l2 l3 l4
    exact ⟨(s2 x hx).1, l1, l2, l3, l4⟩

theorem getElem?_pyInsert_none {l : List ℕ} {i n : ℕ} (hi : i ≤ l.length) :
    (pyInsert (l.map some) i none)[n]? = some none ↔ n = i := by
  rw [pyInsert_eq_insertIdx _ _ _ (by simpa using hi), List.getElem?_insertIdx]
  split
  · rename_i h; simp; omega
  · split
    · rename_i h; simp [h, hi]
    · rename_i h1 h2; simp; omega

theorem nodup_pyInsert {l : List ℕ} {i : ℕ} (hi : i ≤ l.length) (hl : l.Nodup) :
    (pyInsert (l.map some) i none).Nodup := by
  rw [pyInsert_eq_insertIdx _ _ _ (by simpa using hi)]
  rw [(List.perm_insertIdx _ _ (by simpa using hi)).nodup_iff, List.nodup_cons]
  exact ⟨by simp, nodup_map_of hl (by simp)⟩

theorem mem_pyInsert {l : List ℕ} {i k : ℕ} (hi : i ≤ l.length) :
    some k ∈ pyInsert (l.map some) i none ↔ k ∈ l := by
  rw [pyInsert_eq_insertIdx _ _ _ (by simpa using hi), List.mem_insertIdx (by simpa using hi)]
  simp

theorem length_pyInsert {α : Type} {l : List α} {i : ℕ} {x : α} (hi : i ≤ l.length) :
    (pyInsert l i x).length = l.length + 1 := by
  rw [pyInsert_eq_insertIdx _ _ _ hi, List.length_insertIdx_of_le_length hi]

theorem idxOf_eq_iff {α : Type} [BEq α] [LawfulBEq α] {l : List α} (hl : l.Nodup) {x : α} {n : ℕ} :
    x ∈ l ∧ l.idxOf x = n ↔ l[n]? = some x := by
  constructor
  · rintro ⟨h1, rfl⟩
    have := List.idxOf_lt_length_iff.2 h1
    rw [List.getElem?_eq_getElem this, List.getElem_idxOf]
  · intro h
    obtain ⟨h1, h2⟩ := List.getElem?_eq_some_iff.1 h
    subst h2
    exact ⟨List.getElem_mem h1, hl.idxOf_getElem n h1⟩

/-- `split` on a tensor with all axes linked. -/
theorem split_full {csvd : Svd R} (hsv : SvdShape csvd) {h : Heap R} {self : ℕ} {A : Nd R}
    {axis : AxisArg} {indice : Option (ℕ × ℕ)} {root child : Option ℕ} {nrm : Bool}
    {n1 n2 : List Char} {axes1 axes2 : List ℕ} {i1 i2 : ℕ}
    (hi : h.LinkInv) (hA : h.Full self A) (ls : ∀ k l, h.acc self k ≠ some (self, l))
    (hax : (h.node self).axis = none) (hn : splitNames (h.node self).name = .ok (n1, n2))
    (ea1 : axes1Of axis = axes1) (ea2 : axes2Of A.ndim axes1 = axes2)
    (eidx : indiceOf axis indice = (i1, i2))
    (hs : axes1.Pairwise (· < ·)) (hlt : ∀ x ∈ axes1, x < A.ndim) (h1 : i1 ≤ axes1.length)
    (h2 : i2 ≤ axes2.length) (hr : h.Usable [self] root) (hc : h.Usable [self] child)
    (hrc : ∀ x, root = some x → child ≠ some x) (hrl : ∀ x, root = some x → h.isLeaf x = false)
    (hcl : ∀ x, child = some x → h.isLeaf x = false) :
    ∃ h' r c ra ca d φ ψ, h.split csvd self axis indice root child nrm = .ok (h', r, c) ∧
      h'.LinkInv ∧ r ≠ c ∧ h'.Full r ra ∧ h'.Full c ca ∧ 0 < d ∧
      ra.Lab (pyInsert (axes1.map some) i1 none) (dimO d fun k => A.shape.getD k 1) φ ∧
      ca.Lab (pyInsert (axes2.map some) i2 none) (dimO d fun k => A.shape.getD k 1) ψ ∧
      (SvdExact csvd → ∀ f : Option ℕ → ℕ, (∀ k < A.ndim, f (some k) < A.shape.getD k 1) →
        ∑ z ∈ Finset.range d, φ (Nd.upd f none z) * ψ (Nd.upd f none z) =
          A.get ((List.range A.ndim).map fun k => f (some k))) ∧
      (∀ [StarRing R], SvdIso csvd → ∀ z w, z < d → w < d →
        sumIdx (axes2.map fun k => A.shape.getD k 1) (fun p =>
          ca.get (p.insertIdx i2 z) * star (ca.get (p.insertIdx i2 w))) = if z = w then 1 else 0) ∧
      h'.acc r i1 = some (c, i2) ∧
      (∀ n k, (pyInsert (axes1.map some) i1 none)[n]? = some (some k) → h'.acc r n = h.acc self k) ∧
      (∀ n k, (pyInsert (axes2.map some) i2 none)[n]? = some (some k) → h'.acc c n = h.acc self k) ∧
      (self ≠ r → self ≠ c → ∀ k, h'.acc self k = none) ∧
      (∀ x k, x ≠ self → x ≠ r → x ≠ c → (∀ l, h.acc x k ≠ some (self, l)) →
        h'.acc x k = h.acc x k) ∧
      (∀ x, x ≠ r → x ≠ c → (h'.node x).core = (h.node x).core) ∧
      (h'.node r).axis = none ∧ (h'.node c).axis = some i2 ∧ h.next ≤ h'.next ∧
      (root = none → r = h.next ∧ (h'.node r).isLeaf = false ∧
        (h'.node r).name = some n1 ∧ (h'.node r).normalized = nrm) ∧
      (∀ x, root = some x → r = x ∧ (h'.node r).isLeaf = (h.node r).isLeaf ∧
        (h'.node r).name = (h.node r).name ∧ (h'.node r).normalized = (h.node r).normalized ∧
        (h'.node r).aux = (h.node r).aux) ∧
      (child = none → h.next ≤ c ∧ (h'.node c).isLeaf = false ∧
        (h'.node c).name = some n2 ∧ (h'.node c).normalized = nrm) ∧
      (∀ x, child = some x → c = x ∧ (h'.node c).isLeaf = (h.node c).isLeaf ∧
        (h'.node c).name = (h.node c).name ∧ (h'.node c).normalized = (h.node c).normalized ∧
        (h'.node c).aux = (h.node c).aux) := by
  have hord := hA.order hi.wf
  have mem2 : ∀ k, k ∈ axes2 ↔ k < A.ndim ∧ k ∉ axes1 := by
    intro k; rw [← ea2]; unfold axes2Of; simp
  obtain ⟨ra, ca, d, φ, ψ, a1, a2, a3, a4, a5, a6⟩ := splitArrays_spec (i2 := i2) hsv hA.wf hA.pos hs hlt h1
    (by rw [ea2]; exact h2)
  rw [ea2] at a1 a4 a6
  have sh1 : shapeOn A.shape axes1 = .ok (axes1.map fun k => A.shape.getD k 1) := shapeOn_ok _ hlt
  have sh2 : shapeOn A.shape axes2 = .ok (axes2.map fun k => A.shape.getD k 1) :=
    shapeOn_ok _ fun x hx => ((mem2 x).1 hx).1
  obtain ⟨⟨g1, r⟩, ep⟩ : ∃ x, h.place root (some n1) ra none nrm = x := ⟨_, rfl⟩
  obtain ⟨⟨g2, c⟩, eq⟩ : ∃ x, g1.place child (some n2) ca (some i2) nrm = x := ⟨_, rfl⟩
  obtain ⟨w1, f1, acc1, r1, x1, s1, t1⟩ := place_spec ep hi.wf hi.fresh (fun x hx => (hr x hx).1)
  obtain ⟨w2, f2, acc2', r2, x2, s2, t2⟩ := place_spec eq w1 f1
    (fun x hx => lt_of_lt_of_le (hc x hx).1 x1)
  have acc2 : ∀ c k, g2.acc c k = h.acc c k := fun c k => (acc2' c k).trans (acc1 c k)
  have hls : g2.isLeaf self = false := place_isLeaf eq (place_isLeaf ep hA.leaf)
  have hch : h.children self none = (List.range A.ndim).map fun k => (k, (h.acc self k).getD (0, 0)) :=
    children_eq hi.wf hA.leaf List.pairwise_lt_range (fun k => by rw [hA.acc, List.mem_range])
  have hfar : ∀ k < A.ndim, ∃ x l, h.acc self k = some (x, l) ∧ x ≠ self := by
    intro k hk
    have := (hA.acc k).2 hk
    cases hx : h.acc self k with
    | none => exact absurd hx this
    | some y =>
      obtain ⟨y, l⟩ := y
      exact ⟨y, l, rfl, fun q => ls k l (by rw [hx, q])⟩
  obtain ⟨g3, e3⟩ := unlinkAll_ok (L := (h.children self none).map fun x => (self, x)) w2
    (by
      intro e he
      rw [hch, List.map_map] at he
      obtain ⟨k, hk, rfl⟩ := List.mem_map.1 he
      obtain ⟨x, l, q1, q2⟩ := hfar k (List.mem_range.1 hk)
      simp only [Function.comp, q1, Option.getD_some]
      exact ⟨by rw [acc2]; exact q1, by rw [acc2]; exact hi.sym _ _ _ _ q1⟩)
    (by
      rw [hch, List.map_map, nodup_halves_iff]
      simp only [List.map_map, Function.comp_def]
      refine ⟨nodup_map_of List.nodup_range (by simp), nodup_map_of List.nodup_range ?_, ?_⟩
      · intro k hk k' hk' e
        obtain ⟨x, l, q1, q2⟩ := hfar k (List.mem_range.1 hk)
        obtain ⟨x', l', q1', q2'⟩ := hfar k' (List.mem_range.1 hk')
        rw [q1, q1'] at e
        simp only [Option.getD_some, Prod.mk.injEq] at e
        obtain ⟨rfl, rfl⟩ := e
        have y1 := hi.sym _ _ _ _ q1
        have y2 := hi.sym _ _ _ _ q1'
        rw [y1] at y2
        simpa using y2
      · intro e he e' he'
        obtain ⟨k, hk, rfl⟩ := List.mem_map.1 he
        obtain ⟨k', hk', rfl⟩ := List.mem_map.1 he'
        obtain ⟨x', l', q1', q2'⟩ := hfar k' (List.mem_range.1 hk')
        simp only [q1', Option.getD_some]
        intro e
        simp only [Prod.mk.injEq] at e
        exact q2' e.1.symm)
  set A1 := pyInsert (axes1.map some) i1 none with hA1
  set A2 := pyInsert (axes2.map some) i2 none with hA2
  have hsp : h.split csvd self axis indice root child nrm =
      .ok (g3.linkAll (h.splitInfo self r c axis indice), r, c) := by
    refine split_iff.2 ⟨A, axes1.map fun k => A.shape.getD k 1, axes2.map fun k => A.shape.getD k 1,
      n1, n2, ra, ca, g1, g2, g3, h.splitInfo self r c axis indice, hax, hA.array, ?_, ?_, hn, ?_, ep, ?_,
      ?_, rfl⟩
    · rw [ea1]; exact sh1
    · rw [ea1, hord, ea2]; exact sh2
    · rw [ea1, eidx]; exact a1
    · rw [eidx]; exact eq
    · refine splitLoop_iff.2 ⟨e3, ?_, rfl⟩
      intro x hx
      rw [ea1, eidx, hord, ea2]
      rw [hch] at hx
      obtain ⟨k, hk, rfl⟩ := List.mem_map.1 hx
      simp only
      rw [mem_pyInsert h1, mem_pyInsert h2, mem2]
      have := List.mem_range.1 hk
      tauto
  obtain ⟨m1, m2, m3, m4, m5, m6, m7, m8, m9, m10⟩ := split_links hi hA.leaf hr hc hrc hsp
  obtain ⟨k1, k2, k3, k4, k5, k6, k7, k8, k9, k10⟩ := split_core hi hA.leaf (fun x hx => (hr x hx).1)
    (fun x hx => (hc x hx).1) m2 hA.array (by rw [ea1]; exact sh1) (by rw [ea1, hord, ea2]; exact sh2)
    hn (by rw [ea1, eidx]; exact a1) hsp
  have hnd1 : A1.Nodup := nodup_pyInsert h1 (hs.imp (fun h => Nat.ne_of_lt h))
  have hnd2 : A2.Nodup := nodup_pyInsert h2 (by rw [← ea2]; exact List.nodup_range.filter _)
  have hinf : h.splitInfo self r c axis indice = (r, i1, c, i2) ::
      (List.range A.ndim).map fun k => splitLink r c A1 A2 (k, (h.acc self k).getD (0, 0)) := by
    unfold splitInfo
    rw [ea1, eidx, hord, ea2, hch, List.map_map]; rfl
  have hold : h.splitOld self = (List.range A.ndim).map fun k => (self, k, (h.acc self k).getD (0, 0)) := by
    unfold splitOld
    rw [hch, List.map_map]; rfl
  have hr' : r = self ∨ ∀ k, h.acc r k = none := by
    cases root with
    | none =>
      right; intro k
      rw [acc_def, hi.fresh r (by have := (t1 rfl).1; omega)]; rfl
    | some x =>
      obtain ⟨rfl, -⟩ := s1 x rfl
      rcases (hr r rfl).2 with q | q
      · left; simpa using q
      · right; exact q
  have hc' : c = self ∨ ∀ k, h.acc c k = none := by
    cases child with
    | none =>
      right; intro k
      rw [acc_def, hi.fresh c (by have := (t2 rfl).1; omega)]; rfl
    | some x =>
      obtain ⟨rfl, -⟩ := s2 x rfl
      rcases (hc c rfl).2 with q | q
      · left; simpa using q
      · right; exact q
  have hfar' : ∀ y, (y = self ∨ ∀ k, h.acc y k = none) → ∀ k x l, h.acc self k = some (x, l) → x ≠ y := by
    rintro y (rfl | q) k x l hx rfl
    · exact ls _ _ hx
    · have := hi.sym _ _ _ _ hx
      rw [q] at this; cases this
  -- every new link
  have hinfo : ∀ e ∈ h.splitInfo self r c axis indice, e = (r, i1, c, i2) ∨
      ∃ n k x l, h.acc self k = some (x, l) ∧
        (A1[n]? = some (some k) ∧ e = (r, n, x, l) ∨ A2[n]? = some (some k) ∧ e = (c, n, x, l)) := by
    intro e he
    rw [hinf] at he
    rcases List.mem_cons.1 he with rfl | he
    · exact .inl rfl
    · right
      obtain ⟨k, hk, rfl⟩ := List.mem_map.1 he
      have hk' := List.mem_range.1 hk
      obtain ⟨x, l, q1, q2⟩ := hfar k hk'
      unfold splitLink
      simp only [q1, Option.getD_some]
      by_cases hm : some k ∈ A1
      · rw [if_pos hm]
        exact ⟨_, k, x, l, q1, .inl ⟨(idxOf_eq_iff hnd1).1 ⟨hm, rfl⟩, rfl⟩⟩
      · rw [if_neg hm]
        have hm2 : some k ∈ A2 := by
          rw [hA2, mem_pyInsert h2, mem2]
          rw [hA1, mem_pyInsert h1] at hm
          exact ⟨hk', hm⟩
        exact ⟨_, k, x, l, q1, .inr ⟨(idxOf_eq_iff hnd2).1 ⟨hm2, rfl⟩, rfl⟩⟩
  have hlk : ∀ n k, A1[n]? = some (some k) →
      (g3.linkAll (h.splitInfo self r c axis indice)).acc r n = h.acc self k := by
    intro n k hk
    obtain ⟨hm, hidx⟩ := (idxOf_eq_iff hnd1).2 hk
    have hk1 : k < A.ndim := hlt k ((mem_pyInsert h1).1 hm)
    obtain ⟨x, l, q1, q2⟩ := hfar k hk1
    have := (m3 _ (by
      rw [hinf]
      exact List.mem_cons_of_mem _ (List.mem_map.2 ⟨k, List.mem_range.2 hk1, rfl⟩))).1
    simp only [splitLink, q1, Option.getD_some, if_pos hm, hidx] at this
    rw [q1]; exact this
  have hlk2 : ∀ n k, A2[n]? = some (some k) →
      (g3.linkAll (h.splitInfo self r c axis indice)).acc c n = h.acc self k := by
    intro n k hk
    obtain ⟨hm, hidx⟩ := (idxOf_eq_iff hnd2).2 hk
    obtain ⟨hk1, hk2⟩ := (mem2 k).1 ((mem_pyInsert h2).1 hm)
    obtain ⟨x, l, q1, q2⟩ := hfar k hk1
    have hm' : some k ∉ A1 := by rw [hA1, mem_pyInsert h1]; exact hk2
    have := (m3 _ (by
      rw [hinf]
      exact List.mem_cons_of_mem _ (List.mem_map.2 ⟨k, List.mem_range.2 hk1, rfl⟩))).1
    simp only [splitLink, q1, Option.getD_some, if_neg hm', hidx] at this
    rw [q1]; exact this
  have hbond : (g3.linkAll (h.splitInfo self r c axis indice)).IsLink (r, i1, c, i2) :=
    m3 _ (by rw [hinf]; simp)
  -- slots that are not new are empty at r, c and self
  have hg3 : ∀ x, (x = self ∨ ∀ k, h.acc x k = none) → ∀ k, g3.acc x k = none := by
    intro x hx k
    rw [(unlinkAll_spec w2 e3).2.2.2.2.2]
    split
    · rfl
    · rename_i hno
      rw [acc2]
      rcases hx with rfl | q
      · by_contra hx
        apply hno
        have hk := (hA.acc k).1 hx
        rw [hch, List.map_map]
        exact mem_halves.2 ⟨_, List.mem_map.2 ⟨k, List.mem_range.2 hk, rfl⟩, .inl rfl⟩
      · exact q k
  have hempty : ∀ x k, (x = self ∨ ∀ k, h.acc x k = none) → (x = r → A1.length ≤ k) →
      (x = c → A2.length ≤ k) → (g3.linkAll (h.splitInfo self r c axis indice)).acc x k = none := by
    intro x k hx b1 b2
    rw [(linkAll_basic _ g3).2.2.2 x k, hg3 x hx]
    intro hm
    obtain ⟨e, he, hh⟩ := mem_halves.1 hm
    have len1 : A1.length = axes1.length + 1 := by rw [hA1, length_pyInsert (by simpa using h1)]; simp
    have len2 : A2.length = axes2.length + 1 := by rw [hA2, length_pyInsert (by simpa using h2)]; simp
    rcases hinfo e he with rfl | ⟨n, k', y, l, q1, ⟨q2, rfl⟩ | ⟨q2, rfl⟩⟩
    · rcases hh with hh | hh
      · simp only [Prod.mk.injEq] at hh
        have := b1 hh.1; omega
      · simp only [Prod.mk.injEq] at hh
        have := b2 hh.1; omega
    · rcases hh with hh | hh
      · simp only [Prod.mk.injEq] at hh
        have := b1 hh.1
        have := (List.getElem?_eq_some_iff.1 q2).1
        omega
      · simp only [Prod.mk.injEq] at hh
        exact hfar' x hx _ _ _ q1 hh.1.symm
    · rcases hh with hh | hh
      · simp only [Prod.mk.injEq] at hh
        have := b2 hh.1
        have := (List.getElem?_eq_some_iff.1 q2).1
        omega
      · simp only [Prod.mk.injEq] at hh
        exact hfar' x hx _ _ _ q1 hh.1.symm
  have hdpos : ∀ o, 0 < dimO d (fun k => A.shape.getD k 1) o := by
    intro o
    cases o with
    | none => exact a2
    | some k =>
      have := hA.hdim_pos k
      rw [hA.hdim_eq] at this
      exact this
  have fullr : (g3.linkAll (h.splitInfo self r c axis indice)).Full r ra := by
    refine ⟨?_, k2, a3.wf, ?_, ?_⟩
    · cases root with
      | none => exact (m7 rfl).2
      | some x => exact m6 _ (by rw [m8 x rfl]; exact hrl x rfl)
    · intro dd hdd
      rw [a3.shape] at hdd
      obtain ⟨o, -, rfl⟩ := List.mem_map.1 hdd
      exact hdpos o
    · intro n
      rw [a3.ndim]
      constructor
      · intro hx
        by_contra hcon
        exact hx (hempty r n hr' (fun _ => by omega) (fun q => absurd q m2))
      · intro hlen
        cases ho : A1[n] with
        | none =>
          have := (getElem?_pyInsert_none h1).1 ((List.getElem?_eq_getElem hlen).trans (by rw [ho]))
          subst this
          rw [hbond.1]; simp
        | some k =>
          rw [hlk n k ((List.getElem?_eq_getElem hlen).trans (by rw [ho]))]
          refine (hA.acc k).2 (hlt k ((mem_pyInsert h1).1 ?_))
          rw [← ho]; exact List.getElem_mem hlen
  have fullc : (g3.linkAll (h.splitInfo self r c axis indice)).Full c ca := by
    refine ⟨?_, k3, a4.wf, ?_, ?_⟩
    · cases child with
      | none => exact m9 rfl
      | some x => exact m6 _ (by rw [m10 x rfl]; exact hcl x rfl)
    · intro dd hdd
      rw [a4.shape] at hdd
      obtain ⟨o, -, rfl⟩ := List.mem_map.1 hdd
      exact hdpos o
    · intro n
      rw [a4.ndim]
      constructor
      · intro hx
        by_contra hcon
        exact hx (hempty c n hc' (fun q => absurd q.symm m2) (fun _ => by omega))
      · intro hlen
        cases ho : A2[n] with
        | none =>
          have := (getElem?_pyInsert_none h2).1 ((List.getElem?_eq_getElem hlen).trans (by rw [ho]))
          subst this
          rw [hbond.2]; simp
        | some k =>
          rw [hlk2 n k ((List.getElem?_eq_getElem hlen).trans (by rw [ho]))]
          refine (hA.acc k).2 ((mem2 k).1 ((mem_pyInsert h2).1 ?_)).1
          rw [← ho]; exact List.getElem_mem hlen
  rw [eidx] at k5
  refine ⟨_, r, c, ra, ca, d, φ, ψ, hsp, m1, m2, fullr, fullc, a2, a3, a4, a5, a6, hbond.1, hlk, hlk2, ?_, ?_,
    k1, k4, k5, k6, k7, k8, k9, k10⟩
  · intro y1 y2 k
    exact hempty self k (.inl rfl) (fun q => absurd q y1) (fun q => absurd q y2)
  · intro x k y1 y2 y3 hx
    refine m4 x k ?_ ?_
    · rw [hold]
      intro hm
      obtain ⟨e, he, hh⟩ := mem_halves.1 hm
      obtain ⟨k', hk', rfl⟩ := List.mem_map.1 he
      obtain ⟨z, l, q1, q2⟩ := hfar k' (List.mem_range.1 hk')
      rcases hh with hh | hh
      · simp only [Prod.mk.injEq] at hh; exact y1 hh.1
      · simp only [q1, Option.getD_some, Prod.mk.injEq] at hh
        obtain ⟨rfl, rfl⟩ := hh
        exact hx k' (hi.sym _ _ _ _ q1)
    · intro hm
      obtain ⟨e, he, hh⟩ := mem_halves.1 hm
      rcases hinfo e he with rfl | ⟨n, k', z, l, q1, ⟨q2, rfl⟩ | ⟨q2, rfl⟩⟩
      · rcases hh with hh | hh
        · simp only [Prod.mk.injEq] at hh; exact y2 hh.1
        · simp only [Prod.mk.injEq] at hh; exact y3 hh.1
      · rcases hh with hh | hh
        · simp only [Prod.mk.injEq] at hh; exact y2 hh.1
        · simp only [Prod.mk.injEq] at hh
          obtain ⟨rfl, rfl⟩ := hh
          exact hx k' (hi.sym _ _ _ _ q1)
      · rcases hh with hh | hh
        · simp only [Prod.mk.injEq] at hh; exact y3 hh.1
        · simp only [Prod.mk.injEq] at hh
          obtain ⟨rfl, rfl⟩ := hh
          exact hx k' (hi.sym _ _ _ _ q1)

end Heap
