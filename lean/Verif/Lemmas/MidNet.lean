import Verif.Lemmas.Contraction
import Verif.Lemmas.Moves2
import Verif.Lemmas.Env4

/-!
The networks in the middle of a root move: the tree seen from the middle tensor.
-/

open Py

namespace Forest

variable {R : Type} [CommRing R]

/-- Branches stay branches if their links and the leaves among them do not change. -/
theorem rep_congr {h h' : Heap R} (hw : h.Wf) (hw' : h'.Wf) (P : Forest)
    (ha : ∀ u ∈ P.ids, ∀ k, (∀ y l, h.acc u k = some (y, l) → y ∈ P.ids) → h'.acc u k = h.acc u k)
    (hl : ∀ u ∈ P.ids, h'.isLeaf u = h.isLeaf u) (a : P.RepIn h) (b : P.LeafEnd h) : P.RepIn h' ∧ P.LeafEnd h' := by
  induction P with
  | nil => exact ⟨trivial, trivial⟩
  | cons i j id sub rest ih1 ih2 =>
    obtain ⟨a1, a2, a3⟩ := a
    obtain ⟨b1, b2, b3⟩ := b
    obtain ⟨c1, c2⟩ := ih1 (fun u hu k q => ha u (by simp [ids, hu]) k fun y l e => by simp [ids, q y l e])
      (fun u hu => hl u (by simp [ids, hu])) a2 b2
    obtain ⟨d1, d2⟩ := ih2 (fun u hu k q => ha u (by simp [ids, hu]) k fun y l e => by simp [ids, q y l e])
      (fun u hu => hl u (by simp [ids, hu])) a3 b3
    refine ⟨⟨?_, c1, d1⟩, ?_, c2, d2⟩
    · rw [← a1]
      refine Heap.children_some_congr hw hw' fun k hk => ha id (by simp [ids]) k fun y l e => ?_
      have : (k, y, l) ∈ sub.heads := by
        rw [← a1, Heap.mem_children hw (by simp)]
        exact ⟨e, by simpa [eq_comm] using hk, .inl rfl⟩
      simp [ids, mem_heads_ids this]
    · rw [hl id (by simp [ids])]; exact b1

theorem edges_renum_mem {P : Forest} {n a b : ℕ} {e : ℕ × ℕ × ℕ × ℕ} (he : e ∈ (P.renum n).edges a) :
    ∃ e' ∈ P.edges b, e'.2.2 = e.2.2 ∧ (e' = e ∨ (e.1 = a ∧ e'.1 = b)) := by
  induction P generalizing n with
  | nil => cases he
  | cons i j id sub rest ih1 ih2 =>
    simp only [renum, edges, List.cons_append, List.mem_cons, List.mem_append] at he ⊢
    rcases he with rfl | he | he
    · exact ⟨(b, i, id, j), .inl rfl, rfl, .inr ⟨rfl, rfl⟩⟩
    · exact ⟨e, .inr (.inl he), rfl, .inl rfl⟩
    · obtain ⟨e', q1, q2⟩ := ih2 he
      exact ⟨e', .inr (.inr q1), q2⟩

theorem mem_edges_renum {P : Forest} {n a b : ℕ} {e : ℕ × ℕ × ℕ × ℕ} (he : e ∈ P.edges b) (hb : e.1 ≠ b) :
    e ∈ (P.renum n).edges a := by
  induction P generalizing n with
  | nil => cases he
  | cons i j id sub rest ih1 ih2 =>
    simp only [renum, edges, List.cons_append, List.mem_cons, List.mem_append] at he ⊢
    rcases he with rfl | he | he
    · exact absurd rfl hb
    · exact .inr (.inl he)
    · exact .inr (.inr (ih2 he))

end Forest

namespace Heap

variable {R : Type} [CommRing R]

/-- How the tree `F1` seen from the middle tensor is related to the tree `F` seen from `t` before. -/
structure MidTree (h h1 : Heap R) (t i fin j mid : ℕ) (F F1 : Forest) : Prop where
  ttn : h1.IsTTN mid F1
  edge : ∀ e ∈ F1.edges mid, e.1 = mid ∨ e.1 = t ∨ e.1 = fin ∨ e ∈ F.edges t
  back : ∀ e ∈ F.edges t, e.1 ≠ t → e.1 ≠ fin → e ∈ F1.edges mid
  target : ∀ e ∈ F1.edges mid, e.2.2 = (t, i) ∨ e.2.2 = (fin, j) ∨
    ∃ e' ∈ F.edges t, e'.2.2 = e.2.2 ∧ e.2.2.1 ≠ fin
  parent : ∀ e ∈ F1.edges mid, e.2.2.1 = t ∨ e.2.2.1 = fin → e.1 = mid

theorem IsTTN.head_of_acc {h : Heap R} {r : ℕ} {F : Forest} (ht : h.IsTTN r F) {i t j : ℕ} (hb : h.acc r i = some (t, j)) :
    (i, t, j) ∈ F.heads := by
  rw [← ht.tree.heads, mem_children ht.links.wf (by simp [ht.leaf])]
  exact ⟨hb, by simp, .inl rfl⟩

theorem IsTTN.ids_lt {h : Heap R} {r : ℕ} {F : Forest} (ht : h.IsTTN r F) {u : ℕ} (hu : u ∈ r :: F.ids) : u < h.next := by
  rcases List.mem_cons.1 hu with rfl | q
  · exact ht.lt
  · rw [← edges_targets F r] at q
    obtain ⟨e, he, rfl⟩ := List.mem_map.1 q
    exact (ht.links.lt (ht.isLink_edge he).1).2

theorem MidSplit.tree {csvd : Svd R} {h h1 : Heap R} {r i fin j mid : ℕ} {F : Forest} (ht : h.IsTTN r F)
    (hb : h.acc r i = some (fin, j)) (hl : h.isLeaf fin = false) (m : MidSplit csvd h h1 r i fin j mid) :
    ∃ F1, MidTree h h1 r i fin j mid F F1 := by
  have hwf := ht.links.wf
  have hwf1 := m.links.wf
  obtain ⟨sub, hf⟩ := Forest.exists_has (ht.head_of_acc hb)
  have hids := Forest.ids_rem hf (ht.tree.pairwise hwf)
  have hedg := Forest.edges_rem hf (ht.tree.pairwise hwf) r
  have hnd : (r :: (fin :: sub.ids ++ (F.rem i).ids)).Nodup := (hids.cons r).nodup_iff.1 ht.tree.nodup
  simp only [List.cons_append, List.nodup_cons, List.mem_cons, List.mem_append, not_or, List.nodup_append] at hnd
  obtain ⟨⟨n1, n2, n3⟩, ⟨n4, n5⟩, n6, n7, n8⟩ := hnd
  have hmid : ∀ u ∈ r :: F.ids, u ≠ mid := fun u hu => by
    have := ht.ids_lt hu
    have := m.fresh
    omega
  have hmem : ∀ u, u ∈ F.ids ↔ u = fin ∨ u ∈ sub.ids ∨ u ∈ (F.rem i).ids := fun u => by rw [hids.mem_iff]; simp
  have hmr : r ≠ mid := hmid r (by simp)
  have hmf : fin ≠ mid := hmid fin (by simp [hmem])
  have hleaf : ∀ u ∈ r :: F.ids, h1.isLeaf u = h.isLeaf u := by
    intro u hu
    by_cases q : u = r
    · rw [q]; exact m.self.2.1
    · exact (core_eq (m.other u q (hmid u hu))).2.2.2.2.2.2
  have hrem := ht.tree.rem hf hwf
  have hsub : sub.RepIn h ∧ sub.LeafEnd h ∧ h.children fin (some j) true = sub.heads ∧ (h.isLeaf fin = true → sub = .nil) := by
    clear hids hedg hmem hrem hmr hmf hleaf hmid n1 n2 n3 n4 n5 n6 n7 n8
    have a := ht.tree.rep
    have b := ht.tree.leafEnd
    clear ht
    induction F with
    | nil => exact hf.elim
    | cons i' j' id' sub' rest _ ih =>
      rcases hf with ⟨rfl, rfl, rfl, rfl⟩ | hf
      · exact ⟨a.2.1, b.2.1, a.1, b.1⟩
      · exact ih hf a.2.2 b.2.2
  obtain ⟨s1, s2, s3, -⟩ := hsub
  obtain ⟨x1, x2⟩ := Forest.rep_congr hwf hwf1 (F.rem i) (fun u hu k _ => m.accOther u k (fun q => n3 (q ▸ hu))
    (fun q => n5 (q ▸ hu)) (hmid u (by simp [hmem, hu]))) (fun u hu => hleaf u (by simp [hmem, hu])) hrem.rep hrem.leafEnd
  obtain ⟨y1, y2⟩ := Forest.rep_congr hwf hwf1 sub (fun u hu k _ => m.accOther u k (fun q => n2 (q ▸ hu))
    (fun q => n4 (q ▸ hu)) (hmid u (by simp [hmem, hu]))) (fun u hu => hleaf u (by simp [hmem, hu])) s1 s2
  obtain ⟨M, hM⟩ := m.fullMid
  have tree : IsTree h1 mid none (.cons 0 i r (F.rem i) (.cons 1 j fin sub .nil)) := by
    refine ⟨?_, ⟨?_, x1, ?_, y1, trivial⟩, ?_, ⟨?_, x2, ?_, y2, trivial⟩⟩
    · rw [children_eq hwf1 hM.leaf (K := [0, 1]) (by simp) (fun k => by
        rw [m.accMid]
        by_cases q : k = 0
        · simp [q]
        · by_cases q' : k = 1
          · simp [q']
          · simp [q, q'])]
      simp [m.accMid, Forest.heads]
    · rw [children_some_congr hwf hwf1 (fun k hk => by rw [m.accSelf, if_neg hk])]
      exact hrem.heads
    · rw [children_some_congr hwf hwf1 (fun k hk => by rw [m.accFin, if_neg hk])]
      exact s3
    · simp only [Forest.ids, List.cons_append, List.nil_append, List.append_nil, List.nodup_cons, List.mem_cons,
        List.mem_append, not_or, List.nodup_append]
      refine ⟨⟨hmr.symm, fun q => hmid mid (by simp [hmem, q]) rfl, hmf.symm, fun q => hmid mid (by simp [hmem, q]) rfl⟩,
        ⟨n3, n1, n2⟩, n7, ⟨n4, n6⟩, ?_⟩
      rintro a ha b (rfl | hb)
      · rintro rfl; exact n5 ha
      · rintro rfl; exact n8 _ hb _ ha rfl
    · intro q
      rw [hleaf r (by simp), ht.leaf] at q; cases q
    · intro q
      rw [hleaf fin (by simp [hmem]), hl] at q; cases q
  have hE : (Forest.cons 0 i r (F.rem i) (.cons 1 j fin sub .nil)).edges mid =
      (mid, 0, r, i) :: ((F.rem i).edges r ++ (mid, 1, fin, j) :: sub.edges fin) := by
    simp [Forest.edges]
  have hrT : r ∈ h.tensors r F := mem_tensors.2 ⟨.inl rfl, ht.leaf⟩
  have hfT : fin ∈ h.tensors r F := mem_tensors.2 ⟨.inr (by simp [hmem]), hl⟩
  have hinner : ∀ e, e ∈ (F.rem i).edges r ∨ e ∈ sub.edges fin → e ∈ F.edges r ∧ e.2.2.1 ≠ r ∧ e.2.2.1 ≠ fin := by
    rintro e (q | q)
    · have := (TreeSum.edges_mem q).2
      exact ⟨by rw [hedg.mem_iff]; simp [q], fun w => n3 (w ▸ this), fun w => n5 (w ▸ this)⟩
    · have := (TreeSum.edges_mem q).2
      exact ⟨by rw [hedg.mem_iff]; simp [q], fun w => n2 (w ▸ this), fun w => n4 (w ▸ this)⟩
  refine ⟨_, ⟨m.links, tree, hM.leaf, m.lt, ?_, ?_, ?_⟩, ?_, ?_, ?_, ?_⟩
  · intro u hu
    obtain ⟨h1', h2'⟩ := mem_tensors.1 hu
    simp only [Forest.ids, List.cons_append, List.append_nil, List.mem_cons, List.mem_append] at h1'
    have other : u ∈ F.ids → u ≠ r → u ≠ fin → ∃ A, h1.Full u A := by
      intro q1 q2 q3
      have hur : u ∈ r :: F.ids := by simp [q1]
      obtain ⟨D, hD⟩ := ht.full u (mem_tensors.2 ⟨.inr q1, by rw [← hleaf u hur]; exact h2'⟩)
      exact ⟨D, hD.congr (fun k => m.accOther u k q2 q3 (hmid u hur)) (core_eq (m.other u q2 (hmid u hur))).2.2.1 (hleaf u hur)⟩
    rcases h1' with rfl | rfl | q | rfl | q
    · exact m.fullMid
    · exact m.fullSelf
    · exact other (by simp [hmem, q]) (fun w => n3 (w ▸ q)) (fun w => n5 (w ▸ q))
    · exact m.fullFin
    · exact other (by simp [hmem, q]) (fun w => n2 (w ▸ q)) (fun w => n4 (w ▸ q))
  · intro e he
    obtain ⟨q1, q2⟩ := mem_bonds.1 he
    rw [hE] at q1
    simp only [List.mem_cons, List.mem_append] at q1
    have hdim : ∀ u k, u ∈ r :: F.ids → (u = r → k ≠ i) → h1.hdim (u, k) = h.hdim (u, k) := by
      intro u k hu q
      by_cases c1 : u = r
      · rw [c1]; exact m.dimsSelf k (q c1)
      · have e1 : h1.array u = h.array u := (core_eq (m.other u c1 (hmid u hu))).2.2.1
        unfold hdim
        simp only [e1]
    have inner : e ∈ (F.rem i).edges r ∨ e ∈ sub.edges fin → h1.hdim (e.1, e.2.1) = h1.hdim (e.2.2.1, e.2.2.2) := by
      intro q
      obtain ⟨w1, w2, w3⟩ := hinner e q
      have ⟨w4, w5⟩ := TreeSum.edges_mem w1
      rw [hdim e.1 e.2.1 (by simpa using w4), hdim e.2.2.1 e.2.2.2 (by simp [w5]) (fun c => absurd c w2)]
      · exact ht.dims e (mem_bonds.2 ⟨w1, by rw [← hleaf _ (by simp [w5])]; exact q2⟩)
      · intro c d
        have := (ht.isLink_edge w1).1
        rw [c, d, hb] at this
        cases this; exact w3 rfl
    rcases q1 with rfl | q1 | rfl | q1
    · exact m.dims0
    · exact inner (.inl q1)
    · exact m.dims1
    · exact inner (.inr q1)
  · intro u hu
    obtain ⟨h1', h2'⟩ := mem_tensors.1 hu
    rcases h1' with rfl | h1'
    · obtain ⟨nm, hnm⟩ := ht.names r hrT
      exact ⟨_, m.name nm hnm⟩
    · have hur : u ∈ r :: F.ids := by
        simp only [Forest.ids, List.cons_append, List.append_nil, List.mem_cons, List.mem_append] at h1'
        simp only [List.mem_cons, hmem]
        tauto
      obtain ⟨nm, hnm⟩ := ht.names u (mem_tensors.2 ⟨by simpa using hur, by rw [← hleaf u hur]; exact h2'⟩)
      by_cases c1 : u = r
      · exact ⟨nm, by rw [c1, m.self.1, ← c1]; exact hnm⟩
      · exact ⟨nm, by rw [(core_eq (m.other u c1 (hmid u hur))).1]; exact hnm⟩
  · intro e he
    rw [hE] at he
    simp only [List.mem_cons, List.mem_append] at he
    rcases he with rfl | q | rfl | q
    · exact .inl rfl
    · exact .inr (.inr (.inr (hinner e (.inl q)).1))
    · exact .inl rfl
    · exact .inr (.inr (.inr (hinner e (.inr q)).1))
  · intro e he e1 e2
    rw [hedg.mem_iff] at he
    rw [hE]
    simp only [List.cons_append, List.mem_cons, List.mem_append] at he ⊢
    rcases he with rfl | q | q
    · exact absurd rfl e1
    · simp [q]
    · simp [q]
  · intro e he
    rw [hE] at he
    simp only [List.mem_cons, List.mem_append] at he
    rcases he with rfl | q | rfl | q
    · exact .inl rfl
    · obtain ⟨w1, w2, w3⟩ := hinner e (.inl q)
      exact .inr (.inr ⟨e, w1, rfl, w3⟩)
    · exact .inr (.inl rfl)
    · obtain ⟨w1, w2, w3⟩ := hinner e (.inr q)
      exact .inr (.inr ⟨e, w1, rfl, w3⟩)
  · intro e he hx
    rw [hE] at he
    simp only [List.mem_cons, List.mem_append] at he
    rcases he with rfl | q | rfl | q
    · rfl
    · obtain ⟨w1, w2, w3⟩ := hinner e (.inl q)
      exact absurd hx (by tauto)
    · rfl
    · obtain ⟨w1, w2, w3⟩ := hinner e (.inr q)
      exact absurd hx (by tauto)

theorem MidUnite.tree {h h1 : Heap R} {r i fin j mid : ℕ} {F : Forest} (ht : h.IsTTN r F) {A B : Nd R}
    (hA : h.Full r A) (hB : h.Full fin B)
    (hb : h.acc r i = some (fin, j)) (hl : h.isLeaf fin = false) (m : MidUnite h h1 r i fin j mid A.ndim B.ndim) :
    ∃ F1, MidTree h h1 r i fin j mid F F1 := by
  have hwf := ht.links.wf
  have hwf1 := m.links.wf
  obtain ⟨sub, hf⟩ := Forest.exists_has (ht.head_of_acc hb)
  obtain ⟨pre, post, rfl⟩ := hf.split
  have hnd := ht.tree.nodup
  rw [Forest.ids_app] at hnd
  simp only [Forest.ids, List.cons_append] at hnd
  have hrT : r ∈ h.tensors r (pre.app (.cons i j fin sub post)) := mem_tensors.2 ⟨.inl rfl, ht.leaf⟩
  have hbs := ht.links.sym _ _ _ _ hb
  have hin : i < A.ndim := (hA.acc i).1 (by rw [hb]; simp)
  have hjn : j < B.ndim := (hB.acc j).1 (by rw [hbs]; simp)
  set Lh := uniteLabels r i A.ndim fin j B.ndim with hLh
  have hmemL : ∀ x k, (x, k) ∈ Lh ↔ (x = r ∧ k < A.ndim ∧ k ≠ i) ∨ (x = fin ∧ k < B.ndim ∧ k ≠ j) :=
    fun x k => mem_uniteLabels hin hjn
  obtain ⟨M, hM, hMn⟩ := m.fullMid
  have hmid : ∀ u ∈ r :: (pre.app (.cons i j fin sub post)).ids, u ≠ mid := fun u hu => by
    have := ht.ids_lt hu
    have := m.fresh
    omega
  -- the branches
  have hheads : pre.heads ++ (i, fin, j) :: post.heads = (List.range A.ndim).map fun k => (k, (h.acc r k).getD (0, 0)) := by
    have := ht.tree.heads
    rw [children_eq hwf ht.leaf List.pairwise_lt_range (fun k => by rw [hA.acc, List.mem_range]), Forest.heads_app] at this
    exact this.symm
  have hprel : pre.heads.length = i := by
    have e := congrArg (fun l => l[pre.heads.length]?) hheads
    simp only [List.getElem?_append_right (Nat.le_refl _), Nat.sub_self, List.getElem?_cons_zero, List.getElem?_map] at e
    cases e2 : (List.range A.ndim)[pre.heads.length]? with
    | none => rw [e2] at e; cases e
    | some m =>
      obtain ⟨q1, q2⟩ := List.getElem?_eq_some_iff.1 e2
      rw [List.getElem_range] at q2
      rw [e2] at e
      simp only [Option.map_some, Option.some.injEq, Prod.mk.injEq] at e
      omega
  rw [range_split hin, List.map_append, List.map_cons] at hheads
  obtain ⟨hpre, hpost⟩ := List.append_inj hheads (by simp [hprel])
  have hpost := (List.cons.inj hpost).2
  have hrep := ht.tree.rep
  rw [Forest.repIn_app] at hrep
  obtain ⟨rp1, ⟨rp2, rp3, rp4⟩⟩ := hrep
  have hle := ht.tree.leafEnd
  rw [Forest.leafEnd_app] at hle
  obtain ⟨le1, ⟨-, le3, le4⟩⟩ := hle
  have hsub : sub.heads = (List.range j ++ List.range' (j + 1) (B.ndim - j - 1)).map fun k => (k, (h.acc fin k).getD (0, 0)) := by
    rw [← rp2]
    refine sorted_ext (pairwise_children hwf fin _ true) ?_ ?_
    · rw [List.pairwise_map]; exact hole_pairwise j B.ndim
    · rintro ⟨k, u, l⟩
      rw [mem_children hwf (by simp)]
      simp only [List.mem_map, Prod.mk.injEq, mem_hole hjn]
      constructor
      · rintro ⟨q1, q2, -⟩
        exact ⟨k, ⟨(hB.acc k).1 (by rw [q1]; simp), fun q => q2 (by rw [q])⟩, rfl, by rw [q1]; simp⟩
      · rintro ⟨k, ⟨q1, q2⟩, rfl, q3⟩
        have := (hB.acc k).2 q1
        cases hx : h.acc fin k with
        | none => exact absurd hx this
        | some y =>
          rw [hx] at q3; simp only [Option.getD_some] at q3; subst q3
          exact ⟨rfl, by simpa [eq_comm] using q2, .inl trivial⟩
  set G := pre.app (sub.app post) with hG
  have hGheads : G.heads = Lh.map fun p => (p.2, (h.acc p.1 p.2).getD (0, 0)) := by
    rw [hG, Forest.heads_app, Forest.heads_app, hpre, hsub, hpost, hLh]
    unfold uniteLabels
    simp [Function.comp_def]
  have hGids : G.ids = pre.ids ++ (sub.ids ++ post.ids) := by rw [hG, Forest.ids_app, Forest.ids_app]
  have hnd2 : (r :: fin :: G.ids).Nodup := by
    rw [hGids]
    refine List.Perm.nodup ?_ hnd
    refine List.Perm.cons _ ?_
    exact List.perm_middle
  have hmemF : ∀ u, u ∈ (pre.app (.cons i j fin sub post)).ids ↔ u = fin ∨ u ∈ G.ids := by
    intro u
    rw [Forest.ids_app, hGids]
    simp only [Forest.ids, List.cons_append, List.mem_append, List.mem_cons]
    tauto
  have hGr : ∀ u ∈ G.ids, u ≠ r ∧ u ≠ fin ∧ u ≠ mid := by
    intro u hu
    simp only [List.nodup_cons, List.mem_cons, not_or] at hnd2
    exact ⟨fun q => hnd2.1.2 (q ▸ hu), fun q => hnd2.2.1 (q ▸ hu), hmid u (by simp [hmemF, hu])⟩
  have hleaf : ∀ u, u ≠ mid → h1.isLeaf u = h.isLeaf u := fun u hu => (core_eq (m.other u hu)).2.2.2.2.2.2
  have harr : ∀ u, u ≠ mid → h1.array u = h.array u := fun u hu => (core_eq (m.other u hu)).2.2.1
  obtain ⟨kr1, kr2⟩ := Forest.rep_congr (h' := h1) hwf hwf1 G (fun u hu k hy => m.accOther u k (hGr u hu).1 (hGr u hu).2.1
      (hGr u hu).2.2 fun l => ⟨fun e => (hGr _ (hy _ _ e)).1 rfl, fun e => (hGr _ (hy _ _ e)).2.1 rfl⟩)
    (fun u hu => hleaf u (hGr u hu).2.2)
    (by rw [hG, Forest.repIn_app, Forest.repIn_app]; exact ⟨rp1, rp3, rp4⟩)
    (by rw [hG, Forest.leafEnd_app, Forest.leafEnd_app]; exact ⟨le1, le3, le4⟩)
  have htree : IsTree h1 mid none (G.renum 0) := by
    refine ⟨?_, (Forest.repIn_renum 0).2 kr1, ?_, (Forest.leafEnd_renum 0).2 kr2⟩
    · rw [children_eq hwf1 hM.leaf List.pairwise_lt_range (fun k => by rw [hM.acc, List.mem_range]),
        Forest.heads_renum, hGheads, hMn]
      refine List.ext_getElem? fun n => ?_
      simp only [List.getElem?_map, List.getElem?_zipIdx]
      cases e : Lh[n]? with
      | none =>
        have : Lh.length ≤ n := by simpa using e
        rw [List.getElem?_eq_none (by simpa using this)]; rfl
      | some p =>
        have : n < Lh.length := (List.getElem?_eq_some_iff.1 e).1
        rw [List.getElem?_eq_getElem (by simpa using this), List.getElem_range]
        simp [m.accMid n p e]
    · rw [Forest.ids_renum]
      simp only [List.nodup_cons, List.mem_cons, not_or] at hnd2 ⊢
      exact ⟨fun q => (hGr mid q).2.2 rfl, hnd2.2.2⟩
  -- the edges
  have hE0 : (pre.app (.cons i j fin sub post)).edges r =
      pre.edges r ++ (r, i, fin, j) :: (sub.edges fin ++ post.edges r) := by
    rw [Forest.edges_app]; rfl
  have hE1 : (G.renum 0).edges mid = (pre.renum 0).edges mid ++ ((sub.renum (0 + pre.heads.length)).edges mid ++
      (post.renum (0 + pre.heads.length + sub.heads.length)).edges mid) := by
    rw [hG, Forest.renum_app, Forest.renum_app, Forest.edges_app, Forest.edges_app]
  have key : ∀ e ∈ (G.renum 0).edges mid, ∃ e' ∈ (pre.app (.cons i j fin sub post)).edges r, e'.2.2 = e.2.2 ∧
      (e' = e ∨ e.1 = mid) := by
    intro e he
    rw [hE1] at he
    simp only [List.mem_append] at he
    rw [hE0]
    rcases he with he | he | he
    · obtain ⟨e', q1, q2, q3⟩ := Forest.edges_renum_mem (b := r) he
      exact ⟨e', by simp [q1], q2, q3.imp id fun w => w.1⟩
    · obtain ⟨e', q1, q2, q3⟩ := Forest.edges_renum_mem (b := fin) he
      exact ⟨e', by simp [q1], q2, q3.imp id fun w => w.1⟩
    · obtain ⟨e', q1, q2, q3⟩ := Forest.edges_renum_mem (b := r) he
      exact ⟨e', by simp [q1], q2, q3.imp id fun w => w.1⟩
  have htgt : ∀ e ∈ (G.renum 0).edges mid, e.2.2.1 ∈ G.ids := by
    intro e he
    have := (TreeSum.edges_mem he).2
    rwa [Forest.ids_renum] at this
  have hsrc : ∀ e ∈ (G.renum 0).edges mid, e.1 = mid ∨ e.1 ∈ G.ids := by
    intro e he
    have := (TreeSum.edges_mem he).1
    rwa [Forest.ids_renum] at this
  have hGT : ∀ u ∈ G.ids, h.isLeaf u = false → u ∈ h.tensors r (pre.app (.cons i j fin sub post)) :=
    fun u hu hlu => mem_tensors.2 ⟨.inr ((hmemF u).2 (.inr hu)), hlu⟩
  have hfT : fin ∈ h.tensors r (pre.app (.cons i j fin sub post)) := mem_tensors.2 ⟨.inr ((hmemF fin).2 (.inl rfl)), hl⟩
  refine ⟨G.renum 0, ⟨m.links, htree, hM.leaf, m.lt, ?_, ?_, ?_⟩, ?_, ?_, ?_, ?_⟩
  · intro u hu
    obtain ⟨q1, q2⟩ := mem_tensors.1 hu
    rw [Forest.ids_renum] at q1
    rcases q1 with rfl | q1
    · exact ⟨M, hM⟩
    · obtain ⟨o1, o2, o3⟩ := hGr u q1
      rw [hleaf u o3] at q2
      obtain ⟨D, hD⟩ := ht.full u (hGT u q1 q2)
      refine ⟨D, by rw [hleaf u o3]; exact q2, by rw [harr u o3]; exact hD.array, hD.wf, hD.pos, fun k => ?_⟩
      rw [← hD.acc k]
      by_cases hx : ∀ l, h.acc u k ≠ some (r, l) ∧ h.acc u k ≠ some (fin, l)
      · rw [m.accOther u k o1 o2 o3 hx]
      · push Not at hx
        obtain ⟨l, hx⟩ := hx
        have : ∃ y, h.acc u k = some (y, l) ∧ (y, l) ∈ Lh := by
          by_cases q : h.acc u k = some (r, l)
          · refine ⟨r, q, (hmemL _ _).2 (.inl ⟨rfl, ?_, ?_⟩)⟩
            · exact (hA.acc l).1 (by rw [ht.links.sym _ _ _ _ q]; simp)
            · rintro rfl
              have := ht.links.sym _ _ _ _ q
              rw [hb] at this; cases this; exact o2 rfl
          · have q := hx q
            refine ⟨fin, q, (hmemL _ _).2 (.inr ⟨rfl, ?_, ?_⟩)⟩
            · exact (hB.acc l).1 (by rw [ht.links.sym _ _ _ _ q]; simp)
            · rintro rfl
              have := ht.links.sym _ _ _ _ q
              rw [hbs] at this; cases this; exact o1 rfl
        obtain ⟨y, e, hy⟩ := this
        obtain ⟨n, hn⟩ := List.mem_iff_getElem?.1 hy
        have q3 := m.accMid n _ hn
        simp only at q3
        rw [ht.links.sym _ _ _ _ e] at q3
        rw [m.links.sym _ _ _ _ q3, e]
        simp
  · intro e he
    obtain ⟨w1, w2⟩ := mem_bonds.1 he
    have ht1 := htgt e w1
    obtain ⟨o1, o2, o3⟩ := hGr _ ht1
    rw [hleaf _ o3] at w2
    have hdim : ∀ u k, u ≠ mid → h1.hdim (u, k) = h.hdim (u, k) := by
      intro u k hu
      have e1 := harr u hu
      unfold hdim
      simp only [e1]
    rw [hdim _ _ o3]
    rcases hsrc e w1 with c | c
    · have hlk : h1.acc e.1 e.2.1 = some (e.2.2.1, e.2.2.2) :=
        (edges_props hwf1 m.links.sym htree hM.leaf).1 e w1
      rw [c] at hlk ⊢
      have hk : e.2.1 < M.ndim := (hM.acc _).1 (by rw [hlk]; simp)
      rw [hMn] at hk
      have hp := List.getElem?_eq_getElem hk
      generalize Lh[e.2.1] = p at hp
      rw [m.dimsMid _ _ hp]
      rw [m.accMid _ _ hp] at hlk
      refine ht.link_dims (t := p.1) (k := p.2) ?_ (hGT _ ht1 w2) hlk
      rcases (hmemL p.1 p.2).1 (List.mem_of_getElem? hp) with q | q
      · rw [q.1]; exact hrT
      · rw [q.1]; exact hfT
    · rw [hdim _ _ (hGr _ c).2.2]
      obtain ⟨e', q1, q2, q3⟩ := key e w1
      rcases q3 with rfl | q3
      · exact ht.dims _ (mem_bonds.2 ⟨q1, w2⟩)
      · exact absurd q3 (hGr _ c).2.2
  · intro u hu
    obtain ⟨q1, q2⟩ := mem_tensors.1 hu
    rw [Forest.ids_renum] at q1
    rcases q1 with rfl | q1
    · exact m.name
    · obtain ⟨o1, o2, o3⟩ := hGr u q1
      rw [(core_eq (m.other u o3)).1]
      rw [hleaf u o3] at q2
      exact ht.names u (hGT u q1 q2)
  · intro e he
    rcases hsrc e he with c | c
    · exact .inl c
    · obtain ⟨e', q1, q2, q3⟩ := key e he
      rcases q3 with rfl | q3
      · exact .inr (.inr (.inr q1))
      · exact .inl q3
  · intro e he e1 e2
    rw [hE0] at he
    rw [hE1]
    simp only [List.mem_cons, List.mem_append] at he ⊢
    rcases he with q | rfl | q | q
    · exact .inl (Forest.mem_edges_renum q e1)
    · exact absurd rfl e1
    · exact .inr (.inl (Forest.mem_edges_renum q e2))
    · exact .inr (.inr (Forest.mem_edges_renum q e1))
  · intro e he
    obtain ⟨e', q1, q2, -⟩ := key e he
    exact .inr (.inr ⟨e', q1, q2, (hGr _ (htgt e he)).2.1⟩)
  · intro e he hx
    have := hGr _ (htgt e he)
    exact absurd hx (by tauto)

end Heap
