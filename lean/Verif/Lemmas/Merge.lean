import Verif.Lemmas.Contraction
import Verif.Lemmas.MidNet
import Verif.Lemmas.Sweep

/-! Helper lemmas for C127: two neighbours and the one tensor that stands for both. -/

open scoped BigOperators
open Py

namespace Heap

variable {R : Type} [CommRing R]

/-- In `g` the tensor `m` stands for the neighbours `r` and `t` of `h`. -/
structure Merge (h g : Heap R) (r i t j m : ℕ) (na nb : ℕ) (C : Nd R) : Prop where
  links : g.LinkInv
  full : g.Full m C
  ndim : C.ndim = (uniteLabels r i na t j nb).length
  acc : ∀ n p, (uniteLabels r i na t j nb)[n]? = some p → g.acc m n = h.acc p.1 p.2
  far : ∀ x k, x ≠ r → x ≠ t → x ≠ m → (∀ l, h.acc x k ≠ some (r, l) ∧ h.acc x k ≠ some (t, l)) → g.acc x k = h.acc x k
  dims : ∀ n p, (uniteLabels r i na t j nb)[n]? = some p → g.hdim (m, n) = h.hdim p
  other : ∀ c, c ≠ r → c ≠ t → c ≠ m → g.array c = h.array c ∧ g.isLeaf c = h.isLeaf c
  entry : ∀ σ : Assign, (∀ p ∈ uniteLabels r i na t j nb, σ p < h.hdim p) →
    C.get ((uniteLabels r i na t j nb).map σ) = h.pairSum (r, i, t, j) σ

/-- Both have the same leaves and the same state. -/
theorem Merge.state {h g : Heap R} {r i t j m : ℕ} {A B C : Nd R} {F F1 : Forest} (mg : Merge h g r i t j m A.ndim B.ndim C)
    (ht : h.IsTTN r F) (tg : g.IsTTN m F1) (hm : m ∉ r :: F.ids) (hA : h.Full r A) (hB : h.Full t B)
    (hb : h.acc r i = some (t, j)) (hl : h.isLeaf t = false) :
    g.leafList m F1 = h.leafList r F ∧ ∀ x, h.InRange (h.tensors r F) x → g.treeAmp m F1 x = h.treeAmp r F x := by
  have hwf := ht.links.wf
  have hmem : (i, t, j) ∈ F.heads := by
    rw [← ht.tree.heads, mem_children hwf (by simp [ht.leaf])]
    exact ⟨hb, by simp, .inl rfl⟩
  obtain ⟨sub, hf⟩ := Forest.exists_has hmem
  obtain ⟨pre, post, rfl⟩ := hf.split
  have hnd := ht.tree.nodup
  rw [Forest.ids_app] at hnd
  simp only [Forest.ids, List.cons_append] at hnd
  have hrT : r ∈ h.tensors r (pre.app (.cons i j t sub post)) := mem_tensors.2 ⟨.inl rfl, ht.leaf⟩
  have htT : t ∈ h.tensors r (pre.app (.cons i j t sub post)) :=
    mem_tensors.2 ⟨.inr (by simp [Forest.ids_app, Forest.ids]), hl⟩
  have hnet := ht.isNet
  have hbs := ht.links.sym _ _ _ _ hb
  obtain ⟨hne, hone⟩ := hnet.simple r hrT i t j hb htT
  have hin : i < A.ndim := (hA.acc i).1 (by rw [hb]; simp)
  have hjn : j < B.ndim := (hB.acc j).1 (by rw [hbs]; simp)
  set Lh := uniteLabels r i A.ndim t j B.ndim with hLh
  have hLnd : Lh.Nodup := nodup_uniteLabels hne.symm
  have hCn : C.ndim = Lh.length := mg.ndim
  have hmr : m ≠ r := fun q => hm (by simp [q])
  have hmt : m ≠ t := fun q => hm (by simp [q, Forest.ids_app, Forest.ids])
  have hleaf : ∀ c, c ≠ r → c ≠ t → c ≠ m → g.isLeaf c = h.isLeaf c := fun c q1 q2 q3 => (mg.other c q1 q2 q3).2
  have hacc := mg.acc
  have hinv := mg.links
  have hC := mg.full
  -- the renaming of half-edges
  obtain ⟨φ, hφ⟩ : ∃ φ : ℕ × ℕ → ℕ × ℕ, ∀ p, φ p = if p ∈ Lh then (m, Lh.idxOf p) else p := ⟨_, fun _ => rfl⟩
  have hmemL : ∀ x k, (x, k) ∈ Lh ↔ (x = r ∧ k < A.ndim ∧ k ≠ i) ∨ (x = t ∧ k < B.ndim ∧ k ≠ j) :=
    fun x k => mem_uniteLabels hin hjn
  have hφL : ∀ n p, Lh[n]? = some p → φ p = (m, n) := by
    intro n p hp
    rw [hφ, if_pos (List.mem_of_getElem? hp)]
    obtain ⟨hn, rfl⟩ := List.getElem?_eq_some_iff.1 hp
    rw [hLnd.idxOf_getElem]
  have hφo : ∀ x k, x ≠ r → x ≠ t → φ (x, k) = (x, k) := by
    intro x k h1 h2
    rw [hφ, if_neg]
    rw [hmemL]; tauto
  have hinj : ∀ p q, (p ∈ Lh ∨ (p.1 ≠ r ∧ p.1 ≠ t ∧ p.1 ≠ m)) → (q ∈ Lh ∨ (q.1 ≠ r ∧ q.1 ≠ t ∧ q.1 ≠ m)) →
      φ p = φ q → p = q := by
    intro p q hp hq e
    rcases hp with hp | hp <;> rcases hq with hq | hq
    · obtain ⟨n, hn⟩ := List.mem_iff_getElem?.1 hp
      obtain ⟨k, hk⟩ := List.mem_iff_getElem?.1 hq
      rw [hφL _ _ hn, hφL _ _ hk] at e
      cases e
      rw [hn] at hk; exact Option.some.inj hk
    · obtain ⟨n, hn⟩ := List.mem_iff_getElem?.1 hp
      rw [hφL _ _ hn, hφo q.1 q.2 hq.1 hq.2.1] at e
      exact absurd (congrArg Prod.fst e).symm hq.2.2
    · obtain ⟨n, hn⟩ := List.mem_iff_getElem?.1 hq
      rw [hφL _ _ hn, hφo p.1 p.2 hp.1 hp.2.1] at e
      exact absurd (congrArg Prod.fst e) hp.2.2
    · rwa [hφo p.1 p.2 hp.1 hp.2.1, hφo q.1 q.2 hq.1 hq.2.1] at e
  -- the links afterwards
  have hacc' : ∀ x k, x ≠ r → x ≠ t → x ≠ m → g.acc x k = (h.acc x k).map φ := by
    intro x k h1 h2 h3
    by_cases hx : ∀ l, h.acc x k ≠ some (r, l) ∧ h.acc x k ≠ some (t, l)
    · rw [mg.far x k h1 h2 h3 hx]
      cases e : h.acc x k with
      | none => rfl
      | some y =>
        obtain ⟨y, l⟩ := y
        rw [Option.map_some, hφo y l (fun q => (hx l).1 (by rw [e, q])) (fun q => (hx l).2 (by rw [e, q]))]
    · push Not at hx
      obtain ⟨l, hx⟩ := hx
      have : ∃ y, h.acc x k = some (y, l) ∧ (y, l) ∈ Lh := by
        by_cases q : h.acc x k = some (r, l)
        · refine ⟨r, q, (hmemL _ _).2 (.inl ⟨rfl, ?_, ?_⟩)⟩
          · exact (hA.acc l).1 (by rw [ht.links.sym _ _ _ _ q]; simp)
          · rintro rfl
            have := ht.links.sym _ _ _ _ q
            rw [hb] at this; cases this; exact h2 rfl
        · have q := hx q
          refine ⟨t, q, (hmemL _ _).2 (.inr ⟨rfl, ?_, ?_⟩)⟩
          · exact (hB.acc l).1 (by rw [ht.links.sym _ _ _ _ q]; simp)
          · rintro rfl
            have := ht.links.sym _ _ _ _ q
            rw [hbs] at this; cases this; exact h1 rfl
      obtain ⟨y, e, hy⟩ := this
      obtain ⟨n, hn⟩ := List.mem_iff_getElem?.1 hy
      rw [e, Option.map_some, hφL _ _ hn]
      have := hacc n _ hn
      simp only at this
      rw [ht.links.sym _ _ _ _ e] at this
      exact hinv.sym _ _ _ _ this
  have haccφ : ∀ p ∈ Lh, g.acc (φ p).1 (φ p).2 = h.acc p.1 p.2 := by
    intro p hp
    obtain ⟨n, hn⟩ := List.mem_iff_getElem?.1 hp
    rw [hφL _ _ hn]; exact hacc n p hn
  have hdimφ : ∀ p, (p ∈ Lh ∨ (p.1 ≠ r ∧ p.1 ≠ t ∧ p.1 ≠ m)) → g.hdim (φ p) = h.hdim p := by
    intro p hp
    rcases hp with hp | hp
    · obtain ⟨n, hn⟩ := List.mem_iff_getElem?.1 hp
      rw [hφL _ _ hn]; exact mg.dims n p hn
    · rw [hφo p.1 p.2 hp.1 hp.2.1]
      unfold hdim
      simp only [(mg.other p.1 hp.1 hp.2.1 hp.2.2).1]
  -- the branches
  have hheads : pre.heads ++ (i, t, j) :: post.heads = (List.range A.ndim).map fun k => (k, (h.acc r k).getD (0, 0)) := by
    have := ht.tree.heads
    rw [children_eq hwf ht.leaf List.pairwise_lt_range (fun k => by rw [hA.acc, List.mem_range]), Forest.heads_app] at this
    exact this.symm
  have hprel : pre.heads.length = i := by
    have e := congrArg (fun l => l[pre.heads.length]?) hheads
    simp only [List.getElem?_append_right (Nat.le_refl _), Nat.sub_self, List.getElem?_cons_zero, List.getElem?_map] at e
    cases e2 : (List.range A.ndim)[pre.heads.length]? with
    | none => rw [e2] at e; cases e
    | some w =>
      obtain ⟨q1, q2⟩ := List.getElem?_eq_some_iff.1 e2
      rw [List.getElem_range] at q2
      rw [e2] at e
      simp only [Option.map_some, Option.some.injEq, Prod.mk.injEq] at e
      omega
  rw [range_split hin, List.map_append, List.map_cons] at hheads
  obtain ⟨hpre, hpost⟩ := List.append_inj hheads (by simp [hprel])
  have hpost := (List.cons.inj hpost).2
  have hrep := ht.tree.rep
  rw [Forest.repIn_app] at hrep
  obtain ⟨rp1, ⟨rp2, rp3, rp4⟩⟩ := hrep
  have hle := ht.tree.leafEnd
  rw [Forest.leafEnd_app] at hle
  obtain ⟨le1, ⟨-, le3, le4⟩⟩ := hle
  have hsub : sub.heads = (List.range j ++ List.range' (j + 1) (B.ndim - j - 1)).map fun k => (k, (h.acc t k).getD (0, 0)) := by
    rw [← rp2]
    refine sorted_ext (pairwise_children hwf t _ true) ?_ ?_
    · rw [List.pairwise_map]; exact hole_pairwise j B.ndim
    · rintro ⟨k, u, l⟩
      rw [mem_children hwf (by simp)]
      simp only [List.mem_map, Prod.mk.injEq, mem_hole hjn]
      constructor
      · rintro ⟨q1, q2, -⟩
        exact ⟨k, ⟨(hB.acc k).1 (by rw [q1]; simp), fun q => q2 (by rw [q])⟩, rfl, by rw [q1]; simp⟩
      · rintro ⟨k, ⟨q1, q2⟩, rfl, q3⟩
        have := (hB.acc k).2 q1
        cases hx : h.acc t k with
        | none => exact absurd hx this
        | some y =>
          rw [hx] at q3; simp only [Option.getD_some] at q3; subst q3
          exact ⟨rfl, by simpa [eq_comm] using q2, .inl trivial⟩
  set G := pre.app (sub.app post) with hG
  have hGheads : G.heads = Lh.map fun p => (p.2, (h.acc p.1 p.2).getD (0, 0)) := by
    rw [hG, Forest.heads_app, Forest.heads_app, hpre, hsub, hpost, hLh]
    unfold uniteLabels
    simp [Function.comp_def]
  have hGids : G.ids = pre.ids ++ (sub.ids ++ post.ids) := by rw [hG, Forest.ids_app, Forest.ids_app]
  have hnd2 : (r :: t :: G.ids).Nodup := by
    rw [hGids]
    refine List.Perm.nodup ?_ hnd
    refine List.Perm.cons _ ?_
    exact List.perm_middle
  have hGr : ∀ u ∈ G.ids, u ≠ r ∧ u ≠ t ∧ u ≠ m := by
    intro u hu
    simp only [List.nodup_cons, List.mem_cons, not_or] at hnd2
    refine ⟨fun q => hnd2.1.2 (q ▸ hu), fun q => hnd2.2.1 (q ▸ hu), fun q => hm ?_⟩
    rw [← q, Forest.ids_app]
    rw [hGids] at hu
    simp only [List.mem_append, List.mem_cons, Forest.ids] at hu ⊢
    tauto
  have hGφ : ∀ u ∈ G.ids, ∀ k, φ (u, k) = (u, k) := fun u hu k => hφo u k (hGr u hu).1 (hGr u hu).2.1
  -- the tree
  have key : ∀ P : Forest, (∀ u ∈ P.ids, u ≠ r ∧ u ≠ t ∧ u ≠ m) → P.RepIn h → P.LeafEnd h → P.RepIn g ∧ P.LeafEnd g := by
    intro P
    induction P with
    | nil => intros; exact ⟨trivial, trivial⟩
    | cons i j id sub rest ih1 ih2 =>
      intro hP a b
      obtain ⟨a1, a2, a3⟩ := a
      obtain ⟨b1, b2, b3⟩ := b
      obtain ⟨c1, c2⟩ := ih1 (fun u hu => hP u (by simp [Forest.ids, hu])) a2 b2
      obtain ⟨d1, d2⟩ := ih2 (fun u hu => hP u (by simp [Forest.ids, hu])) a3 b3
      obtain ⟨o1, o2, o3⟩ := hP id (by simp [Forest.ids])
      refine ⟨⟨?_, c1, d1⟩, ?_, c2, d2⟩
      · rw [← a1]
        refine children_some_congr hwf hinv.wf fun k hk => ?_
        rw [hacc' id k o1 o2 o3]
        cases e : h.acc id k with
        | none => rfl
        | some y =>
          obtain ⟨y, l⟩ := y
          have : (k, y, l) ∈ sub.heads := by
            rw [← a1, mem_children hwf (by simp)]
            exact ⟨e, by simpa [eq_comm] using hk, .inl rfl⟩
          have := hP y (by simp [Forest.ids, Forest.mem_heads_ids this])
          rw [Option.map_some, hφo y l this.1 this.2.1]
      · rw [hleaf id o1 o2 o3]; exact b1
  have hGrep : G.RepIn h ∧ G.LeafEnd h := by
    rw [hG, Forest.repIn_app, Forest.repIn_app, Forest.leafEnd_app, Forest.leafEnd_app]
    exact ⟨⟨rp1, rp3, rp4⟩, ⟨le1, le3, le4⟩⟩
  obtain ⟨kr1, kr2⟩ := key G hGr hGrep.1 hGrep.2
  have htree : IsTree g m none (G.renum 0) := by
    refine ⟨?_, (Forest.repIn_renum 0).2 kr1, ?_, (Forest.leafEnd_renum 0).2 kr2⟩
    · rw [children_eq hinv.wf hC.leaf List.pairwise_lt_range (fun k => by rw [hC.acc, List.mem_range]),
        Forest.heads_renum, hGheads, hCn]
      refine List.ext_getElem? fun n => ?_
      simp only [List.getElem?_map, List.getElem?_zipIdx]
      cases e : Lh[n]? with
      | none =>
        have : Lh.length ≤ n := by simpa using e
        rw [List.getElem?_eq_none (by simpa using this)]; rfl
      | some p =>
        have : n < Lh.length := (List.getElem?_eq_some_iff.1 e).1
        rw [List.getElem?_eq_getElem (by simpa using this), List.getElem_range]
        simp [hacc n p e]
    · rw [Forest.ids_renum]
      simp only [List.nodup_cons, List.mem_cons, not_or] at hnd2 ⊢
      exact ⟨fun q => (hGr m q).2.2 rfl, hnd2.2.2⟩
  obtain rfl := tg.tree.unique htree
  -- the edges
  have hedges : (G.renum 0).edges m = (pre.edges r ++ (sub.edges t ++ post.edges r)).map (Forest.mapE φ) := by
    have hφh : ∀ n x, G.heads[n]? = some x → ∃ p, Lh[n]? = some p ∧ x.1 = p.2 ∧ φ p = (m, n) := by
      intro n x hx
      rw [hGheads, List.getElem?_map] at hx
      cases e : Lh[n]? with
      | none => rw [e] at hx; cases hx
      | some p => rw [e] at hx; cases hx; exact ⟨p, rfl, rfl, hφL _ _ e⟩
    have hlsub : sub.heads.length = B.ndim - 1 := by rw [hsub]; simp; omega
    obtain ⟨g1, g2, g3, g4, g5⟩ := getElem?_uniteLabels (s := r) (i := i) (n := A.ndim) (t := t) (j := j)
      (m := B.ndim) hin hjn
    rw [hG, Forest.renum_app, Forest.renum_app, Forest.edges_app, Forest.edges_app, List.map_append, List.map_append]
    have hGh : G.heads = pre.heads ++ (sub.heads ++ post.heads) := by rw [hG, Forest.heads_app, Forest.heads_app]
    congr 1
    · refine Forest.edges_renum (fun a x hx => ?_) fun u hu => hGφ u (by rw [hGids]; simp [hu])
      have hm := (List.getElem?_eq_some_iff.1 hx).1
      obtain ⟨p, q1, q2, q3⟩ := hφh a x (by rw [hGh, List.getElem?_append_left hm]; exact hx)
      have hp := (g1 a (by omega)).symm.trans q1
      cases hp
      rw [q2, q3, Nat.zero_add]
    congr 1
    · refine Forest.edges_renum (fun a x hx => ?_) fun u hu => hGφ u (by rw [hGids]; simp [hu])
      have hm := (List.getElem?_eq_some_iff.1 hx).1
      obtain ⟨p, q1, q2, q3⟩ := hφh (pre.heads.length + a) x (by
        rw [hGh, List.getElem?_append_right (by omega), List.getElem?_append_left (by omega)]
        rw [← hx]; congr 1; omega)
      have hp : p.1 = t := by
        by_cases hmj : a < j
        · have := (g2 a hmj).symm.trans ((congrArg (fun n => Lh[n]?) (by omega)).trans q1)
          exact (congrArg Prod.fst (Option.some.inj this)).symm
        · have := (g3 (a + 1) (by omega) (by omega)).symm.trans
            ((congrArg (fun n => Lh[n]?) (by omega)).trans q1)
          exact (congrArg Prod.fst (Option.some.inj this)).symm
      rw [q2, ← hp, q3, Nat.zero_add]
    · refine Forest.edges_renum (fun a x hx => ?_) fun u hu => hGφ u (by rw [hGids]; simp [hu])
      have hm := (List.getElem?_eq_some_iff.1 hx).1
      obtain ⟨p, q1, q2, q3⟩ := hφh (pre.heads.length + (sub.heads.length + a)) x (by
        rw [hGh, List.getElem?_append_right (by omega), List.getElem?_append_right (by omega)]
        rw [← hx]; congr 1; omega)
      have hp : p.1 = r := by
        have hlp : post.heads.length = A.ndim - i - 1 := by rw [hpost]; simp
        have := (g4 (i + 1 + a) (by omega) (by omega)).symm.trans
            ((congrArg (fun n => Lh[n]?) (by omega)).trans q1)
        exact (congrArg Prod.fst (Option.some.inj this)).symm
      rw [q2, ← hp, q3, Nat.zero_add]
      congr 1; omega
  have hE0 : (pre.app (.cons i j t sub post)).edges r =
      pre.edges r ++ (r, i, t, j) :: (sub.edges t ++ post.edges r) := by
    rw [Forest.edges_app]; rfl
  set E0 := pre.edges r ++ (sub.edges t ++ post.edges r) with hE0d
  have hmemE : ∀ e ∈ E0, e ∈ (pre.app (.cons i j t sub post)).edges r := by
    intro e he
    rw [hE0]
    simp only [hE0d, List.mem_append, List.mem_cons] at he ⊢
    tauto
  have htgt : ∀ e ∈ E0, e.2.2.1 ∈ G.ids := by
    intro e he
    rw [hGids]
    simp only [hE0d, List.mem_append] at he ⊢
    rcases he with he | he | he
    · exact .inl (TreeSum.edges_mem he).2
    · exact .inr (.inl (TreeSum.edges_mem he).2)
    · exact .inr (.inr (TreeSum.edges_mem he).2)
  have hsrc : ∀ e ∈ E0, (e.1, e.2.1) ∈ Lh ∨ (e.1 ≠ r ∧ e.1 ≠ t ∧ e.1 ≠ m) := by
    intro e he
    have hlk := ht.isLink_edge (hmemE e he)
    obtain ⟨o1, o2, -⟩ := hGr _ (htgt e he)
    by_cases c1 : e.1 = r
    · refine .inl ((hmemL _ _).2 (.inl ⟨c1, ?_, ?_⟩))
      · have := hlk.1; rw [c1] at this
        exact (hA.acc _).1 (by rw [this]; simp)
      · intro q
        have := hlk.1; rw [c1, q, hb] at this
        cases this; exact o2 rfl
    · by_cases c2 : e.1 = t
      · refine .inl ((hmemL _ _).2 (.inr ⟨c2, ?_, ?_⟩))
        · have := hlk.1; rw [c2] at this
          exact (hB.acc _).1 (by rw [this]; simp)
        · intro q
          have := hlk.1; rw [c2, q, hbs] at this
          cases this; exact o1 rfl
      · exact .inr ⟨c1, c2, fun q => hm (q ▸ List.mem_cons.2 (TreeSum.edges_mem (hmemE e he)).1)⟩
  have hmapt : ∀ e ∈ E0, (Forest.mapE φ e).2.2.1 = e.2.2.1 ∧ (Forest.mapE φ e).2.2.2 = e.2.2.2 := by
    intro e he
    have := hGφ _ (htgt e he) e.2.2.2
    simp only [Forest.mapE, this, and_self]
  have hfilt : ∀ b : Bool, ((G.renum 0).edges m).filter (fun e => g.isLeaf e.2.2.1 == b) =
      (E0.filter fun e => h.isLeaf e.2.2.1 == b).map (Forest.mapE φ) := by
    intro b
    rw [hedges, List.filter_map]
    congr 1
    refine List.filter_congr fun e he => ?_
    obtain ⟨o1, o2, o3⟩ := hGr _ (htgt e he)
    simp only [Function.comp, (hmapt e he).1, hleaf _ o1 o2 o3]
  have hbonds : g.bonds m (G.renum 0) = (E0.filter fun e => !(h.isLeaf e.2.2.1)).map (Forest.mapE φ) := by
    have := hfilt false
    unfold bonds
    simpa using this
  have htens : g.tensors m (G.renum 0) = m :: G.ids.filter (fun c => !(h.isLeaf c)) := by
    unfold tensors
    rw [Forest.ids_renum, List.filter_cons_of_pos (by simp [hC.leaf])]
    congr 1
    refine List.filter_congr fun c hc => ?_
    obtain ⟨o1, o2, o3⟩ := hGr c hc
    rw [hleaf c o1 o2 o3]
  have htens0 : (h.tensors r (pre.app (.cons i j t sub post))).Perm (r :: t :: G.ids.filter (fun c => !(h.isLeaf c))) := by
    unfold tensors
    rw [List.filter_cons_of_pos (by simp [ht.leaf]), Forest.ids_app, hGids]
    refine List.Perm.cons _ ?_
    simp only [Forest.ids, List.cons_append, List.filter_append]
    rw [List.filter_cons_of_pos (by simp [hl])]
    simp only [List.filter_append]
    exact List.perm_middle
  have hGT : ∀ u ∈ G.ids, h.isLeaf u = false → u ∈ h.tensors r (pre.app (.cons i j t sub post)) := by
    intro u hu hlu
    rw [htens0.mem_iff]
    simp [hu, hlu]
  refine ⟨?_, fun x hx => ?_⟩
  · unfold leafList
    have := hfilt true
    simp only [beq_true] at this
    rw [this, hE0, List.map_map]
    have e1 : (pre.edges r ++ (r, i, t, j) :: (sub.edges t ++ post.edges r)).filter (fun e => h.isLeaf e.2.2.1) =
        E0.filter fun e => h.isLeaf e.2.2.1 := by
      rw [List.filter_append, List.filter_cons_of_neg (by simp [hl]), ← List.filter_append]
    rw [e1]
    refine List.map_congr_left fun e he => ?_
    have he0 := List.mem_of_mem_filter he
    simp only [Function.comp, (hmapt e he0).1, Prod.mk.injEq, true_and]
    exact hdimφ _ (hsrc e he0)
  · unfold treeAmp amp
    rw [hbonds]
    obtain ⟨E1, hE1⟩ : ∃ E1, E1 = (pre.edges r).filter fun e => !(h.isLeaf e.2.2.1) := ⟨_, rfl⟩
    obtain ⟨E2, hE2⟩ : ∃ E2, E2 = (sub.edges t ++ post.edges r).filter fun e => !(h.isLeaf e.2.2.1) := ⟨_, rfl⟩
    have b1 : h.bonds r (pre.app (.cons i j t sub post)) = E1 ++ (r, i, t, j) :: E2 := by
      unfold bonds
      rw [hE0, List.filter_append, List.filter_cons_of_pos (by simp [hl]), hE1, hE2]
    have b2 : (E0.filter fun e => !(h.isLeaf e.2.2.1)) = E1 ++ E2 := by
      rw [hE0d, List.filter_append, hE1, hE2]
    have honce := hnet.once
    have hall := hnet.all
    rw [b1] at honce hall
    rw [b1, b2, sumBonds_middle h _ E1 E2 honce]
    have hmem12 : ∀ e ∈ E1 ++ E2, e ∈ E0 ∧ h.isLeaf e.2.2.1 = false := by
      intro e he
      rw [← b2] at he
      simpa [List.mem_filter] using he
    have hsl : ∀ e ∈ E0, h.isLeaf e.1 = false := fun e he =>
      Forest.edges_src_leaf ht.leaf ht.tree.leafEnd (k := e.2.1) (y := e.2.2.1) (l := e.2.2.2) (hmemE e he)
    refine sumBonds_rename (h := h) (h' := g) (φ := φ)
      (dom := fun p => p ∈ Lh ∨ (p.1 ≠ r ∧ p.1 ≠ t ∧ p.1 ≠ m ∧ h.isLeaf p.1 = false)) (Q := fun p => p ∈ Lh)
      ?_ ?_ (E1 ++ E2) ?_ ?_ _ _ ?_
    · intro p q hp hq
      exact hinj p q (hp.imp_right fun a => ⟨a.1, a.2.1, a.2.2.1⟩) (hq.imp_right fun a => ⟨a.1, a.2.1, a.2.2.1⟩)
    · intro τ τ' hτ
      rw [htens, List.map_cons, List.prod_cons]
      have hv : ∀ v, ((h.tensors r (pre.app (.cons i j t sub post))).map (h.entry (setBond (r, i, t, j) v τ))).prod =
          h.entry (setBond (r, i, t, j) v τ) r * h.entry (setBond (r, i, t, j) v τ) t *
          ((G.ids.filter fun c => !(h.isLeaf c)).map (g.entry τ')).prod := by
        intro v
        rw [(htens0.map _).prod_eq, List.map_cons, List.map_cons, List.prod_cons, List.prod_cons, ← mul_assoc]
        congr 1
        congr 1
        refine List.map_congr_left fun u hu => ?_
        simp only [List.mem_filter, Bool.not_eq_true'] at hu
        obtain ⟨o1, o2, o3⟩ := hGr u hu.1
        obtain ⟨D, hD⟩ := ht.full u (hGT u hu.1 hu.2)
        rw [entry_eq hD.array, entry_eq (by rw [(mg.other u o1 o2 o3).1]; exact hD.array)]
        congr 1
        refine List.map_congr_left fun k _ => ?_
        have := (hτ (u, k) (.inr ⟨o1, o2, o3, hu.2⟩)).1
        rw [hφo u k o1 o2] at this
        rw [this, setBond_apply, if_neg]
        simp [o1, o2]
      simp only [hv]
      rw [← Finset.sum_mul]
      congr 1
      rw [entry_eq hC.array]
      have e1 : (List.range C.ndim).map (fun k => τ' (m, k)) = Lh.map τ := by
        rw [hCn]
        refine List.ext_getElem? fun n => ?_
        simp only [List.getElem?_map]
        cases e : Lh[n]? with
        | none =>
          have : Lh.length ≤ n := by simpa using e
          rw [List.getElem?_eq_none (by simpa using this)]; rfl
        | some p =>
          have hn : n < Lh.length := (List.getElem?_eq_some_iff.1 e).1
          rw [List.getElem?_eq_getElem (by simpa using hn), List.getElem_range]
          have := (hτ p (.inl (List.mem_of_getElem? e))).1
          rw [hφL _ _ e] at this
          simp [this]
      rw [e1, mg.entry τ fun p hp => (hτ p (.inl hp)).2 hp]
      rfl
    · intro p hp
      obtain ⟨e, he, q⟩ := mem_halves.1 hp
      obtain ⟨m1, m2⟩ := hmem12 e he
      rcases q with rfl | rfl
      · exact (hsrc e m1).imp_right fun a => ⟨a.1, a.2.1, a.2.2, hsl e m1⟩
      · exact .inr ⟨(hGr _ (htgt e m1)).1, (hGr _ (htgt e m1)).2.1, (hGr _ (htgt e m1)).2.2, m2⟩
    · intro e he
      obtain ⟨m1, m2⟩ := hmem12 e he
      exact ⟨hdimφ _ (hsrc e m1), ht.dims e (mem_bonds.2 ⟨hmemE e m1, m2⟩)⟩
    · intro p hp hpE
      have hinE : p ∈ halves (E1 ++ (r, i, t, j) :: E2) → p = (r, i) ∨ p = (t, j) := by
        intro q
        obtain ⟨e, he, q⟩ := mem_halves.1 q
        simp only [List.mem_append, List.mem_cons] at he
        by_cases he0 : e = (r, i, t, j)
        · subst he0
          rcases q with q | q
          · exact .inl q
          · exact .inr q
        · exact absurd (mem_halves.2 ⟨e, by simp only [List.mem_append]; tauto, q⟩) hpE
      rcases hp with hp | ⟨o1, o2, om, o3⟩
      · refine ⟨by unfold leafAssign; rw [haccφ p hp], fun _ => ?_⟩
        have hpT : p.1 ∈ h.tensors r (pre.app (.cons i j t sub post)) := by
          rcases (hmemL p.1 p.2).1 hp with q | q
          · rw [q.1]; exact hrT
          · rw [q.1]; exact htT
        have hnn : h.acc p.1 p.2 ≠ none := by
          rcases (hmemL p.1 p.2).1 hp with q | q
          · rw [q.1]; exact (hA.acc _).2 q.2.1
          · rw [q.1]; exact (hB.acc _).2 q.2.1
        cases e : h.acc p.1 p.2 with
        | none => exact absurd e hnn
        | some y =>
          obtain ⟨y, l⟩ := y
          have hy : y ∉ h.tensors r (pre.app (.cons i j t sub post)) := by
            intro hy
            have := hinE (hall p.1 hpT p.2 y l e hy)
            rcases (hmemL p.1 p.2).1 hp with q | q <;> rcases this with w | w
            · exact q.2.2 (congrArg Prod.snd w)
            · exact hne.symm (q.1.symm.trans (congrArg Prod.fst w))
            · exact hne (q.1.symm.trans (congrArg Prod.fst w))
            · exact q.2.2 (congrArg Prod.snd w)
          unfold leafAssign
          rw [e]
          exact hx p.1 hpT p.2 y l e hy
      · refine ⟨?_, fun q => ?_⟩
        · rw [hφo p.1 p.2 o1 o2]
          unfold leafAssign
          rw [hacc' p.1 p.2 o1 o2 om]
          cases e : h.acc p.1 p.2 with
          | none => rfl
          | some y =>
            obtain ⟨y, l⟩ := y
            rw [Option.map_some]
            have hno : y ≠ r ∧ y ≠ t := by
              by_contra q
              have hyT : y ∈ h.tensors r (pre.app (.cons i j t sub post)) := by
                by_cases q1 : y = r
                · rw [q1]; exact hrT
                · have : y = t := by tauto
                  rw [this]; exact htT
              have hpT : p.1 ∈ h.tensors r (pre.app (.cons i j t sub post)) := by
                refine mem_tensors.2 ⟨(ht.mem_linked _).2 ?_, o3⟩
                exact ((ht.mem_linked y).1 (mem_tensors.1 hyT).1).tail ⟨l, p.2, ht.links.sym _ _ _ _ e⟩
              rcases hinE (hall p.1 hpT p.2 y l e hyT) with w | w
              · exact o1 (congrArg Prod.fst w)
              · exact o2 (congrArg Prod.fst w)
            rw [hφo y l hno.1 hno.2]
        · exfalso
          rcases (hmemL p.1 p.2).1 q with w | w
          · exact o1 w.1
          · exact o2 w.1

end Heap
