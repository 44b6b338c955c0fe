import Verif.Lemmas.Conserve

/-! Uniting the tensor in the middle of a bond with one of its neighbours, for several arrays of the tensor in the middle; for C134. -/

open scoped BigOperators
open Py

namespace Heap

variable {R : Type} [CommRing R] [StarRing R]

/-- What `unite` does to the links and the shapes. -/
theorem unite_at {h h' : Heap R} {r : ℕ} {F : Forest} (ht : h.IsTTN r F) {i t j : ℕ}
    (hax : (h.node r).axis = none ∨ (h.node t).axis = none) (hb : h.acc r i = some (t, j)) (hl : h.isLeaf t = false) {nr : Bool}
    {A B : Nd R} (hA : h.Full r A) (hB : h.Full t B) (e : h.unite r i (some r) nr = .ok (h', r)) :
    h'.LinkInv ∧ ∃ C, h'.Full r C ∧ C.shape = (uniteLabels r i A.ndim t j B.ndim).map h.hdim ∧
      (∀ n p, (uniteLabels r i A.ndim t j B.ndim)[n]? = some p → h'.acc r n = h.acc p.1 p.2) ∧
      (∀ x k, x ≠ r → x ≠ t → (∀ l, h.acc x k ≠ some (r, l) ∧ h.acc x k ≠ some (t, l)) → h'.acc x k = h.acc x k) ∧
      (∀ k, h'.acc t k = none) ∧ (∀ c, c ≠ r → h'.array c = h.array c) ∧ ∀ c, h'.isLeaf c = h.isLeaf c := by
  have hrT : r ∈ h.tensors r F := mem_tensors.2 ⟨.inl rfl, ht.leaf⟩
  have htT : t ∈ h.tensors r F := mem_tensors.2 ⟨(ht.mem_linked t).2 (Relation.ReflTransGen.single ⟨i, j, hb⟩), hl⟩
  have hnet := ht.isNet
  obtain ⟨hne, hone⟩ := hnet.simple r hrT i t j hb htT
  have hself : ∀ s ∈ h.tensors r F, ∀ k l, h.acc s k ≠ some (s, l) :=
    fun s hs k l e => (hnet.simple s hs k s l e hs).1 rfl
  obtain ⟨n1, hn1⟩ := ht.names r hrT
  obtain ⟨n2, hn2⟩ := ht.names t htT
  have hname : ∃ nm, uniteName (h.node r).name (h.node t).name = .ok nm := by
    rw [hn1, hn2]; unfold uniteName; dsimp only
    split
    · exact ⟨_, rfl⟩
    · split <;> exact ⟨_, rfl⟩
  obtain ⟨nm, hname⟩ := hname
  have hdim0 : h.hdim (r, i) = h.hdim (t, j) := by
    rcases hnet.mem_bond hrT htT hb with q | q
    · exact hnet.dims _ q
    · exact (hnet.dims _ q).symm
  obtain ⟨h'', r', C, hun, hinv, hC, hlab, hacc, hfar, hold, hcore, haxis, -, hroot⟩ :=
    unite_full (nrm := nr) (root := some r) ht.links hA hB hb hne.symm (hself r hrT) (hself t htT)
      (fun k l e => hone k l e) hax hdim0 hname
      (fun x hx => by cases hx; exact ⟨ht.lt, .inl (by simp)⟩) (fun x hx => by cases hx; exact ht.leaf)
  obtain ⟨rfl, hnext, hleafr, hnamer, -, -⟩ := hroot r rfl
  rw [e] at hun
  simp only [Except.ok.injEq, Prod.mk.injEq, and_true] at hun
  subst hun
  refine ⟨hinv, C, hC, hlab.shape, hacc, fun x k h1 h2 h3 => hfar x k h1 h2 h1 h3, fun k => hold t (by simp) hne k,
    fun c hc => (core_eq (hcore c hc)).2.2.1, fun c => ?_⟩
  by_cases hc : c = r'
  · subst hc; exact hleafr
  · exact (core_eq (hcore c hc)).2.2.2.2.2.2

/-- The links after `unite`, and the shape of the result, do not depend on the arrays. -/
theorem unite_same {h h' g g' : Heap R} {r : ℕ} {F G : Forest} (ht : h.IsTTN r F) (tg : g.IsTTN r G) {i t j : ℕ}
    (hax : (h.node r).axis = none ∨ (h.node t).axis = none) (gax : (g.node r).axis = none ∨ (g.node t).axis = none)
    (hb : h.acc r i = some (t, j)) (hl : h.isLeaf t = false) {nr nr' : Bool}
    (hacc : ∀ c k, g.acc c k = h.acc c k) (hlf : ∀ c, g.isLeaf c = h.isLeaf c)
    (hd : ∀ p, g.hdim p = h.hdim p)
    (e : h.unite r i (some r) nr = .ok (h', r)) (eg : g.unite r i (some r) nr' = .ok (g', r)) :
    (∀ c k, g'.acc c k = h'.acc c k) ∧ (∀ c, g'.isLeaf c = h'.isLeaf c) ∧
      (∀ c, c ≠ r → h'.array c = h.array c ∧ g'.array c = g.array c) ∧
      ∃ C D, h'.Full r C ∧ g'.Full r D ∧ D.shape = C.shape := by
  have hrT : r ∈ h.tensors r F := mem_tensors.2 ⟨.inl rfl, ht.leaf⟩
  have htT : t ∈ h.tensors r F := mem_tensors.2 ⟨(ht.mem_linked t).2 (Relation.ReflTransGen.single ⟨i, j, hb⟩), hl⟩
  have gb : g.acc r i = some (t, j) := by rw [hacc]; exact hb
  have gl : g.isLeaf t = false := by rw [hlf]; exact hl
  have grT : r ∈ g.tensors r G := mem_tensors.2 ⟨.inl rfl, tg.leaf⟩
  have gtT : t ∈ g.tensors r G := mem_tensors.2 ⟨(tg.mem_linked t).2 (Relation.ReflTransGen.single ⟨i, j, gb⟩), gl⟩
  obtain ⟨A, hA⟩ := ht.full r hrT
  obtain ⟨B, hB⟩ := ht.full t htT
  obtain ⟨A2, gA⟩ := tg.full r grT
  obtain ⟨B2, gB⟩ := tg.full t gtT
  have nd : ∀ {x : ℕ} {X Y : Nd R}, h.Full x X → g.Full x Y → Y.ndim = X.ndim := by
    intro x X Y q1 q2
    rcases Nat.lt_trichotomy Y.ndim X.ndim with q | q | q
    · have := (q1.acc Y.ndim).2 q
      rw [← hacc] at this
      have := (q2.acc _).1 this
      omega
    · exact q
    · have := (q2.acc X.ndim).2 q
      rw [hacc] at this
      have := (q1.acc _).1 this
      omega
  obtain ⟨i1, C, f1, s1, a1, b1, c1, d1, l1⟩ := unite_at ht hax hb hl hA hB e
  obtain ⟨i2, D, f2, s2, a2, b2, c2, d2, l2⟩ := unite_at tg gax gb gl gA gB eg
  rw [nd hA gA, nd hB gB] at s2 a2
  have hs : D.shape = C.shape := by
    rw [s1, s2]; exact List.map_congr_left fun p _ => hd p
  have hin : i < A.ndim := (hA.acc i).1 (by rw [hb]; simp)
  have hjn : j < B.ndim := (hB.acc j).1 (by rw [ht.links.sym _ _ _ _ hb]; simp)
  have hne := (ht.isNet.simple r hrT i t j hb htT).1
  have key : ∀ k, g'.acc r k = h'.acc r k := by
    intro k
    by_cases hk : k < (uniteLabels r i A.ndim t j B.ndim).length
    · rw [a1 k _ (List.getElem?_eq_getElem hk), a2 k _ (List.getElem?_eq_getElem hk), hacc]
    · have hC : ¬ k < C.ndim := by unfold Nd.ndim; rw [s1]; simpa using hk
      have hD : ¬ k < D.ndim := by unfold Nd.ndim; rw [s2]; simpa using hk
      have q1 : h'.acc r k = none := by by_contra q; exact hC ((f1.acc k).1 q)
      have q2 : g'.acc r k = none := by by_contra q; exact hD ((f2.acc k).1 q)
      rw [q1, q2]
  refine ⟨fun c k => ?_, fun c => by rw [l1, l2, hlf], fun c hc => ⟨d1 c hc, d2 c hc⟩, C, D, f1, f2, hs⟩
  by_cases hcr : c = r
  · subst hcr; exact key k
  by_cases hct : c = t
  · subst hct; rw [c1, c2]
  by_cases q : ∀ l, h.acc c k ≠ some (r, l) ∧ h.acc c k ≠ some (t, l)
  · rw [b1 c k hcr hct q, b2 c k hcr hct (by simpa only [hacc] using q), hacc]
  · have hp : ∃ p, p ∈ uniteLabels r i A.ndim t j B.ndim ∧ h.acc p.1 p.2 = some (c, k) := by
      push Not at q
      obtain ⟨l, q⟩ := q
      by_cases q1 : h.acc c k = some (r, l)
      · have q2 := ht.links.sym _ _ _ _ q1
        refine ⟨(r, l), (mem_uniteLabels hin hjn).2 (.inl ⟨rfl, (hA.acc l).1 (by rw [q2]; simp), ?_⟩), q2⟩
        rintro rfl
        rw [hb] at q2; cases q2; exact hct rfl
      · have q1 := q q1
        have q2 := ht.links.sym _ _ _ _ q1
        refine ⟨(t, l), (mem_uniteLabels hin hjn).2 (.inr ⟨rfl, (hB.acc l).1 (by rw [q2]; simp), ?_⟩), q2⟩
        rintro rfl
        rw [ht.links.sym _ _ _ _ hb] at q2; cases q2; exact hcr rfl
    obtain ⟨p, hp1, hp2⟩ := hp
    obtain ⟨n, hn⟩ := List.mem_iff_getElem?.1 hp1
    have e1 := i1.sym _ _ _ _ ((a1 n p hn).trans hp2)
    have e2 := i2.sym _ _ _ _ ((a2 n p hn).trans ((hacc _ _).trans hp2))
    rw [e1, e2]

theorem hdim_setArray' {g : Heap R} {m : ℕ} {M Y : Nd R} (hM : g.array m = some M) (hYs : Y.shape = M.shape) (p : ℕ × ℕ) :
    (g.setArray m (some Y)).hdim p = g.hdim p := by
  unfold hdim
  rw [array_setArray]
  by_cases q : p.1 = m
  · rw [if_pos q, q, hM]
    simp only [hYs]
  · rw [if_neg q]

/-- **Absorbing.** Whatever array of the right shape the middle tensor has, the state is that of the united network with another array at the united tensor. -/
theorem absorb {g g' : Heap R} {mid b kb jb : ℕ} {F1 F' : Forest} (tg : g.IsTTN mid F1) (hax : (g.node mid).axis = none)
    (hb : g.acc mid kb = some (b, jb)) (hl : g.isLeaf b = false) {nr : Bool} (e : g.unite b jb (some b) nr = .ok (g', b))
    (t' : g'.IsTTN b F') {M Y B' : Nd R} (hM : g.array mid = some M) (hY : Y.Wf) (hYs : Y.shape = M.shape) (hB' : g'.array b = some B') :
    ∃ Z : Nd R, Z.Wf ∧ Z.shape = B'.shape ∧ ∀ x : ℕ → ℕ, (∀ p ∈ g.leafList mid F1, x p.1 < p.2) →
      (g.setArray mid (some Y)).treeAmp mid F1 x = (g'.setArray b (some Z)).treeAmp b F' x := by
  set gY := g.setArray mid (some Y) with hgY
  have tY : gY.IsTTN mid F1 := tg.setArray hM hY hYs
  have hmb : b ≠ mid := by
    have hmT : mid ∈ g.tensors mid F1 := mem_tensors.2 ⟨.inl rfl, tg.leaf⟩
    have hbT : b ∈ g.tensors mid F1 := mem_tensors.2 ⟨(tg.mem_linked b).2 (Relation.ReflTransGen.single ⟨kb, jb, hb⟩), hl⟩
    exact (tg.isNet.simple mid hmT kb b jb hb hbT).1
  have haccY : ∀ c k, gY.acc c k = g.acc c k := fun c k => acc_setArray ..
  have hlfY : ∀ c, gY.isLeaf c = g.isLeaf c := fun c => by
    rw [hgY]; unfold Heap.isLeaf; rw [node_setArray]; split <;> rfl
  have haxY : (gY.node mid).axis = none := by rw [hgY, node_setArray]; simpa using hax
  have hbT : b ∈ g.tensors mid F1 := mem_tensors.2 ⟨(tg.mem_linked b).2 (Relation.ReflTransGen.single ⟨kb, jb, hb⟩), hl⟩
  have hbTY : b ∈ gY.tensors mid F1 :=
    mem_tensors.2 ⟨(tY.mem_linked b).2 (Relation.ReflTransGen.single ⟨kb, jb, by rw [haccY]; exact hb⟩), by rw [hlfY]; exact hl⟩
  obtain ⟨F2, f1, f2⟩ := tg.reroot hbT
  obtain ⟨G2, k1, k2⟩ := tY.reroot hbTY
  have bs := tg.links.sym _ _ _ _ hb
  obtain ⟨g2, G', u1, u2, -, -, u3, -, -, -, -, u7⟩ := k1.uniteEnd (.inr haxY) (i := jb) (t := mid) (j := kb) (by rw [haccY]; exact bs) tY.leaf nr
  obtain ⟨s1, s2, s3, C, D, s4, s5, s6⟩ := unite_same f1 k1 (.inr hax) (.inr haxY) bs tg.leaf haccY hlfY (hdim_setArray' hM hYs) e u1
  obtain rfl : B' = C := Option.some.inj (hB'.symm.trans s4.array)
  refine ⟨D, s5.wf, s6, fun x hx => ?_⟩
  have hxY : ∀ p ∈ gY.leafList mid F1, x p.1 < p.2 := by
    have : gY.leafList mid F1 = g.leafList mid F1 := by
      unfold leafList
      simp only [hlfY]
      exact List.map_congr_left fun e _ => by rw [hdim_setArray' hM hYs]
    rw [this]; exact hx
  rw [← treeAmp_reroot tY k1 k2, ← (u7 x (k1.inRange fun p hp => hxY p ((leafList_perm tY k1 k2).mem_iff.1 hp))).2]
  have hl2 : ∀ c, (g'.setArray b (some D)).isLeaf c = g'.isLeaf c := fun c => by
    unfold Heap.isLeaf; rw [node_setArray]; split <;> rfl
  have tree2 : IsTree g2 b none F' := t'.tree.congr t'.links.wf u2.links.wf s1 fun c _ => s2 c
  obtain rfl := u2.tree.unique tree2
  refine treeAmp_congr_ids (h := g'.setArray b (some D)) (h' := g2) (t'.setArray hB' s5.wf s6) (fun t ht => ?_)
    (fun t k => by rw [acc_setArray]; exact s1 t k) (fun t _ => by rw [hl2]; exact s2 t) x
  rw [array_setArray]
  split
  · rename_i q; rw [q]; exact s5.array
  · rename_i q
    rw [(s3 t q).2, (s3 t q).1, hgY, array_setArray, if_neg ?_]
    rintro rfl
    have h1 := (mem_tensors.1 ht).1
    rcases h1 with h1 | h1
    · exact hmb h1.symm
    · have hno : ∀ k, g'.acc t k = none := by
        obtain ⟨A, hA⟩ := f1.full b (mem_tensors.2 ⟨.inl rfl, hl⟩)
        obtain ⟨B, hB⟩ := f1.full t (mem_tensors.2 ⟨(f1.mem_linked t).2 (Relation.ReflTransGen.single ⟨jb, kb, bs⟩), tg.leaf⟩)
        exact (unite_at f1 (.inr hax) bs tg.leaf hA hB e).2.choose_spec.2.2.2.2.1
      rw [← edges_targets G' b] at h1
      obtain ⟨e', he', rfl⟩ := List.mem_map.1 h1
      have := (t'.isLink_edge he').2
      rw [hno] at this; cases this

end Heap
