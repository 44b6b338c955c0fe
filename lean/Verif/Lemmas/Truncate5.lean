import Verif.Lemmas.Truncate4

/-!
The state after a truncated `unite_split`, compared with the state before.
-/

open scoped BigOperators

open Py TreeSum

namespace Heap

variable {R : Type} [CommRing R]

/-- The old tree, seen after the move. -/
theorem IsTTN.oldRoot {csvd : Svd R} {op : Option (Operator R)} {h h' : Heap R} {r i fin j mid : ℕ} {F F' : Forest} (ht : h.IsTTN r F)
    (m : MoveSpec csvd op h h' r i fin j mid) (hb : h.acc r i = some (fin, j)) (hl : h.isLeaf fin = false)
    (mv : IsTTN.Moved h h' r i fin j F F') :
    h'.IsTTN r F ∧ h'.tensors r F = h.tensors r F ∧ h'.bonds r F = h.bonds r F ∧ h'.leafList r F = h.leafList r F ∧
      (fin :: F'.ids).Perm (r :: F.ids) := by
  have hn := ht.isNet
  have hlf := ht.isLeaf_eq m
  have hrT : r ∈ h.tensors r F := mem_tensors.2 ⟨.inl rfl, ht.leaf⟩
  have hfT : fin ∈ h.tensors r F := mem_tensors.2 ⟨(ht.mem_linked fin).2 (Relation.ReflTransGen.single ⟨i, j, hb⟩), hl⟩
  have hn' := hn.move m hrT hfT hb
  have htens : h'.tensors r F = h.tensors r F := by
    unfold Heap.tensors
    exact List.filter_congr fun c hc => by rw [hlf c hc]
  have hbd : ∀ e ∈ F.edges r, h'.isLeaf e.2.2.1 = h.isLeaf e.2.2.1 := fun e he =>
    hlf _ (List.mem_cons_of_mem _ (Forest.edges_tgt (x := e.1) (k := e.2.1) (l := e.2.2.2) he))
  have hbonds : h'.bonds r F = h.bonds r F := by
    unfold Heap.bonds
    exact List.filter_congr fun e he => by rw [hbd e he]
  have hT : h'.IsTTN r F := by
    refine ⟨m.links, mv.oldTree, ?_, hn'.lt _ hrT, ?_, ?_, ?_⟩
    · rw [hlf r (by simp)]; exact ht.leaf
    · rw [htens]; exact hn'.full
    · rw [hbonds]; exact hn'.dims
    · rw [htens]; exact hn'.names
  refine ⟨hT, htens, hbonds, ?_, ?_⟩
  · unfold leafList
    rw [List.filter_congr fun e he => hbd e he]
    refine List.map_congr_left fun e he => ?_
    obtain ⟨he1, he2⟩ := List.mem_filter.1 he
    have hlink := (ht.isLink_edge he1).1
    have hsrc := Forest.edges_src_leaf ht.leaf ht.tree.leafEnd (k := e.2.1) (y := e.2.2.1) (l := e.2.2.2) he1
    have hsm : e.1 ∈ h.tensors r F := mem_tensors.2 ⟨(edges_mem he1).1, hsrc⟩
    congr 1
    by_cases h1 : e.1 = r
    · rw [h1]
      refine m.dimsSelf _ fun q => ?_
      rw [h1, q, hb] at hlink
      cases hlink
      rw [hl] at he2; cases he2
    by_cases h2 : e.1 = fin
    · rw [h2]
      refine m.dimsFin _ fun q => ?_
      rw [h2, q, ht.links.sym _ _ _ _ hb] at hlink
      injection hlink with q'
      rw [← congrArg Prod.fst q', ht.leaf] at he2
      cases he2
    have h3 : e.1 ≠ mid := by intro q; exact hn.mid_not_mem m (q ▸ hsm)
    unfold Heap.hdim
    rw [(m.otherAxis _ h1 h2 h3).2]
  · rw [List.perm_ext_iff_of_nodup mv.ttn.tree.nodup hT.tree.nodup]
    intro x
    have e1 := mv.ttn.mem_linked x
    have e2 := hT.mem_linked x
    simp only [List.mem_cons]
    rw [e1, e2]
    have l1 : Linked h' r fin := Relation.ReflTransGen.single ⟨i, j, by rw [m.acc]; exact hb⟩
    have l2 : Linked h' fin r := Relation.ReflTransGen.single ⟨j, i, by rw [m.acc]; exact ht.links.sym _ _ _ _ hb⟩
    exact ⟨fun q => l1.trans q, fun q => l2.trans q⟩

/-- The state after the truncated move: the columns from `k` on of the root of the exactly moved network are set to zero. -/
theorem truncated_amp {ce ct : Svd R} {h hE hT : Heap R} {r i fin j mid mid' : ℕ} {F FE FT : Forest} (ht : h.IsTTN r F)
    (hb : h.acc r i = some (fin, j)) (hl : h.isLeaf fin = false)
    (mE : MoveSpec ce none h hE r i fin j mid) (mT : MoveSpec ct none h hT r i fin j mid')
    (mvE : IsTTN.Moved h hE r i fin j F FE) (mvT : IsTTN.Moved h hT r i fin j F FT)
    {ra ca ra' ca' : Nd R} (aE : hE.array fin = some ra) (bE : hE.array r = some ca) (aT : hT.array fin = some ra')
    (bT : hT.array r = some ca') {d1 d2 : List ℕ} {n k : ℕ} {U V : ℕ → ℕ → R} (hj : j ≤ d1.length) (hi : i ≤ d2.length)
    (fE : Factor ra ca d1 d2 j i n U V) (fT : Factor ra' ca' d1 d2 j i k U V) (hkn : k ≤ n)
    {x : ℕ → ℕ} (hx : h.InRange (h.tensors r F) x) :
    hT.treeAmp fin FT x = (hE.setArray fin (some (cutAxis ra j k))).treeAmp fin FE x := by
  have hn := ht.isNet
  have hrT : r ∈ h.tensors r F := mem_tensors.2 ⟨.inl rfl, ht.leaf⟩
  have hfT : fin ∈ h.tensors r F := mem_tensors.2 ⟨(ht.mem_linked fin).2 (Relation.ReflTransGen.single ⟨i, j, hb⟩), hl⟩
  have hne : r ≠ fin := (hn.simple r hrT i fin j hb hfT).1.symm
  have hnE := hn.move mE hrT hfT hb
  have hnT := hn.move mT hrT hfT hb
  obtain ⟨oE, tE, bdE, -, -⟩ := ht.oldRoot mE hb hl mvE
  have hc := cut_factor (k := k) fE hj
  have hC := oE.setArray (B := cutAxis ra j k) aE hc.wfR rfl
  have hC' := mvE.ttn.setArray (B := cutAxis ra j k) aE hc.wfR rfl
  have hlf : ∀ c, (hE.setArray fin (some (cutAxis ra j k))).isLeaf c = hE.isLeaf c := by
    intro c; unfold Heap.isLeaf; rw [node_setArray]; split <;> rfl
  have e1 : ∀ t G, (hE.setArray fin (some (cutAxis ra j k))).tensors t G = hE.tensors t G := by
    intro t G; unfold Heap.tensors; exact List.filter_congr fun c _ => by rw [hlf]
  have e2 : ∀ t G, (hE.setArray fin (some (cutAxis ra j k))).bonds t G = hE.bonds t G := by
    intro t G; unfold Heap.bonds; exact List.filter_congr fun c _ => by rw [hlf]
  have nC : (hE.setArray fin (some (cutAxis ra j k))).IsNet (h.tensors r F) (h.bonds r F) := by
    have := hC.isNet
    rwa [e1, e2, tE, bdE] at this
  have hdC : ∀ p, (hE.setArray fin (some (cutAxis ra j k))).hdim p = hE.hdim p := fun p => hdim_setArray (B := cutAxis ra j k) aE rfl p
  have aC : (hE.setArray fin (some (cutAxis ra j k))).array fin = some (cutAxis ra j k) := by
    rw [array_setArray, if_pos rfl]
  have bC : (hE.setArray fin (some (cutAxis ra j k))).array r = some ca := by
    rw [array_setArray, if_neg hne]; exact bE
  unfold treeAmp
  rw [hnT.amp_listing mvT.ttn.isNet mvT.tensors, nC.amp_listing hC'.isNet (by rw [e1]; exact mvE.tensors)]
  refine nC.pair_amp hnT (fun c q => by rw [acc_setArray, mT.acc, mE.acc]) hrT hfT (by rw [acc_setArray, mE.acc]; exact hb)
    ?_ ?_ ?_ ?_ ?_
  · intro t ht' h1 h2
    rw [array_setArray, if_neg h2, (mT.otherAxis t h1 h2 (by rintro rfl; exact hn.mid_not_mem mT ht')).2,
      (mE.otherAxis t h1 h2 (by rintro rfl; exact hn.mid_not_mem mE ht')).2]
  · intro q hq; rw [hdC, mT.dimsSelf q hq, mE.dimsSelf q hq]
  · intro q hq; rw [hdC, mT.dimsFin q hq, mE.dimsFin q hq]
  · intro σ s1 s2
    have n1 : (cutAxis ra j k).ndim = d1.length + 1 := by unfold Nd.ndim; rw [hc.shapeR, List.length_insertIdx_of_le_length hj]
    have n2 : ca.ndim = d2.length + 1 := by unfold Nd.ndim; rw [fE.shapeC, List.length_insertIdx_of_le_length hi]
    obtain ⟨A1, q1⟩ := nC.full fin hfT
    obtain ⟨A2, q2⟩ := nC.full r hrT
    have q1' := q1.array; rw [aC] at q1'; cases q1'
    have q2' := q2.array; rw [bC] at q2'; cases q2'
    have v1 := valid_rest aC hc.shapeR hj (σ := σ) (fun q h1 h2 => s2 q h1 ((q1.acc q).2 (by omega)))
    have v2 := valid_rest bC fE.shapeC hi (σ := σ) (fun q h1 h2 => s1 q h1 ((q2.acc q).2 (by omega)))
    rw [fT.pairSum hne aT bT hj hi v1 v2, hc.pairSum hne aC bC hj hi v1 v2]
    rw [← Finset.sum_subset (Finset.range_subset_range.2 hkn) (by
      intro z _ hz
      have hz' : ¬ z < k := fun q => hz (Finset.mem_range.2 q)
      rw [if_neg hz', mul_zero])]
    refine Finset.sum_congr rfl fun z hz => ?_
    rw [if_pos (Finset.mem_range.1 hz)]
  · intro t ht' q l s e hl'
    rw [acc_setArray] at e
    rw [hdC]
    exact (hn.move_inRange mE hrT hfT hb).2 hx t ht' q l s e hl'

end Heap
