import Verif.Lemmas.PairRank

/-! The states a tensor gives after a pair was split, and those of the pair; for C134. -/

open scoped BigOperators
open Py

namespace Heap

variable {R : Type} [Field R] [StarRing R]

theorem isLeaf_setArray' (g : Heap R) (m : ℕ) (Y : Option (Nd R)) (c : ℕ) : (g.setArray m Y).isLeaf c = g.isLeaf c := by
  unfold Heap.isLeaf; rw [node_setArray]; split <;> rfl

/-- Whatever array of the right shape the second tensor has, the state is that of the pair with another array. -/
theorem MidUnite.absorb {csvd : Svd R} (hsv : SvdShape csvd) {op : Option (Operator R)} {h h1 h2 h3 : Heap R} {t i fin j mid : ℕ} {A B : Nd R} {F F1 F3 : Forest}
    (m : h.MidUnite h1 t i fin j mid A.ndim B.ndim) (ht : h.IsTTN t F) (mt : h1.IsTTN mid F1) (hA : h.Full t A) (hB : h.Full fin B)
    (hb : h.acc t i = some (fin, j)) (hl : h.isLeaf fin = false) (g : h1.GoodChange h2 mid) (mv : h.MoveSpec csvd op h3 t i fin j mid)
    (t3 : h3.IsTTN fin F3) (r3 : h3.Rooted fin F3) (p3 : h3.PlainNames (h3.tensors fin F3)) {M Y B3 : Nd R} (hM : h2.array mid = some M) (hY : Y.Wf)
    (hB3 : h3.array fin = some B3) (hYs : Y.shape = B3.shape) :
    ∃ Z : Nd R, Z.Wf ∧ Z.shape = M.shape ∧ ∀ x : ℕ → ℕ, (∀ p ∈ h2.leafList mid F1, x p.1 < p.2) →
      (h3.setArray fin (some Y)).treeAmp fin F3 x = (h2.setArray mid (some Z)).treeAmp mid F1 x := by
  have t2 := Sweep.ttn_change mt g
  have hbs := ht.links.sym _ _ _ _ hb
  have hin : i < A.ndim := (hA.acc i).1 (by rw [hb]; simp)
  have hjn : j < B.ndim := (hB.acc j).1 (by rw [hbs]; simp)
  obtain ⟨b1, b2⟩ := ht.links.lt hb
  have htm : t ≠ mid := by have := m.fresh; omega
  have hfm : fin ≠ mid := by have := m.fresh; omega
  set g3 := h3.setArray fin (some Y) with hg3
  have s3 : g3.IsTTN fin F3 := t3.setArray hB3 hY hYs
  have accg : ∀ c k, g3.acc c k = h.acc c k := fun c k => by rw [hg3, acc_setArray]; exact mv.acc c k
  have lfg : ∀ c, c ≠ mid → g3.isLeaf c = h.isLeaf c := fun c hc => by
    rw [hg3, isLeaf_setArray']; exact (mv.other c hc).2.1
  have hdg : ∀ p, g3.hdim p = h3.hdim p := fun p => by rw [hg3]; exact hdim_setArray' hB3 hYs p
  have bg : g3.acc t i = some (fin, j) := by rw [accg]; exact hb
  have lg : g3.isLeaf fin = false := by rw [lfg fin hfm]; exact hl
  have ltg : g3.isLeaf t = false := by rw [lfg t htm]; exact ht.leaf
  have htT : t ∈ g3.tensors fin F3 := mem_tensors.2 ⟨(s3.mem_linked t).2 (Relation.ReflTransGen.single ⟨j, i, s3.links.sym _ _ _ _ bg⟩), ltg⟩
  have hfT : fin ∈ g3.tensors fin F3 := mem_tensors.2 ⟨.inl rfl, lg⟩
  obtain ⟨F3', f1, f2⟩ := s3.reroot htT
  obtain ⟨A3, hA3⟩ := s3.full t htT
  obtain ⟨B3', hB3'⟩ := s3.full fin hfT
  have nA := hA.ndim_same hA3 (accg t)
  have nB := hB.ndim_same hB3' (accg fin)
  have hn := s3.isNet
  obtain ⟨n1, hn1⟩ := hn.names t htT
  obtain ⟨n2, hn2⟩ := hn.names fin hfT
  have tens : ∀ c, c ∈ g3.tensors fin F3 → c ∈ h3.tensors fin F3 := fun c hc => by
    obtain ⟨q1, q2⟩ := mem_tensors.1 hc
    exact mem_tensors.2 ⟨q1, by rw [← q2, hg3, isLeaf_setArray']⟩
  have nameg : ∀ c, (g3.node c).name = (h3.node c).name := fun c => by rw [hg3, node_setArray]; split <;> simp_all
  have hp1 := p3 t (tens t htT) n1 (by rw [← nameg]; exact hn1)
  have hp2 := p3 fin (tens fin hfT) n2 (by rw [← nameg]; exact hn2)
  obtain ⟨q1, q2⟩ := hn.simple t htT i fin j bg hfT
  have hax : (g3.node fin).axis = none := by
    have := r3.1
    rw [hg3, node_setArray]; simpa using this
  obtain ⟨h4, mid', -, m4, -⟩ := uniteSplit_steps hsv hn.links hA3 hB3' bg q1.symm
    (fun k l e => (hn.simple t htT k t l e htT).1 rfl) (fun k l e => (hn.simple fin hfT k fin l e hfT).1 rfl)
    (fun k l e => q2 k l e) (.inr hax)
    (by
      rcases hn.mem_bond htT hfT bg with q | q
      · exact hn.dims _ q
      · exact (hn.dims _ q).symm) hn1 hp1 hn2 hp2 true
  obtain ⟨Z, hZ, hZn⟩ := m4.fullMid
  rw [nA, nB] at m4 hZn
  have hdim : ∀ p ∈ uniteLabels t i A.ndim fin j B.ndim, g3.hdim p = h.hdim p := by
    rintro ⟨x, k⟩ hp
    rw [hdg]
    rcases (mem_uniteLabels hin hjn).1 hp with ⟨rfl, -, q⟩ | ⟨rfl, -, q⟩
    · exact mv.dimsSelf k q
    · exact mv.dimsFin k q
  obtain ⟨C, hC, hCn⟩ := m.fullMid
  obtain ⟨C', c1, c2, c3⟩ := g.array C hC.array
  obtain rfl : M = C' := Option.some.inj (hM.symm.trans c1)
  have hZs : Z.shape = M.shape := by
    rw [c3]
    have hl1 : Z.shape.length = (uniteLabels t i A.ndim fin j B.ndim).length := hZn
    have hl2 : C.shape.length = (uniteLabels t i A.ndim fin j B.ndim).length := hCn
    refine List.ext_getElem (by omega) fun k k1 k2 => ?_
    have e1 := m4.dimsMid k _ (List.getElem?_eq_getElem (by omega))
    have e2 := m.dimsMid k _ (List.getElem?_eq_getElem (by omega))
    rw [hdim _ (List.getElem_mem _), ← e2, hZ.hdim_eq, hC.hdim_eq, List.getD_eq_getElem _ _ k1, List.getD_eq_getElem _ _ k2] at e1
    exact e1
  have s2 : (h2.setArray mid (some Z)).IsTTN mid F1 := t2.setArray hM hZ.wf hZs
  have acc2 : ∀ c k, (h2.setArray mid (some Z)).acc c k = h1.acc c k := fun c k => by rw [acc_setArray]; exact SplitProp.GoodChange.acc g c k
  have fullZ : (h2.setArray mid (some Z)).Full mid Z := by
    obtain ⟨D, hD⟩ := s2.full mid (mem_tensors.2 ⟨.inl rfl, s2.leaf⟩)
    have := hD.array
    rw [array_setArray, if_pos rfl] at this
    cases this
    exact hD
  have mg : Merge g3 (h2.setArray mid (some Z)) t i fin j mid A3.ndim B3'.ndim Z := by
    rw [nA, nB]
    refine ⟨s2.links, fullZ, hZn, ?_, ?_, ?_, ?_, ?_⟩
    · intro n p hp
      rw [acc2, accg]; exact m.accMid n p hp
    · intro x k q1 q2 q3 hx
      rw [acc2, accg]
      exact m.accOther x k q1 q2 q3 fun l => by rw [← accg]; exact hx l
    · intro n p hp
      rw [← m4.dimsMid n p hp, hZ.hdim_eq, fullZ.hdim_eq]
    · intro c q1 q2 q3
      constructor
      · rw [array_setArray, if_neg q3, hg3, array_setArray, if_neg q2, (mv.otherAxis c q1 q2 q3).2, g.other c q3]; exact (core_eq (m.other c q3)).2.2.1
      · rw [isLeaf_setArray', lfg c q3, SplitProp.GoodChange.isLeaf g]; exact (core_eq (m.other c q3)).2.2.2.2.2.2
    · intro σ hσ
      exact m4.entry Z hZ.array σ hσ
  have hm : mid ∉ t :: F3'.ids := by
    intro q
    rcases List.mem_cons.1 q with q | q
    · exact htm q.symm
    · rcases Relation.ReflTransGen.cases_tail ((f1.mem_linked mid).1 (.inr q)) with q | ⟨c, -, k, l, e⟩
      · exact htm q.symm
      · rw [accg] at e
        have := (ht.links.lt e).2
        have := m.fresh
        omega
  obtain ⟨e1, e2⟩ := mg.state f1 s2 hm hA3 hB3' bg lg
  refine ⟨Z, hZ.wf, hZs, fun x hx => ?_⟩
  have hl2 : (h2.setArray mid (some Z)).leafList mid F1 = h2.leafList mid F1 := by
    unfold leafList
    simp only [isLeaf_setArray']
    exact List.map_congr_left fun e _ => by rw [hdim_setArray' hM hZs]
  rw [e2 x (f1.inRange (by rw [← e1, hl2]; exact hx)), treeAmp_reroot s3 f1 f2]

end Heap
