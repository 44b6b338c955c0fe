import Verif.Lemmas.SplitProp2
import Verif.Lemmas.Contraction
import Verif.Lemmas.Eom3
import Verif.Lemmas.Dirac
import Verif.Props.C09

/-! Helper lemmas for C127: the state of the network in the middle of a move. -/

open Py

namespace Heap

variable {R : Type} [CommRing R] [StarRing R]

/-- Only the tree matters. -/
theorem treeAmp_congr_ids {h h' : Heap R} {r : ℕ} {F : Forest} (ht : h.IsTTN r F)
    (ha : ∀ t ∈ h.tensors r F, h'.array t = h.array t) (hc : ∀ t k, h'.acc t k = h.acc t k)
    (hl : ∀ t ∈ r :: F.ids, h'.isLeaf t = h.isLeaf t) (x : ℕ → ℕ) :
    h'.treeAmp r F x = h.treeAmp r F x := by
  have e3 : h'.leafAssign x = h.leafAssign x := funext fun p => by unfold leafAssign; rw [hc]
  have e4 : h'.tensors r F = h.tensors r F := List.filter_congr fun t h1 => by rw [hl t h1]
  have e5 : h'.bonds r F = h.bonds r F := List.filter_congr fun e he => by
    rw [hl _ (List.mem_cons_of_mem _ (TreeSum.edges_mem he).2)]
  unfold treeAmp amp
  rw [e3, e4, e5]
  have key : ∀ E, (∀ e ∈ E, e ∈ h.bonds r F) → ∀ σ, sumBonds h' E (fun σ => ((h.tensors r F).map (h'.entry σ)).prod) σ =
      sumBonds h E (fun σ => ((h.tensors r F).map (h.entry σ)).prod) σ := by
    intro E
    induction E with
    | nil =>
      intro _ σ
      simp only [sumBonds]
      exact congrArg List.prod (List.map_congr_left fun t ht' => by unfold entry; rw [ha t ht'])
    | cons e E ih =>
      intro hE σ
      simp only [sumBonds]
      have : h'.hdim (e.1, e.2.1) = h.hdim (e.1, e.2.1) := by
        unfold hdim
        simp only
        rw [ha _ (ht.isNet.isLink e (hE e (by simp))).2.1]
      rw [this]
      exact Finset.sum_congr rfl fun v _ => ih (fun e' he' => hE e' (by simp [he'])) _
  exact key _ (fun _ h => h) _

/-- The network with the array split off, seen from the middle, has the state of the network before. -/
theorem split_state {csvd : Svd R} (hsv : SvdShape csvd) (hex : SvdExact csvd) {h h1 : Heap R} {r i fin j mid : ℕ} {F F1 : Forest} {nr : Bool}
    (ht : h.IsTTN r F) (hr : h.Rooted r F) (hb : h.acc r i = some (fin, j)) (hl : h.isLeaf fin = false)
    (hp : h.PlainNames (h.tensors r F)) (m : h.MidSplit csvd h1 r i fin j mid) (mt : h1.IsTTN mid F1)
    (e : h.split csvd r (.one i) none none (some r) nr = .ok (h1, mid, r)) :
    (h1.leafList mid F1).Perm (h.leafList r F) ∧
      ∀ x : ℕ → ℕ, (∀ p ∈ h.leafList r F, x p.1 < p.2) → h1.treeAmp mid F1 x = h.treeAmp r F x := by
  have hrT : r ∈ h.tensors r F := mem_tensors.2 ⟨.inl rfl, ht.leaf⟩
  have hn := ht.isNet
  obtain ⟨A, hA⟩ := hn.full r hrT
  obtain ⟨n1, hn1⟩ := hn.names r hrT
  have hin : i < A.ndim := (hA.acc i).1 (by rw [hb]; simp)
  have hlt := ht.lt
  have hfr := m.fresh
  obtain ⟨h1', mid', h2, e1, e2, a1, a2, -⟩ := C09_in_place hsv hex ht.links hA
    (fun k l q => (hn.simple r hrT k r l q hrT).1 rfl) ht.lt hr.1 (splitNames_ok hn1 (hp _ hrT n1 hn1)) hin nr nr
  rw [e] at e1
  simp only [Except.ok.injEq, Prod.mk.injEq] at e1
  obtain ⟨rfl, rfl, -⟩ := e1
  have hmr : mid ≠ r := by omega
  have hrT1 : r ∈ h1.tensors mid F1 := by
    refine mem_tensors.2 ⟨(mt.mem_linked r).2 ?_, by rw [m.self.2.1]; exact ht.leaf⟩
    exact Relation.ReflTransGen.single ⟨0, i, by rw [m.accMid]; rfl⟩
  obtain ⟨F1', t1, p1⟩ := mt.reroot hrT1
  obtain ⟨h2', F2, u1, u2, -, -, u3, u4, u5, u6, -, u7⟩ := t1.uniteEnd (.inr m.axis) (i := i) (t := mid) (j := 0)
    (by rw [m.accSelf, if_pos rfl]) mt.leaf nr
  rw [e2] at u1
  simp only [Except.ok.injEq, Prod.mk.injEq, and_true] at u1
  subst u1
  have harr : ∀ c, c ≠ mid → h2.array c = h.array c := by
    intro c hc
    by_cases hcr : c = r
    · subst hcr; rw [a1, hA.array]
    · exact ((core_eq (u5 c hcr).1).2.2.1).trans (core_eq (m.other c hcr hc)).2.2.1
  have hlf : ∀ c, c ≠ mid → h2.isLeaf c = h.isLeaf c := by
    intro c hc
    rw [u4]
    by_cases hcr : c = r
    · subst hcr; exact m.self.2.1
    · exact (core_eq (m.other c hcr hc)).2.2.2.2.2.2
  have hacc : ∀ c k, h2.acc c k = h.acc c k := by
    intro c k
    by_cases hc : c < h.next
    · exact a2 c k hc
    · have h0 : h.acc c k = none := by
        cases q : h.acc c k with
        | none => rfl
        | some y => exact absurd (ht.links.lt (b := y.1) (j := y.2) q).1 hc
      rw [h0]
      by_cases hcm : c = mid
      · rw [hcm]; exact u6 k
      · have hcr : c ≠ r := by omega
        have hcf : c ≠ fin := by have := (ht.links.lt hb).2; omega
        exact (u5 c hcr).2 k (by rw [m.accOther c k hcr hcf hcm]; exact h0)
  have hids : ∀ c ∈ r :: F.ids, c ≠ mid := fun c hc => by have := ht.ids_lt hc; omega
  have tree2 : IsTree h2 r none F := ht.tree.congr ht.links.wf u2.links.wf hacc fun c hc => hlf c (hids c hc)
  obtain rfl := u2.tree.unique tree2
  have pl := leafList_perm mt t1 p1
  have hll : h2.leafList r F2 = h.leafList r F2 := by
    unfold leafList
    have : (F2.edges r).filter (fun e => h2.isLeaf e.2.2.1) = (F2.edges r).filter fun e => h.isLeaf e.2.2.1 :=
      List.filter_congr fun e he => hlf _ (hids _ (List.mem_cons_of_mem _ (TreeSum.edges_mem he).2))
    rw [this]
    refine List.map_congr_left fun e he => ?_
    have := harr e.1 (hids _ (List.mem_cons.2 (TreeSum.edges_mem (List.mem_of_mem_filter he)).1))
    unfold hdim
    simp only [this]
  refine ⟨pl.symm.trans (by rw [← u3, hll]), fun x hx => ?_⟩
  rw [← treeAmp_reroot mt t1 p1, ← (u7 x (t1.inRange (by rw [← u3, hll]; exact hx))).2]
  exact treeAmp_congr_ids ht (fun t h1 => harr t (hids t (List.mem_cons.2 (mem_tensors.1 h1).1))) hacc (fun t h1 => hlf t (hids t h1)) x

/-- The network after the middle tensor was united with the next one has the state it had before. -/
theorem unite_state {h2 h3 : Heap R} {fin j mid k : ℕ} {F1 F3 : Forest} {nr : Bool}
    (t2 : h2.IsTTN mid F1) (hax : (h2.node mid).axis = none) (hb : h2.acc mid k = some (fin, j)) (hl : h2.isLeaf fin = false)
    (t3 : h3.IsTTN fin F3) (e : h2.unite fin j (some fin) nr = .ok (h3, fin)) :
    (h3.leafList fin F3).Perm (h2.leafList mid F1) ∧
      ∀ x : ℕ → ℕ, (∀ p ∈ h2.leafList mid F1, x p.1 < p.2) → h3.treeAmp fin F3 x = h2.treeAmp mid F1 x := by
  have hfT : fin ∈ h2.tensors mid F1 := by
    refine mem_tensors.2 ⟨(t2.mem_linked fin).2 ?_, hl⟩
    exact Relation.ReflTransGen.single ⟨k, j, hb⟩
  obtain ⟨F2, f1, f2⟩ := t2.reroot hfT
  obtain ⟨h3', F', u1, u2, -, -, u3, -, -, -, -, u7⟩ := f1.uniteEnd (.inr hax) (t2.links.sym _ _ _ _ hb) t2.leaf nr
  rw [e] at u1
  simp only [Except.ok.injEq, Prod.mk.injEq, and_true] at u1
  subst u1
  obtain rfl := t3.tree.unique u2.tree
  refine ⟨by rw [u3]; exact leafList_perm t2 f1 f2, fun x hx => ?_⟩
  rw [(u7 x (f1.inRange fun p hp => hx p ((leafList_perm t2 f1 f2).mem_iff.1 hp))).2, treeAmp_reroot t2 f1 f2]

end Heap
