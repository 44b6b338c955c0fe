import Verif.Lemmas.Conserve3
import Verif.Lemmas.Merge

/-! Helper lemmas for C127: norm and energy in a sweep over pairs of tensors. -/

open scoped BigOperators
open Py

namespace Heap

variable {R : Type} [Field R] [StarRing R]

/-- The network with two neighbours united has the state it had before. -/
theorem MidUnite.state {h h1 : Heap R} {t i fin j mid : ℕ} {A B : Nd R} {F F1 : Forest} (m : h.MidUnite h1 t i fin j mid A.ndim B.ndim)
    (ht : h.IsTTN t F) (mt : h1.IsTTN mid F1) (hA : h.Full t A) (hB : h.Full fin B) (hb : h.acc t i = some (fin, j))
    (hl : h.isLeaf fin = false) :
    (h1.leafList mid F1).Perm (h.leafList t F) ∧
      ∀ x : ℕ → ℕ, (∀ p ∈ h.leafList t F, x p.1 < p.2) → h1.treeAmp mid F1 x = h.treeAmp t F x := by
  obtain ⟨C, hC, hCn⟩ := m.fullMid
  have mg : Merge h h1 t i fin j mid A.ndim B.ndim C := by
    refine ⟨m.links, hC, hCn, m.accMid, m.accOther, m.dimsMid, fun c _ _ q => ?_, m.entry C hC.array⟩
    exact ⟨(core_eq (m.other c q)).2.2.1, (core_eq (m.other c q)).2.2.2.2.2.2⟩
  have hm : mid ∉ t :: F.ids := fun q => by have := ht.ids_lt q; have := m.fresh; omega
  obtain ⟨e1, e2⟩ := mg.state ht mt hm hA hB hb hl
  exact ⟨by rw [e1], fun x hx => e2 x (ht.inRange hx)⟩

theorem Full.ndim_same {h h' : Heap R} {t : ℕ} {A A' : Nd R} (hA : h.Full t A) (hA' : h'.Full t A') (e : ∀ k, h'.acc t k = h.acc t k) :
    A'.ndim = A.ndim := by
  have : ∀ k, k < A'.ndim ↔ k < A.ndim := fun k => by rw [← hA.acc k, ← hA'.acc k, e]
  have h1 := this A.ndim
  have h2 := this A'.ndim
  omega

/-- The network with the united tensor split again by an exact decomposition has the state it had before. -/
theorem MidUnite.split_state {csvd : Svd R} (hex : SvdExact csvd) {op : Option (Operator R)} {h h1 h2 h3 : Heap R} {t i fin j mid : ℕ} {A B : Nd R} {F F1 F3 : Forest}
    (m : h.MidUnite h1 t i fin j mid A.ndim B.ndim) (ht : h.IsTTN t F) (mt : h1.IsTTN mid F1) (hA : h.Full t A) (hB : h.Full fin B)
    (hb : h.acc t i = some (fin, j)) (hl : h.isLeaf fin = false) (g : h1.GoodChange h2 mid) (mv : h.MoveSpec csvd op h3 t i fin j mid)
    (t3 : h3.IsTTN fin F3)
    (hs : SvdExact csvd → ∀ C, h2.array mid = some C → ∀ σ : Assign, (∀ p ∈ uniteLabels t i A.ndim fin j B.ndim, σ p < h.hdim p) →
      h3.pairSum (t, i, fin, j) σ = C.get ((uniteLabels t i A.ndim fin j B.ndim).map σ)) :
    (h3.leafList fin F3).Perm (h2.leafList mid F1) ∧
      ∀ x : ℕ → ℕ, (∀ p ∈ h2.leafList mid F1, x p.1 < p.2) → h3.treeAmp fin F3 x = h2.treeAmp mid F1 x := by
  have t2 := Sweep.ttn_change mt g
  have hbs := ht.links.sym _ _ _ _ hb
  have hin : i < A.ndim := (hA.acc i).1 (by rw [hb]; simp)
  have hjn : j < B.ndim := (hB.acc j).1 (by rw [hbs]; simp)
  obtain ⟨b1, b2⟩ := ht.links.lt hb
  have htm : t ≠ mid := by have := m.fresh; omega
  have hfm : fin ≠ mid := by have := m.fresh; omega
  obtain ⟨A3, hA3⟩ := mv.fullSelf
  obtain ⟨B3, hB3⟩ := mv.fullFin
  have nA := hA.ndim_same hA3 (mv.acc t)
  have nB := hB.ndim_same hB3 (mv.acc fin)
  have hb3 : h3.acc t i = some (fin, j) := by rw [mv.acc]; exact hb
  have hl3 : h3.isLeaf fin = false := by rw [(mv.other fin hfm).2.1]; exact hl
  have htT : t ∈ h3.tensors fin F3 := by
    refine mem_tensors.2 ⟨(t3.mem_linked t).2 ?_, by rw [(mv.other t htm).2.1]; exact ht.leaf⟩
    exact Relation.ReflTransGen.single ⟨j, i, t3.links.sym _ _ _ _ hb3⟩
  obtain ⟨F3', f1, f2⟩ := t3.reroot htT
  obtain ⟨C, hC, hCn⟩ := m.fullMid
  obtain ⟨C', c1, c2, c3⟩ := g.array C hC.array
  have hdim : ∀ p ∈ uniteLabels t i A.ndim fin j B.ndim, h3.hdim p = h.hdim p := by
    rintro ⟨x, k⟩ hp
    rcases (mem_uniteLabels hin hjn).1 hp with ⟨rfl, -, q⟩ | ⟨rfl, -, q⟩
    · exact mv.dimsSelf k q
    · exact mv.dimsFin k q
  have mg : Merge h3 h2 t i fin j mid A3.ndim B3.ndim C' := by
    rw [nA, nB]
    have fullC : h2.Full mid C' := by
      obtain ⟨D, hD⟩ := t2.full mid (mem_tensors.2 ⟨.inl rfl, t2.leaf⟩)
      have := hD.array
      rw [c1] at this
      cases this
      exact hD
    refine ⟨t2.links, fullC, by unfold Nd.ndim; rw [c3]; exact hCn, ?_, ?_, ?_, ?_, ?_⟩
    · intro n p hp
      rw [SplitProp.GoodChange.acc g, mv.acc]; exact m.accMid n p hp
    · intro x k q1 q2 q3 hx
      rw [SplitProp.GoodChange.acc g, mv.acc]
      exact m.accOther x k q1 q2 q3 fun l => by rw [← mv.acc]; exact hx l
    · intro n p hp
      rw [hdim p (List.mem_of_getElem? hp), ← m.dimsMid n p hp, hC.hdim_eq, fullC.hdim_eq, c3]
    · intro c q1 q2 q3
      constructor
      · rw [(mv.otherAxis c q1 q2 q3).2, g.other c q3]; exact (core_eq (m.other c q3)).2.2.1
      · rw [(mv.other c q3).2.1, SplitProp.GoodChange.isLeaf g]; exact (core_eq (m.other c q3)).2.2.2.2.2.2
    · intro σ hσ
      exact (hs hex C' c1 σ fun p hp => by rw [← hdim p hp]; exact hσ p hp).symm
  have hm : mid ∉ t :: F3'.ids := by
    intro q
    rcases List.mem_cons.1 q with q | q
    · exact htm q.symm
    · rcases Relation.ReflTransGen.cases_tail ((f1.mem_linked mid).1 (.inr q)) with q | ⟨c, -, k, l, e⟩
      · exact htm q.symm
      · rw [mv.acc] at e
        have := (ht.links.lt e).2
        have := m.fresh
        omega
  obtain ⟨e1, e2⟩ := mg.state f1 t2 hm hA3 hB3 hb3 hl3
  have pl := leafList_perm t3 f1 f2
  refine ⟨by rw [e1]; exact pl.symm, fun x hx => ?_⟩
  rw [e2 x (f1.inRange (by rw [← e1]; exact hx)), treeAmp_reroot t3 f1 f2]

end Heap

namespace SplitProp

open Heap ML

variable {K T R : Type} [Zero T] [Field R] [StarRing R]

/-- The norm and the energy seen from a neighbour; all but the two are canonical. -/
theorem Held.seen {s0 : Obj T R} {F0 : Forest} {E : R} {h : Heap R} {r t i fin j : ℕ} {Fr F : Forest}
    (st : Held s0 F0 E h r Fr) (htr : h.IsTTN r Fr) (ht : h.IsTTN t F) (hroot : r = t ∨ r = fin) (hb : h.acc t i = some (fin, j)) :
    (∀ e ∈ h.bonds t F, e.2.2.1 ≠ fin → h.Canonical e.2.2.1 e.2.2.2) ∧ (h.leafList t F).Perm (h.leafList r Fr) ∧
      ∀ x : ℕ → ℕ, (∀ p ∈ h.leafList r Fr, x p.1 < p.2) → h.treeAmp t F x = h.treeAmp r Fr x := by
  rcases hroot with e | e
  · subst e
    obtain rfl := htr.tree.unique ht.tree
    exact ⟨fun e he _ => st.canon e he, .refl _, fun _ _ => rfl⟩
  · subst e
    have hbs := ht.links.sym _ _ _ _ hb
    obtain ⟨F', q1, q2⟩ := Sweep.reroot_next htr hbs ht.leaf
    obtain rfl := q1.tree.unique ht.tree
    have htT : t ∈ h.tensors r Fr := by
      refine mem_tensors.2 ⟨(htr.mem_linked t).2 ?_, ht.leaf⟩
      exact Relation.ReflTransGen.single ⟨j, i, hbs⟩
    obtain ⟨F2, f1, f2⟩ := htr.reroot htT
    obtain rfl := f1.tree.unique ht.tree
    refine ⟨fun e he hne => ?_, leafList_perm htr f1 f2, fun x _ => treeAmp_reroot htr f1 f2 x⟩
    rcases q2 e he with rfl | q
    · exact absurd rfl hne
    · exact st.canon e q

/-- The united network is canonical. -/
theorem canon_unite {h h1 : Heap R} {t i fin j mid na nb : ℕ} {F F1 : Forest} (ht : h.IsTTN t F)
    (hc : ∀ e ∈ h.bonds t F, e.2.2.1 ≠ fin → h.Canonical e.2.2.1 e.2.2.2) (m : h.MidUnite h1 t i fin j mid na nb)
    (mt : h.MidTree h1 t i fin j mid F F1) : h1.CanonicalTree mid F1 := by
  intro e he
  obtain ⟨he1, he2⟩ := mem_bonds.1 he
  have hback := m.links.sym _ _ _ _ (mt.ttn.isLink_edge he1).1
  rcases mt.target e he1 with q | q | ⟨e', q1, q2, q3⟩
  · rw [show e.2.2.1 = t from congrArg Prod.fst q, (m.accNone _).1] at hback; cases hback
  · rw [show e.2.2.1 = fin from congrArg Prod.fst q, (m.accNone _).2] at hback; cases hback
  · have hnm : e.2.2.1 ≠ mid := by
      have := ht.ids_lt (List.mem_cons_of_mem _ (TreeSum.edges_mem q1).2)
      have := m.fresh
      rw [q2] at *
      omega
    have hcore := core_eq (m.other _ hnm)
    have hlf : h.isLeaf e'.2.2.1 = false := by
      rw [q2]; exact hcore.2.2.2.2.2.2.symm.trans he2
    obtain ⟨D, d1, d2⟩ := hc e' (mem_bonds.2 ⟨q1, hlf⟩) (by rw [q2]; exact q3)
    rw [q2] at d1 d2
    exact ⟨D, hcore.2.2.1.trans d1, d2⟩

/-- The sweeps over pairs keep the norm and the energy too. -/
theorem goodI_keep (N : ℕ) (cf : Config K T R) (hsv : SvdShape cf.svd) (hiso : SvdIso cf.svd) (hex : SvdExact cf.svd)
    (hsvU : SvdShape cf.svdU) (hisoU : SvdIso cf.svdU) (hexU : SvdExact cf.svdU) (hs : Conservative cf.solver)
    {coef : R} (h00 : coef ≠ 0) (hcoef : ∀ time : Option T, time.isNone = cf.imaginary → cf.coef time = coef)
    (he : coef * star (cf.initEnergy.getD 0) = -(star coef * cf.initEnergy.getD 0)) (h1 : cf.sqrt 1 = 1)
    {s0 : Obj T R} {F0 : Forest} {E : R} (ht0 : s0.heap.IsTTN s0.root F0) (hf0 : s0.fList = none) (hg : Generates s0 F0 coef) :
    (hooks cf).GoodI (fun x h r => Fine (Call.Right cf) N x h r ∧ Keep s0 F0 E x h r)
      fun x h r => Good (Call.Right cf) N x h r ∧ Keep s0 F0 E x h r where
  toGoodS := goodS N cf hsv hiso hex hs h00 hcoef he h1 ht0 hf0 hg
  unite1 x h hh1 r Fr t F i fin j mid F1 A B htr hrr ht hroot hA hB hb hl f m mt hr1 := by
    refine ⟨f.1.mid htr hroot ht hb hl (MidUnite.midOk ht hA hB hb hl m) mt, f.2.hList, fun F' ht' => ?_⟩
    obtain rfl := mt.ttn.tree.unique ht'.tree
    have st := f.2.state Fr htr
    obtain ⟨s1, s2, s3⟩ := st.seen htr ht hroot hb
    obtain ⟨p1, p2⟩ := m.state ht mt.ttn hA hB hb hl
    refine st.next ht0 (canon_unite ht s1 m mt) (p1.trans s2) fun x hx => ?_
    rw [p2 x fun p hp => hx p (s2.mem_iff.1 hp), s3 x hx]
  unite2 x h hh1 hh2 hh3 r Fr t F i fin j mid F1 F3 op A B htr hrr ht hroot hA hB hb hl m mt hr1 g f hn mv t3 r3 hs3 x0 := by
    refine ⟨.back ht hb hl (MidUnite.midOk ht hA hB hb hl m) mt g f.1 hn hisoU mv t3, f.2.hList, fun F' ht' => ?_⟩
    obtain rfl := t3.tree.unique ht'.tree
    obtain ⟨x0, f0⟩ := x0
    obtain ⟨s1, -, -⟩ := (f0.2.state Fr htr).seen htr ht hroot hb
    have t2 := Sweep.ttn_change mt.ttn g
    obtain ⟨p1, p2⟩ := m.split_state hexU ht mt.ttn hA hB hb hl g mv t3 hs3
    obtain ⟨F'', mm⟩ := ht.moved mv hb hl
    obtain rfl := t3.tree.unique mm.ttn.tree
    refine (f.2.state F1 t2).next ht0 (fun e he => ?_) p1 p2
    rcases mm.other ht hb hl he with rfl | ⟨q1, q2, q3⟩
    · exact mv.canonical hisoU
    · have hT := (ht.isNet.isLink e q1).2.2
      have q4 : e.2.2.1 ≠ mid := by intro q; exact ht.isNet.mid_not_mem mv (q ▸ hT)
      obtain ⟨D, d1, d2⟩ := s1 e q1 q3
      exact ⟨D, (mv.otherAxis _ q2 q3 q4).2.trans d1, d2⟩
  svdU := hsvU

end SplitProp
