import Verif.Lemmas.SweepDetail

/-! `unite_ok` with the networks inside the move, for C134. -/

open Py

namespace Sweep

variable {K E R : Type} [CommRing R] {I J : E → Heap R → ℕ → Prop}

/-- `unite_ok` with the networks inside the move. -/
theorem unite_detail {H : Hooks K E R} (hH : H.GoodI I J) {h0 : Heap R} {r0 : ℕ} {F0 : Forest} (h00 : h0.IsTTN r0 F0)
    {s : State K E R} (iv : Inv I h0 r0 s) {t a fin j : ℕ} (hb0 : h0.acc t a = some (fin, j)) (ht0 : h0.isLeaf t = false)
    (hl0 : h0.isLeaf fin = false) (hroot : s.root = t ∨ s.root = fin)
    (o : Option (K × Bool)) {fuel : ℕ} (hfu : F0.ids.length < fuel) :
    ∃ s', move H fuel s t a (opOf H o) true = .ok s' ∧ s'.root = fin ∧
      Inv I h0 r0 s' ∧ ∃ (Fr F : Forest) (h1 : Heap R) (mid : ℕ) (F1 : Forest) (st : State K E R) (A B : Nd R),
        s.heap.IsTTN s.root Fr ∧ s.heap.IsTTN t F ∧ s.heap.Full t A ∧ s.heap.Full fin B ∧ s.heap.MidUnite h1 t a fin j mid A.ndim B.ndim ∧
        Heap.MidTree s.heap h1 t a fin j mid F F1 ∧ h1.Rooted mid F1 ∧ I (H.removeEnv s.ext s.heap [t, fin]) h1 mid ∧
        applyOp (opOf H o) { removeEnv H s [t, fin] with heap := h1 } mid = .ok st ∧ h1.GoodChange st.heap mid ∧ I st.ext st.heap mid ∧
        (∃ nr, st.heap.split H.svdU mid (.many ((List.range ((s.heap.order fin) - 1)).map fun k => a + k)) (some (j, a)) (some fin)
          (some t) nr = .ok (s'.heap, fin, t)) ∧ (∃ op, Heap.MoveSpec H.svdU op s.heap s'.heap t a fin j mid) ∧
        (Heap.SvdExact H.svdU → ∀ C, st.heap.array mid = some C → ∀ σ : Heap.Assign,
          (∀ p ∈ Heap.uniteLabels t a A.ndim fin j B.ndim, σ p < s.heap.hdim p) →
          s'.heap.pairSum (t, a, fin, j) σ = C.get ((Heap.uniteLabels t a A.ndim fin j B.ndim).map σ)) := by
  have hi := h00.links
  obtain ⟨Fr, ht1, hr, hp⟩ := iv.ttn
  have hlt := hi.lt hb0
  have hb : s.heap.acc t a = some (fin, j) := by rw [iv.acc]; exact hb0
  have hl : s.heap.isLeaf fin = false := by rw [iv.leaf _ hlt.2]; exact hl0
  have hlt' : s.heap.isLeaf t = false := by rw [iv.leaf _ hlt.1]; exact ht0
  have hax : (s.heap.node t).axis = none ∨ (s.heap.node fin).axis = none := by
    rcases hroot with e | e
    · exact .inl (e ▸ hr.1)
    · exact .inr (e ▸ hr.1)
  -- the tree from `t`, and the axes of the other tensors
  obtain ⟨F, ht, hax'⟩ : ∃ F, s.heap.IsTTN t F ∧ ∀ e ∈ s.heap.bonds t F, e.2.2.1 ≠ fin →
      (s.heap.node e.2.2.1).axis = some e.2.2.2 := by
    rcases hroot with e | e
    · subst e; exact ⟨Fr, ht1, fun e he _ => hr.2 e he⟩
    · subst e
      obtain ⟨F', q1, q2⟩ := reroot_next ht1 (ht1.links.sym _ _ _ _ hb) hlt'
      refine ⟨F', q1, fun e he hne => ?_⟩
      rcases q2 e he with rfl | q
      · exact absurd rfl hne
      · exact hr.2 e q
  have hlnk : Linked h0 r0 t := by
    rcases hroot with e | e
    · exact e ▸ iv.lnk
    · exact (e ▸ iv.lnk : Linked h0 r0 fin).tail ⟨j, a, hi.sym _ _ _ _ hb0⟩
  have hLinked : ∀ x y, Linked s.heap x y ↔ Linked h0 x y := by
    intro x y
    unfold Linked
    simp only [iv.acc]
  have hlen : F.ids.length = F0.ids.length := by
    obtain ⟨F0', q1, q2⟩ := h00.reroot (t := t) (Heap.mem_tensors.2 ⟨(h00.mem_linked t).2 hlnk, ht0⟩)
    have hp : (t :: F.ids).Perm (t :: F0'.ids) := by
      refine (List.perm_ext_iff_of_nodup ht.tree.nodup q1.tree.nodup).2 fun x => ?_
      rw [List.mem_cons, List.mem_cons, ht.mem_linked x, q1.mem_linked x, hLinked]
    have e1 := hp.length_eq
    have e2 := q2.length_eq
    simp only [List.length_cons] at e1 e2
    omega
  have hn := ht.isNet
  have hrT : t ∈ s.heap.tensors t F := Heap.mem_tensors.2 ⟨.inl rfl, ht.leaf⟩
  have hfT : fin ∈ s.heap.tensors t F := by
    refine Heap.mem_tensors.2 ⟨(ht.mem_linked fin).2 ?_, hl⟩
    exact Relation.ReflTransGen.single ⟨a, j, hb⟩
  obtain ⟨A, hA⟩ := hn.full t hrT
  obtain ⟨B, hB⟩ := hn.full fin hfT
  obtain ⟨n1, hn1⟩ := hn.names t hrT
  obtain ⟨n2, hn2⟩ := hn.names fin hfT
  have hpT : s.heap.PlainNames (s.heap.tensors t F) := by
    have hlk : Linked s.heap s.root t := by
      rcases hroot with e | e
      · rw [e]; exact .refl
      · rw [e]; exact .single ⟨j, a, ht1.links.sym _ _ _ _ hb⟩
    have hlk' : Linked s.heap t s.root := by
      rcases hroot with e | e
      · rw [e]; exact .refl
      · rw [e]; exact .single ⟨a, j, hb⟩
    intro u hu nm
    obtain ⟨u1, u2⟩ := Heap.mem_tensors.1 hu
    exact hp u (Heap.mem_tensors.2 ⟨(ht1.mem_linked u).2 (hlk.trans ((ht.mem_linked u).1 u1)), u2⟩) nm
  have hp1 := hpT _ hrT n1 hn1
  have hp2 := hpT _ hfT n2 hn2
  obtain ⟨s1, s2⟩ := hn.simple t hrT a fin j hb hfT
  obtain ⟨h1, mid, e1, m1, hu⟩ := Heap.uniteSplit_steps hH.svdU hn.links hA hB hb s1.symm
    (fun k l e => (hn.simple t hrT k t l e hrT).1 rfl) (fun k l e => (hn.simple fin hfT k fin l e hfT).1 rfl)
    (fun k l e => s2 k l e) hax
    (by
      rcases hn.mem_bond hrT hfT hb with q | q
      · exact hn.dims _ q
      · exact (hn.dims _ q).symm) hn1 hp1 hn2 hp2 ((s.heap.node t).normalized && (s.heap.node fin).normalized)
  obtain ⟨M, hM, hMn⟩ := m1.fullMid
  obtain ⟨F1, mt⟩ := m1.tree ht hA hB hb hl
  have hr1 : h1.Rooted mid F1 := by
    have hmid : ∀ u ∈ t :: F.ids, u ≠ mid := fun u hu => by
      have := ht.ids_lt hu
      have := m1.fresh
      omega
    refine ⟨m1.axis, fun e he => ?_⟩
    obtain ⟨he, hel⟩ := Heap.mem_bonds.1 he
    have hback := m1.links.sym _ _ _ _ (mt.ttn.isLink_edge he).1
    have ne1 : e.2.2.1 ≠ t := by intro q; rw [q, (m1.accNone _).1] at hback; cases hback
    have ne2 : e.2.2.1 ≠ fin := by intro q; rw [q, (m1.accNone _).2] at hback; cases hback
    obtain ⟨e1, e2, e3, e4⟩ := e
    simp only at hel ne1 ne2 ⊢
    rcases mt.target _ he with q | q | ⟨e', q1, q2, q3⟩
    · exact absurd (congrArg Prod.fst q) ne1
    · exact absurd (congrArg Prod.fst q) ne2
    · obtain ⟨d1, d2, d3, d4⟩ := e'
      simp only [Prod.mk.injEq] at q2
      obtain ⟨rfl, rfl⟩ := q2
      have h3 : d3 ∈ F.ids := by
        rw [← Heap.edges_targets F t]
        exact List.mem_map.2 ⟨_, q1, rfl⟩
      have h3m := hmid d3 (by simp [h3])
      have hc := m1.other d3 h3m
      rw [show (h1.node d3).axis = (s.heap.node d3).axis from (Heap.core_eq hc).2.1]
      refine hax' (d1, d2, d3, d4) (Heap.mem_bonds.2 ⟨q1, ?_⟩) ne2
      rw [← hel]
      exact (Heap.core_eq hc).2.2.2.2.2.2.symm
  have hI1 := hH.unite1 s.ext s.heap h1 s.root Fr t F a fin j mid F1 A B ht1 hr ht hroot hA hB hb hl iv.inv m1 mt hr1
  obtain ⟨st, o1, o2, oI, o3⟩ := applyOp_ok hH.toGoodS o (s := { removeEnv H s [t, fin] with heap := h1 }) (t := mid)
    mt.ttn hr1 hI1
  obtain ⟨h3, u1, u0, u2, u3⟩ := hu st.heap o2
  obtain ⟨op, m⟩ : ∃ op, Heap.MoveSpec H.svdU op s.heap h3 t a fin j mid := by
    cases o with
    | none =>
      have he : st = { removeEnv H s [t, fin] with heap := h1 } := (Except.ok.inj o1).symm
      exact ⟨none, u2 none fun _ => by rw [he]⟩
    | some p => exact ⟨_, u2 (some fun _ _ => .error .runtimeError) (by simp)⟩
  obtain ⟨F', mv⟩ := ht.moved m hb hl
  have hdep : F.depth < fuel := by have := F.depth_le; omega
  have v1 := Heap.linkageVisitor_tree ht.tree true hdep
  have v2 := Heap.linkageVisitor_tree mv.oldTree true hdep
  have hsu : uniteSplit fuel H.svdU (removeEnv H s [t, fin]) t a (opOf H o) = .ok ({ st with heap := h3 }, mid, fin) := by
    unfold uniteSplit
    have v1' : (removeEnv H s [t, fin]).heap.linkageVisitor fuel t none true false = _ := v1
    rw [v1']
    simp only [ok_bind]
    have hb' : Dict.get? ((removeEnv H s [t, fin]).heap.access t) a = some (fin, j) := hb
    simp only [Dict.get!, hb', ok_bind]
    have e1' : (removeEnv H s [t, fin]).heap.unite t a none
        (((removeEnv H s [t, fin]).heap.node t).normalized &&
          ((removeEnv H s [t, fin]).heap.node fin).normalized) = .ok (h1, mid) := e1
    rw [e1']
    simp only [ok_bind]
    rw [o1]
    simp only [ok_bind]
    have u1' : st.heap.split H.svdU mid (.many ((List.range (((removeEnv H s [t, fin]).heap.order fin) - 1)).map
          fun k => a + k)) (some (j, a)) (some fin) (some t) (((removeEnv H s [t, fin]).heap.node t).normalized &&
          ((removeEnv H s [t, fin]).heap.node fin).normalized) = .ok (h3, fin, t) := u1
    rw [u1']
    simp only [ok_bind]
    rw [v2]
    simp [pure, Except.pure]
  refine ⟨⟨h3, fin, H.removeEnv st.ext h3 [t, mid, fin], st.log⟩, ?_, rfl, ?_, Fr, F, h1, mid, F1, st, A, B, ht1, ht, hA, hB, m1, mt, hr1, hI1, o1, o2, oI, ⟨_, u1⟩, ⟨op, m⟩, u3⟩
  · unfold move
    have hb' : Dict.get? (s.heap.access t) a = some (fin, j) := hb
    simp only [Dict.get!, hb', ok_bind]
    rw [if_pos trivial, hsu]
    rfl
  · have hmono := m.mono
    have hfresh := m.fresh
    have hm0 := iv.mono
    have hr3 : h3.Rooted fin F' := by
      refine ⟨m.axisFin, fun e he => ?_⟩
      rcases mv.other ht hb hl he with rfl | ⟨q1, q2, q3⟩
      · exact m.axisSelf
      · have hT := (hn.isLink e q1).2.2
        have q4 : e.2.2.1 ≠ mid := by intro q; exact hn.mid_not_mem m (q ▸ hT)
        show (h3.node _).axis = _
        rw [(m.otherAxis _ q2 q3 q4).1]
        exact hax' e q1 q3
    refine ⟨⟨F', mv.ttn, hr3, mv.plain ht m hpT⟩, fun c k => (m.acc c k).trans (iv.acc c k), fun c hc => ?_, ?_,
      hlnk.tail ⟨a, j, hb0⟩, hH.unite2 _ _ _ _ _ _ _ _ _ _ _ _ _ _ F' _ A B ht1 hr ht hroot hA hB hb hl m1 mt hr1 o2 oI u0 m mv.ttn hr3
      u3 ⟨_, iv.inv⟩⟩
    · show h3.isLeaf c = _
      rw [(m.other c (by omega)).2.1]
      exact iv.leaf c hc
    · show h0.next ≤ h3.next
      omega

end Sweep
