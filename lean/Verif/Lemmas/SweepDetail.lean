import Verif.Lemmas.Sweep2

/-! What happens inside a move, for C134. -/

open Py

namespace Sweep

variable {K E R : Type} [CommRing R] {I J : E → Heap R → ℕ → Prop}

/-- `move_ok` with the networks inside the move. -/
theorem move_detail {H : Hooks K E R} (hH : H.GoodS I J) {h0 : Heap R} {r0 : ℕ} (hi : h0.LinkInv) {s : State K E R}
    (iv : Inv I h0 r0 s) {a fin j : ℕ} (hb0 : h0.acc s.root a = some (fin, j)) (hl0 : h0.isLeaf fin = false)
    (o : Option (K × Bool)) (fuel : ℕ) :
    ∃ s', move H fuel s s.root a (opOf H o) = .ok s' ∧ s'.root = fin ∧ Inv I h0 r0 s' ∧
      ∃ (F : Forest) (h1 : Heap R) (mid : ℕ) (F1 : Forest) (st : State K E R), s.heap.IsTTN s.root F ∧ s.heap.Rooted s.root F ∧
        s.heap.PlainNames (s.heap.tensors s.root F) ∧ Heap.MidSplit H.svd s.heap h1 s.root a fin j mid ∧
        Heap.MidTree s.heap h1 s.root a fin j mid F F1 ∧ h1.Rooted mid F1 ∧
        (∃ nr, s.heap.split H.svd s.root (.one a) none none (some s.root) nr = .ok (h1, mid, s.root)) ∧ I (H.removeEnv s.ext s.heap [s.root, fin]) h1 mid ∧
        applyOp (opOf H o) { removeEnv H s [s.root, fin] with heap := h1 } mid = .ok st ∧ h1.GoodChange st.heap mid ∧ I st.ext st.heap mid ∧
        (∃ nr, st.heap.unite fin j (some fin) nr = .ok (s'.heap, fin)) ∧ ∃ op, Heap.MoveSpec H.svd op s.heap s'.heap s.root a fin j mid := by
  obtain ⟨F, ht, hr, hp⟩ := iv.ttn
  have hlt := hi.lt hb0
  have hb : s.heap.acc s.root a = some (fin, j) := by rw [iv.acc]; exact hb0
  have hl : s.heap.isLeaf fin = false := by rw [iv.leaf _ hlt.2]; exact hl0
  have hn := ht.isNet
  have hrT : s.root ∈ s.heap.tensors s.root F := Heap.mem_tensors.2 ⟨.inl rfl, ht.leaf⟩
  have hfT : fin ∈ s.heap.tensors s.root F := by
    refine Heap.mem_tensors.2 ⟨(ht.mem_linked fin).2 ?_, hl⟩
    exact Relation.ReflTransGen.single ⟨a, j, hb⟩
  obtain ⟨A, hA⟩ := hn.full s.root hrT
  obtain ⟨B, hB⟩ := hn.full fin hfT
  obtain ⟨n1, hn1⟩ := hn.names s.root hrT
  obtain ⟨n2, hn2⟩ := hn.names fin hfT
  have hp1 := hp _ hrT n1 hn1
  obtain ⟨s1, s2⟩ := hn.simple s.root hrT a fin j hb hfT
  obtain ⟨h1, mid, e1, m1, hu⟩ := Heap.splitUnite_steps hH.svd hn.links hA hB hb s1.symm
    (fun k l e => (hn.simple s.root hrT k s.root l e hrT).1 rfl) (fun k l e => (hn.simple fin hfT k fin l e hfT).1 rfl)
    (fun k l e => s2 k l e) hr.1
    (by
      rcases hn.mem_bond hrT hfT hb with q | q
      · exact hn.dims _ q
      · exact (hn.dims _ q).symm) hn1 hp1 hn2 ((s.heap.node s.root).normalized && (s.heap.node fin).normalized)
  obtain ⟨F1, mt⟩ := m1.tree ht hb hl
  have hr1 := rooted_midSplit ht hr hb hl m1 mt
  have hI1 := hH.split1 s.ext s.heap h1 s.root F a fin j mid F1 ht hr hb hl iv.inv m1 mt hr1 ⟨_, e1⟩ hp
  obtain ⟨st, o1, o2, oI, o3⟩ := applyOp_ok hH o (s := { removeEnv H s [s.root, fin] with heap := h1 }) (t := mid)
    mt.ttn hr1 hI1
  obtain ⟨h3, u1, u0, u2⟩ := hu st.heap o2
  have hsu : splitUnite H.svd (removeEnv H s [s.root, fin]) s.root a (opOf H o) = .ok ({ st with heap := h3 }, mid, fin) := by
    unfold splitUnite
    have hb' : Dict.get? ((removeEnv H s [s.root, fin]).heap.access s.root) a = some (fin, j) := hb
    simp only [Dict.get!, hb', ok_bind]
    have e1' : (removeEnv H s [s.root, fin]).heap.split H.svd s.root (.one a) none none (some s.root)
        (((removeEnv H s [s.root, fin]).heap.node s.root).normalized &&
          ((removeEnv H s [s.root, fin]).heap.node fin).normalized) = .ok (h1, mid, s.root) := e1
    rw [e1']
    simp only [ok_bind]
    rw [o1]
    simp only [ok_bind]
    have u1' : st.heap.unite fin j (some fin) (((removeEnv H s [s.root, fin]).heap.node s.root).normalized &&
          ((removeEnv H s [s.root, fin]).heap.node fin).normalized) = .ok (h3, fin) := u1
    rw [u1']
    rfl
  have hfin : Inv I h0 r0 (removeEnv H { { st with heap := h3 } with root := fin } [s.root, mid, fin]) ∧
      ∃ op, Heap.MoveSpec H.svd op s.heap h3 s.root a fin j mid := by
    cases o with
    | none =>
      have he : st = { removeEnv H s [s.root, fin] with heap := h1 } := (Except.ok.inj o1).symm
      have mv := u2 none fun _ => by rw [he]
      exact ⟨iv.moved hi mv hb0 hl0 _ _ fun F' t' r' => hH.split2 _ _ _ _ _ _ _ _ _ _ _ _ F' _ ht hr hb hl m1 mt hr1 o2 oI u0 mv t' r' ⟨_, u1⟩ ⟨_, iv.inv⟩, _, mv⟩
    | some p =>
      have mv := u2 (some fun _ _ => .error .runtimeError) (by simp)
      exact ⟨iv.moved hi mv hb0 hl0 _ _ fun F' t' r' => hH.split2 _ _ _ _ _ _ _ _ _ _ _ _ F' _ ht hr hb hl m1 mt hr1 o2 oI u0 mv t' r' ⟨_, u1⟩ ⟨_, iv.inv⟩, _, mv⟩
  refine ⟨⟨h3, fin, H.removeEnv st.ext h3 [s.root, mid, fin], st.log⟩, ?_, rfl, hfin.1, F, h1, mid, F1, st, ht, hr, hp, m1, mt, hr1, ⟨_, e1⟩, hI1, o1, o2, oI, ⟨_, u1⟩, hfin.2⟩
  · unfold move
    have hb' : Dict.get? (s.heap.access s.root) a = some (fin, j) := hb
    simp only [Dict.get!, hb', ok_bind]
    rw [if_neg (by simp), hsu]
    rfl

end Sweep
