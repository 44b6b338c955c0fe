import Verif.Lemmas.Full5

/-! The sweeps over a network with complete bases, for C134. -/

open scoped BigOperators
open Py

namespace SplitProp

open Heap ML Sweep

variable {T : Type} [Zero T]

/-- `CompleteTree` for one link. -/
def EdgeOk (h : Heap ℂ) (e : ℕ × ℕ × ℕ × ℕ) : Prop :=
  ∃ A B, h.Full e.1 A ∧ h.Full e.2.2.1 B ∧ A.shape.getD e.2.1 1 ≤ (A.shape.eraseIdx e.2.1).prod ∧ B.shape.getD e.2.2.2 1 = (B.shape.eraseIdx e.2.2.2).prod ∧
    h.hdim (e.1, e.2.1) = h.hdim (e.2.2.1, e.2.2.2)

variable {cf : Config ℝ T ℂ} {coef : ℂ} {s0 : Obj T ℂ} {F0 : Forest} {N : ℕ} {E : ℂ} {h0 : Heap ℂ} {r0 : ℕ} {v : Fin (leafDims s0 F0).prod → ℂ}

/-- A move without an operator. -/
theorem Setup.walk (S : Setup cf coef s0 F0) (hi : h0.LinkInv) {s : State ℝ (Ext T ℂ) ℂ} (on : On cf N s0 F0 E h0 r0 v s) {a fin j : ℕ}
    (hb0 : h0.acc s.root a = some (fin, j)) (hl0 : h0.isLeaf fin = false) (hd0 : h0.hdim (s.root, a) = h0.hdim (fin, j)) {A0 : Nd ℂ} (hA0 : h0.Full s.root A0)
    (hw : A0.shape.getD a 1 ≤ (A0.shape.eraseIdx a).prod) (fuel : ℕ) :
    ∃ s', Sweep.move (hooks cf) fuel s s.root a none = .ok s' ∧ s'.root = fin ∧ On cf N s0 F0 E h0 r0 v s' := by
  obtain ⟨s', e1, e2, n, C, z, w, -, -, p1, p2, -, p3, -⟩ := S.move hi on hb0 hl0 hd0 hA0 hw none fuel
  refine ⟨s', e1, e2, ?_⟩
  rw [p1]
  rw [p2 rfl] at p3
  exact p3

/-- Propagation of a tensor, and back over its link. -/
theorem Setup.up (S : Setup cf coef s0 F0) (hi : h0.LinkInv) {s : State ℝ (Ext T ℂ) ℂ} (on : On cf N s0 F0 E h0 r0 v s) {a fin j : ℕ}
    (hb0 : h0.acc s.root a = some (fin, j)) (hl0 : h0.isLeaf fin = false) (hd0 : h0.hdim (s.root, a) = h0.hdim (fin, j)) {A0 : Nd ℂ} (hA0 : h0.Full s.root A0)
    (hw : A0.shape.getD a 1 = (A0.shape.eraseIdx a).prod) (tau : ℝ) (c c' : Bool) (fuel : ℕ) :
    ∃ s1 s', splitProp (hooks cf) tau c s s.root = .ok s1 ∧ s1.root = s.root ∧
      Sweep.move (hooks cf) fuel s1 s.root a (some (splitProp (hooks cf) (-tau) c')) = .ok s' ∧ s'.root = fin ∧ On cf N s0 F0 E h0 r0 v s' := by
  obtain ⟨F, ht, hr, -⟩ := on.inv.ttn
  obtain ⟨A, hA⟩ := ht.full s.root (mem_tensors.2 ⟨.inl rfl, ht.leaf⟩)
  have hlt := hi.lt hb0
  have hAs : A.shape = A0.shape := shape_eq hA0 hA (fun k => on.inv.acc _ k) fun k => on.dims _ k hlt.1
  have han : a < A0.shape.length := (hA0.acc a).1 (by rw [hb0]; simp)
  have b := on.based S.fList ht
  have hB := b.orth hA
  rw [hAs] at hB
  obtain ⟨s1, e1, e2, t1, ⟨A1, hA1, hA1s⟩, e5, y, e6, on1⟩ := S.prop hi on tau c ht hA hAs
  obtain ⟨s', f1, f2, n, C, z, w, hn, hC, p1, -, p2, on2, hQ, -⟩ := S.move hi on1 (by rw [e2]; exact hb0) hl0 (by rw [e2]; exact hd0) (A0 := A0) (by rw [e2]; exact hA0) hw.le
    (some (-tau, c')) fuel
  rw [e2] at f1 hn
  refine ⟨s1, s', e1, e2, f1, f2, ?_⟩
  obtain ⟨Q, hQ⟩ := hQ F A1 A0.shape (by rw [e2]; exact t1) (by rw [e2]; exact hA1) hA1s
  rw [e2, e5] at hQ
  have hn' : A0.shape.prod = n := by
    rw [hn, hdim_full hA0.array, prod_eraseIdx han, ← hw]
  have := exp_cancel hn' _ C hB hC Q hQ _ tau y z p1
  rw [← p2 (-tau) c' rfl, ← e6] at this
  rw [this] at on2
  exact on2

/-- Back over a link, and propagation of the tensor at its end. -/
theorem Setup.down (S : Setup cf coef s0 F0) (hi : h0.LinkInv) {s : State ℝ (Ext T ℂ) ℂ} (on : On cf N s0 F0 E h0 r0 v s) {a fin j : ℕ}
    (hb0 : h0.acc s.root a = some (fin, j)) (hl0 : h0.isLeaf fin = false) (hd0 : h0.hdim (s.root, a) = h0.hdim (fin, j)) {A0 B0 : Nd ℂ} (hA0 : h0.Full s.root A0)
    (hw : A0.shape.getD a 1 ≤ (A0.shape.eraseIdx a).prod) (hB0 : h0.Full fin B0) (hw' : B0.shape.getD j 1 = (B0.shape.eraseIdx j).prod) (tau : ℝ) (c c' : Bool) (fuel : ℕ) :
    ∃ s1 s', Sweep.move (hooks cf) fuel s s.root a (some (splitProp (hooks cf) (-tau) c')) = .ok s1 ∧ s1.root = fin ∧
      splitProp (hooks cf) tau c s1 fin = .ok s' ∧ s'.root = fin ∧ On cf N s0 F0 E h0 r0 v s' := by
  have hlt := hi.lt hb0
  obtain ⟨s1, f1, f2, n, C, z, w, hn, hC, p1, -, p2, on1, -, hQ⟩ := S.move hi on hb0 hl0 hd0 hA0 hw (some (-tau, c')) fuel
  obtain ⟨F, ht, hr, -⟩ := on1.inv.ttn
  obtain ⟨A, hA⟩ := ht.full s1.root (mem_tensors.2 ⟨.inl rfl, ht.leaf⟩)
  have hAs : A.shape = B0.shape := shape_eq (h := h0) (h' := s1.heap) (c := s1.root) (by rw [f2]; exact hB0) hA (fun k => on1.inv.acc _ k)
    fun k => on1.dims _ k (by rw [f2]; exact hlt.2)
  have hjn : j < B0.shape.length := (hB0.acc j).1 (by rw [hi.sym _ _ _ _ hb0]; simp)
  have hB := (on1.based S.fList ht).orth hA
  rw [hAs] at hB
  obtain ⟨s', e1, e2, -, -, -, y, e6, on2⟩ := S.prop hi on1 tau c ht hA hAs
  obtain ⟨Q, hQ⟩ := hQ F A B0.shape (f2 ▸ ht) (f2 ▸ hA) hAs
  rw [← f2] at hQ
  have hn' : B0.shape.prod = n := by
    rw [hn, hd0, hdim_full hB0.array, prod_eraseIdx hjn, ← hw']
  refine ⟨s1, s', f1, f2, f2 ▸ e1, e2.trans f2, ?_⟩
  rw [p2 (-tau) c' rfl] at e6
  have := exp_cancel' hn' _ C hB hC Q hQ _ tau z y e6
  rw [this, ← p1] at on2
  exact on2

/-- The forward sweep over the branches below `a` gives the state back. -/
theorem Setup.fwd (S : Setup cf coef s0 F0) (hi : h0.LinkInv) (tau : ℝ) (fuel : ℕ) (F : Forest) (a : ℕ) (hrep : F.RepIn h0)
    (hh : ∀ i id j, (i, id, j) ∈ F.heads → h0.acc a i = some (id, j)) (ha : h0.isLeaf a = false)
    (hc : ∀ e ∈ F.edges a, h0.isLeaf e.2.2.1 = false → EdgeOk h0 e)
    {s : State ℝ (Ext T ℂ) ℂ} (on : On cf N s0 F0 E h0 r0 v s) (hs : s.root = a) :
    ∃ s', (F.euler (fun t => !(h0.isLeaf t)) a).foldlM (splitPass (hooks cf) fuel tau) s = .ok s' ∧ s'.root = a ∧ On cf N s0 F0 E h0 r0 v s' := by
  induction F generalizing a s with
  | nil => exact ⟨s, rfl, hs, on⟩
  | cons i j id sub rest ih1 ih2 =>
    obtain ⟨p1, p2, p3⟩ := hrep
    have hb := hh i id j (by simp [Forest.heads])
    have hrest : ∀ i' id' j', (i', id', j') ∈ rest.heads → h0.acc a i' = some (id', j') := fun i' id' j' q =>
      hh i' id' j' (by simp [Forest.heads, q])
    simp only [Forest.euler]
    by_cases hl : h0.isLeaf id = false
    · simp only [hl, Bool.not_false, if_true, List.cons_append, List.append_assoc, List.foldlM_cons, List.foldlM_append,
        List.foldlM_nil]
      subst hs
      obtain ⟨A, B, c1, c2, c3, c4, c5⟩ := hc (s.root, i, id, j) (by simp [Forest.edges]) hl
      obtain ⟨s1, e1, e2, e3⟩ := S.walk hi on hb hl c5 c1 c3 fuel
      obtain ⟨s2, f1, f2, f3⟩ := ih1 id p2 (heads_sub hi.wf p1) hl (fun e he => hc e (by simp [Forest.edges, he])) e3 e2
      subst f2
      obtain ⟨s3, s4, g1, g2, k1, k2, k3⟩ := S.up hi f3 (hi.sym _ _ _ _ hb) ha c5.symm c2 c4 tau true true fuel
      obtain ⟨s5, l1, l2, l3⟩ := ih2 s.root p3 hrest ha (fun e he => hc e (by simp [Forest.edges, he])) k3 k2
      refine ⟨s5, ?_, l2, l3⟩
      have q1 : splitPass (hooks cf) fuel tau s (false, s.root, i, s2.root, j) = .ok s1 := e1
      have q2 : splitPass (hooks cf) fuel tau s2 (true, s2.root, j, s.root, i) = .ok s4 := by
        unfold splitPass
        simp only [Bool.not_true, Bool.false_eq_true, if_false]
        rw [g1]
        exact k1
      rw [q1]
      simp only [ok_bind]
      rw [f1]
      simp only [ok_bind]
      rw [q2]
      simp only [ok_bind, pure_eq_ok]
      exact l1
    · have hl' : h0.isLeaf id = true := by simpa using hl
      simp only [hl', Bool.not_true, Bool.false_eq_true, if_false, List.nil_append]
      exact ih2 a p3 hrest ha (fun e he => hc e (by simp [Forest.edges, he])) on hs

/-- And so does the backward sweep. -/
theorem Setup.bwd (S : Setup cf coef s0 F0) (hi : h0.LinkInv) (tau : ℝ) (fuel : ℕ) (F : Forest) (a : ℕ) (hrep : F.RepIn h0)
    (hh : ∀ i id j, (i, id, j) ∈ F.heads → h0.acc a i = some (id, j)) (ha : h0.isLeaf a = false)
    (hc : ∀ e ∈ F.edges a, h0.isLeaf e.2.2.1 = false → EdgeOk h0 e)
    {s : State ℝ (Ext T ℂ) ℂ} (on : On cf N s0 F0 E h0 r0 v s) (hs : s.root = a) :
    ∃ s', (F.euler (fun t => !(h0.isLeaf t)) a).reverse.foldlM (splitPassB (hooks cf) fuel tau) s = .ok s' ∧ s'.root = a ∧ On cf N s0 F0 E h0 r0 v s' := by
  induction F generalizing a s with
  | nil => exact ⟨s, rfl, hs, on⟩
  | cons i j id sub rest ih1 ih2 =>
    obtain ⟨p1, p2, p3⟩ := hrep
    have hb := hh i id j (by simp [Forest.heads])
    have hrest : ∀ i' id' j', (i', id', j') ∈ rest.heads → h0.acc a i' = some (id', j') := fun i' id' j' q =>
      hh i' id' j' (by simp [Forest.heads, q])
    simp only [Forest.euler]
    by_cases hl : h0.isLeaf id = false
    · simp only [hl, Bool.not_false, if_true, List.reverse_append, List.reverse_cons, List.append_assoc,
        List.cons_append, List.nil_append, List.reverse_nil, List.foldlM_cons, List.foldlM_append,
        List.foldlM_nil]
      obtain ⟨s1, l1, l2, l3⟩ := ih2 a p3 hrest ha (fun e he => hc e (by simp [Forest.edges, he])) on hs
      subst l2
      obtain ⟨A, B, c1, c2, c3, c4, c5⟩ := hc (s1.root, i, id, j) (by simp [Forest.edges]) hl
      obtain ⟨s2, s3, e1, e2, g1, g2, g3⟩ := S.down hi l3 hb hl c5 c1 c3 c2 c4 tau true true fuel
      obtain ⟨s4, f1, f2, f3⟩ := ih1 id p2 (heads_sub hi.wf p1) hl (fun e he => hc e (by simp [Forest.edges, he])) g3 g2
      subst f2
      obtain ⟨s5, k1, k2, k3⟩ := S.walk hi f3 (hi.sym _ _ _ _ hb) ha c5.symm c2 c4.le fuel
      refine ⟨s5, ?_, k2, k3⟩
      have q1 : splitPassB (hooks cf) fuel tau s1 (true, s4.root, j, s1.root, i) = .ok s3 := by
        unfold splitPassB
        simp only [if_true]
        rw [e1]
        exact g1
      have q2 : splitPassB (hooks cf) fuel tau s4 (false, s1.root, i, s4.root, j) = .ok s5 := k1
      rw [l1]
      simp only [ok_bind]
      rw [q1]
      simp only [ok_bind]
      rw [f1]
      simp only [ok_bind]
      rw [q2]
      rfl
    · have hl' : h0.isLeaf id = true := by simpa using hl
      simp only [hl', Bool.not_true, Bool.false_eq_true, if_false, List.nil_append]
      exact ih2 a p3 hrest ha (fun e he => hc e (by simp [Forest.edges, he])) on hs

end SplitProp
