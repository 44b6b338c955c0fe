import Verif.Lemmas.Dirac

/-!
The variational principle for what `direct_step` computes.
-/

open scoped BigOperators
open Py

namespace ML

open Heap

variable {T R : Type} [Zero T] [Field R] [StarRing R]

theorem sim_withTerm (s : Obj T R) (term : Term T R) : Sim2 (s.withTerm term) s.heap := by
  refine ⟨rfl, fun u => ?_⟩
  show noOps (noAux (if (s.heap.node u).isLeaf then { s.heap.node u with array := opOn s.now term u } else s.heap.node u)) = _
  cases q : (s.heap.node u).isLeaf with
  | true => simp [noOps, noAux, q]
  | false => rfl

/-- Objects that differ in the operators on the leaves, `aux`, and caches only. -/
structure Twin (s s0 : Obj T R) : Prop where
  sim : Sim2 s.heap s0.heap
  root : s.root = s0.root
  hList : s.hList = s0.hList
  fList : s.fList = s0.fList
  time : s.time = s0.time

theorem sim2_setArray {h h' : Heap R} (e : Sim2 h h') {t : ℕ} (hl : h.isLeaf t = false) (B : Option (Nd R)) :
    Sim2 (h.setArray t B) (h'.setArray t B) := by
  refine ⟨e.1, fun u => ?_⟩
  rw [node_setArray, node_setArray]
  split
  · rename_i q
    subst q
    have hq := e.2 u
    have h1 : (h.node u).isLeaf = false := hl
    have h2 : (h'.node u).isLeaf = false := by rw [← h1]; exact (e.isLeaf u).symm
    simp only [noOps, noAux, h1, h2, Bool.false_eq_true, if_false, Node.mk.injEq] at hq ⊢
    obtain ⟨q1, q2, q3, q4, q5, q6, q7, q8⟩ := hq
    refine ⟨?_, ?_, ?_, ?_, ?_, ?_, ?_, ?_⟩ <;> first | assumption | rfl
  · exact e.2 u

theorem Twin.terms {s s0 : Obj T R} (e : Twin s s0) : s.allTerms none = s0.allTerms none := by
  unfold Obj.allTerms; rw [e.fList, e.hList]

theorem Twin.now {s s0 : Obj T R} (e : Twin s s0) : s.now = s0.now := by unfold Obj.now; rw [e.time]

theorem Twin.leafList {s s0 : Obj T R} {F : Forest} (ht : s0.heap.IsTTN s0.root F) (e : Twin s s0) :
    s.heap.leafList s.root F = s0.heap.leafList s0.root F := by
  rw [e.root, e.sim.leafList (Sim2.ttn (Sim.symm e.sim) ht)]

theorem Twin.dot {s s0 : Obj T R} {F : Forest} (ht : s0.heap.IsTTN s0.root F) (e : Twin s s0) (φ χ : (ℕ → ℕ) → R) :
    dot s F φ χ = dot s0 F φ χ := by
  unfold ML.dot; rw [e.leafList ht]

theorem Twin.element {s s0 : Obj T R} {F : Forest} (ht : s0.heap.IsTTN s0.root F) (e : Twin s s0) (φ χ : (ℕ → ℕ) → R) :
    element s F φ χ = element s0 F φ χ := by
  unfold ML.element hEntry termEntry
  rw [e.leafList ht, e.terms, e.now]

theorem Twin.amp {s s0 : Obj T R} {F : Forest} (ht : s0.heap.IsTTN s0.root F) (e : Twin s s0) :
    s.heap.treeAmp s.root F = s0.heap.treeAmp s0.root F := by
  funext x
  rw [e.root, e.sim.treeAmp (Sim2.ttn (Sim.symm e.sim) ht)]

theorem Twin.variation {s s0 : Obj T R} {F : Forest} (ht : s0.heap.IsTTN s0.root F) (e : Twin s s0) {t : ℕ}
    (hm : t ∈ s0.heap.tensors s0.root F) {A B : Nd R} (hA : s0.heap.array t = some A) (hB : B.Wf) (hBs : B.shape = A.shape) :
    variation s F t (some B) = variation s0 F t (some B) := by
  funext x
  have hl : s.heap.isLeaf t = false := by rw [e.sim.isLeaf]; exact (mem_tensors.1 hm).2
  unfold ML.variation
  rw [e.root, (sim2_setArray e.sim hl (some B)).treeAmp ((Sim2.ttn (Sim.symm e.sim) ht).setArray (by rw [e.sim.array hl]; exact hA) hB hBs)]

/-- What is known after `derivative`. -/
theorem derivative_core' {s : Obj T R} {F : Forest} (hr : DirectReady s F) {lin : Linalg R} (hlin : lin.Works s F) {coef : R} (hcoef : coef ≠ 0)
    (ie : Option R) {fuel : ℕ} (hf : F.ids.length < fuel) :
    ∃ s2 inv s', derivative fuel lin coef ie s = .ok s' ∧ Twin s2 s ∧ Clean s F s' ∧ s'.root = s.root ∧
      Core s2 F inv coef ie (fun t => ((s'.heap.node t).aux).getD ⟨[], []⟩) ∧
      (∀ t ∈ s.heap.tensors s.root F, ∀ A, s.heap.array t = some A → ∃ D, (s'.heap.node t).aux = some D ∧ D.Wf ∧ D.shape = A.shape) ∧
      (∀ e ∈ s.heap.bonds s.root F, ∃ d M ρ, inv.get? e.2.2.1 = some M ∧ IsDensity s e.2.2.1 e.2.2.2 d ∧
        lin.invert (some d) (s.heap.hdim (e.2.2.1, e.2.2.2)) = .ok M ∧ IsField s2.heap e.2.2.1 e.2.2.2 ρ ∧
        d.Wf ∧ d.shape = [s.heap.hdim (e.2.2.1, e.2.2.2), s.heap.hdim (e.2.2.1, e.2.2.2)] ∧
        ∀ v < s.heap.hdim (e.2.2.1, e.2.2.2), ∀ w < s.heap.hdim (e.2.2.1, e.2.2.2), (d.get [v, w] = ρ v w)) ∧
      ∃ s1, formEnv fuel false s = .ok s1 ∧ formInvDensity fuel lin s1 = .ok (s2, inv) := by
  obtain ⟨s1, a1, a2, a3, a4, a5, a6, a7, -⟩ := formEnv_ok hr.ttn hr.norm hr.leaf hr.fits false hf
  have t1 : Twin s1 s := ⟨⟨a2.next, a2.same⟩, a3, a4, a5, a6⟩
  have ht1 : s1.heap.IsTTN s1.root F := by rw [a3]; exact Sim2.ttn (Sim.symm t1.sim) hr.ttn
  have hten1 : s1.heap.tensors s1.root F = s.heap.tensors s.root F := by rw [a3, t1.sim.tensors]
  have hbon : ∀ {s' : Obj T R}, Twin s' s → s'.heap.bonds s'.root F = s.heap.bonds s.root F := by
    intro s' e; unfold bonds; simp only [e.root, e.sim.isLeaf]
  have hmem : ∀ e ∈ s.heap.bonds s.root F, e.2.2.1 ∈ s.heap.tensors s.root F := fun e he =>
    mem_tensors.2 ⟨.inr (TreeSum.edges_mem (mem_bonds.1 he).1).2, (mem_bonds.1 he).2⟩
  have hnorm : ∀ {s' : Obj T R}, Twin s' s → ∀ t ∈ s'.heap.tensors s'.root F, (s'.heap.node t).axis ≠ none → s'.heap.MarkOk t := by
    intro s' e t hm ha
    rw [e.root, e.sim.tensors] at hm
    rw [e.sim.axis] at ha
    exact (hr.norm t hm ha).congr (Sim.symm e.sim)
  have hrooted : ∀ {s' : Obj T R}, Twin s' s → s'.heap.Rooted s'.root F := by
    intro s' e
    refine ⟨by rw [e.root, e.sim.axis]; exact hr.rooted.1, fun x hx => ?_⟩
    rw [hbon e] at hx
    rw [e.sim.axis]
    exact hr.rooted.2 x hx
  have hfield : ∀ {s' : Obj T R}, Twin s' s → ∀ {term t i v}, t ∈ s.heap.tensors s.root F →
      (FieldIs (s'.withTerm term) t i v ↔ FieldIs (s.withTerm term) t i v) := by
    intro s' e term t i v hm
    refine field_withTerm hr.ttn (Sim.trans (sim_withTerm s' term) e.sim) (fun l hl hlf => ?_) hm
    rw [withTerm_isLeaf] at hlf
    rw [withTerm_leaf hlf, e.now]
  have hhd : ∀ {s' : Obj T R}, Twin s' s → ∀ {t}, t ∈ s.heap.tensors s.root F → ∀ i, s'.heap.hdim (t, i) = s.heap.hdim (t, i) := by
    intro s' e t hm i
    exact e.sim.hdim (by rw [e.sim.isLeaf]; exact (mem_tensors.1 hm).2) i
  obtain ⟨h2, inv, b1, b2, b3⟩ := formInvDensity_ok ht1 (hrooted t1) (hnorm t1)
    (fun l hl hlf => by rw [t1.sim.axis]; exact hr.axes l hl (by rw [← t1.sim.isLeaf]; exact hlf)) (lin := lin) hf
    (fun e he d hd => by
      rw [hbon t1] at he
      obtain ⟨M, hM, -⟩ := hlin e he d ((hfield t1 (hmem e he)).1 hd)
      exact ⟨M, by rw [hhd t1 (hmem e he)]; exact hM⟩)
  set s2 : Obj T R := { s1 with heap := h2 } with hs2
  have t2 : Twin s2 s := ⟨Sim.trans ⟨b2.next, b2.same⟩ t1.sim, a3, a4, a5, a6⟩
  have ht2 : s2.heap.IsTTN s2.root F := by rw [t2.root]; exact Sim2.ttn (Sim.symm t2.sim) hr.ttn
  have hten2 : s2.heap.tensors s2.root F = s.heap.tensors s.root F := by rw [t2.root, t2.sim.tensors]
  have hready : EomReady s2 F inv := by
    refine ⟨ht2, hrooted t2, hnorm t2, ?_, ?_, ?_, ?_⟩
    · intro term q p hp
      rw [t2.terms] at q
      rw [t2.sim.isLeaf]
      exact hr.leaf term q p hp
    · intro term q p hp
      rw [t2.terms] at q
      rw [t2.leafList hr.ttn] at hp
      rw [t2.now]
      exact hr.fits term q p hp
    · intro e he
      rw [hbon t2] at he
      obtain ⟨d, M, q1, q2, q3⟩ := b3 e (by rw [hbon t1]; exact he)
      rw [hhd t1 (hmem e he)] at q3
      obtain ⟨M', q4, q5⟩ := hlin e he d ((hfield t1 (hmem e he)).1 q2)
      rw [q3] at q4
      cases q4
      exact ⟨M, q1, by rw [hhd t2 (hmem e he)]; exact q5⟩
    · intro t hm n i v hv
      rw [hten2] at hm
      obtain ⟨-, term, q1, E, q2, q3⟩ := a7 n t i v hv
      rw [hhd t2 hm]
      rw [withTerm_hdim term (mem_tensors.1 hm).2] at q3
      cases v with
      | none => rfl
      | some M => exact ⟨q3.1, q3.2.1⟩
  obtain ⟨s', c1, c2, c3, c4, -⟩ := eom_ok hready (by rw [t2.terms]; exact hr.terms) coef ie hf
  have t3 : Sim2 s'.heap s.heap := Sim.trans ⟨c2.next, c2.same⟩ t2.sim
  have haux : ∀ t ∈ s.heap.tensors s.root F, ∀ A, s.heap.array t = some A → ∃ D, (s'.heap.node t).aux = some D ∧ D.Wf ∧ D.shape = A.shape := by
    intro t hm A hA
    obtain ⟨G, X, D, d1, d2, d3, -⟩ := c4 t (by rw [hten2]; exact hm) A
      (by rw [t2.sim.array (by rw [t2.sim.isLeaf]; exact (mem_tensors.1 hm).2)]; exact hA)
    exact ⟨D, d1, d2, d3⟩
  have hothers : ∀ l, s'.heap.isLeaf l = true → s.heap.array l = none → s'.heap.array l = none := by
    intro l hl h0
    have h1 : s1.heap.isLeaf l = true := by rw [t1.sim.isLeaf, ← t3.isLeaf]; exact hl
    have h2 : s2.heap.isLeaf l = true := by rw [t2.sim.isLeaf, ← t3.isLeaf]; exact hl
    exact c2.others l hl (b2.others l h2 (a2.others l h1 h0))
  refine ⟨s2, inv, s', ?_, t2, ⟨t3.1, t3.2, c2.leaves, hothers⟩, c3.trans t2.root, ⟨hready, ?_, ?_, ?_, hcoef, ?_⟩, haux, ?_, s1, a1, b1⟩
  · unfold derivative
    rw [a1]
    simp only [ok_bind]
    rw [b1]
    simp only [ok_bind]
    exact c1
  · intro e he
    rw [hbon t2] at he
    obtain ⟨A, q1, q2⟩ := hr.can e he
    exact ⟨A, by rw [t2.sim.array (by rw [t2.sim.isLeaf]; exact (mem_bonds.1 he).2)]; exact q1, q2⟩
  · intro e he hlf
    exact b2.leaves _ (TreeSum.edges_mem he).2 hlf
  · intro t hm n term hn i v hv
    rw [hten2] at hm
    rw [t2.terms] at hn
    obtain ⟨-, term', q1, q2⟩ := a7 n t i v hv
    obtain rfl : term = term' := Option.some.inj (hn.symm.trans q1)
    exact (hfield t2 hm).2 q2
  · intro t hm A hA
    have := c4 t hm A hA
    obtain ⟨D, d1, -⟩ := haux t (by rw [← hten2]; exact hm) A
      (by rw [← t2.sim.array (by rw [t2.root] at hm; exact (mem_tensors.1 hm).2)]; exact hA)
    rw [d1] at this ⊢
    exact this
  · intro e he
    obtain ⟨d, M, q1, q2, q3⟩ := b3 e (by rw [hbon t1]; exact he)
    have q4 := (hfield t1 (hmem e he)).1 q2
    rw [hhd t1 (hmem e he)] at q3
    obtain ⟨ρ, q5, q6⟩ := (field_withTerm hr.ttn t2.sim (term := []) (fun l hl hlf => b2.leaves l hl hlf) (hmem e he)).2 q4
    rw [hhd t2 (hmem e he)] at q6
    exact ⟨d, M, ρ, q1, q4, q3, q5, q6.1, q6.2.1, q6.2.2⟩

/-- What is known after `derivative`. -/
theorem derivative_core {s : Obj T R} {F : Forest} (hr : DirectReady s F) {lin : Linalg R} (hlin : lin.Works s F) {coef : R} (hcoef : coef ≠ 0)
    (ie : Option R) {fuel : ℕ} (hf : F.ids.length < fuel) :
    ∃ s2 inv s', derivative fuel lin coef ie s = .ok s' ∧ Twin s2 s ∧ Clean s F s' ∧ s'.root = s.root ∧
      Core s2 F inv coef ie (fun t => ((s'.heap.node t).aux).getD ⟨[], []⟩) ∧
      (∀ t ∈ s.heap.tensors s.root F, ∀ A, s.heap.array t = some A → ∃ D, (s'.heap.node t).aux = some D ∧ D.Wf ∧ D.shape = A.shape) ∧
      ∀ e ∈ s.heap.bonds s.root F, ∃ d M ρ, inv.get? e.2.2.1 = some M ∧ IsDensity s e.2.2.1 e.2.2.2 d ∧
        lin.invert (some d) (s.heap.hdim (e.2.2.1, e.2.2.2)) = .ok M ∧ IsField s2.heap e.2.2.1 e.2.2.2 ρ ∧
        d.Wf ∧ d.shape = [s.heap.hdim (e.2.2.1, e.2.2.2), s.heap.hdim (e.2.2.1, e.2.2.2)] ∧
        ∀ v < s.heap.hdim (e.2.2.1, e.2.2.2), ∀ w < s.heap.hdim (e.2.2.1, e.2.2.2), d.get [v, w] = ρ v w := by
  obtain ⟨s2, inv, s', a1, a2, a3, a4, a5, a6, a7, -⟩ := derivative_core' hr hlin hcoef ie hf
  exact ⟨s2, inv, s', a1, a2, a3, a4, a5, a6, a7⟩

end ML
