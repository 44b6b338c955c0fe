import Verif.Lemmas.MultiLayer
import Verif.Props.C29
import Mathlib.NumberTheory.Zsqrtd.GaussianInt

/-!
C16: matrix elements and expectation values of a sum of products of operators against the dense matrix
`dense_hamiltonian()`.

`stateVec h r F k` is entry `k` of the dense state vector of the network (`Spec/TermVisitor.lean`); `braNet true` is the network
of the arrays stored in `aux`. The full claim `<aux|H|state> = Σ aux[j] H[j, i] state[i]` fails for a matrix `H` that is not
symmetric (`C16_violated`): the code computes with the transposed matrix. What is proved for every network and list of terms is
the value with the transposed matrix, and the claim for symmetric `H`.
-/

open scoped BigOperators
open Py

namespace ML

open Heap

variable {T R : Type} [Zero T] [CommRing R] [StarRing R]

/-- What is assumed of the object: the network is a tree with a root, the leaves are linked by their axis 0, the terms are
constant, name only leaves of any network and fit to the dimensions. -/
structure Ready (s : Obj T R) (F : Forest) : Prop where
  ttn : s.heap.IsTTN s.root F
  axis : (s.heap.node s.root).axis = none
  zero : ∀ e ∈ F.edges s.root, s.heap.isLeaf e.2.2.1 = true → e.2.2.2 = 0
  const : s.fList = none
  mats : ∀ term ∈ s.hList, ∀ p ∈ term, ∃ a, p.2 = TermOp.mat a
  leaf : ∀ term ∈ s.hList, ∀ p ∈ term, s.heap.isLeaf p.1 = true
  fits : ∀ term ∈ s.hList, ∀ p ∈ s.heap.leafList s.root F, OpFits (opOn 0 term p.1) p.2 p.2

private theorem terms_eq {s : Obj T R} {F : Forest} (hr : Ready s F) : s.allTerms none = s.hList := by
  unfold Obj.allTerms; rw [hr.const]

private theorem mem_leafList {h : Heap R} {r : ℕ} {F : Forest} {e : ℕ × ℕ × ℕ × ℕ} (he : e ∈ F.edges r)
    (hl : h.isLeaf e.2.2.1 = true) : (e.2.2.1, h.hdim (e.1, e.2.1)) ∈ h.leafList r F :=
  List.mem_map.2 ⟨e, List.mem_filter.2 ⟨he, hl⟩, rfl⟩

/-- From the sum over leaf indices to the sum over the two indices of the dense matrix. -/
private theorem dense_sum {s : Obj T R} {F : Forest} (hr : Ready s F) (bra : (ℕ → ℕ) → R) (H : Nd R)
    (hH : ∀ i < s.heap.stateDim s.root F, ∀ j < s.heap.stateDim s.root F, H.get [i, j] =
        (s.hList.map fun term => (denseTerm (s.heap.leafList s.root F) term).get [i, j]).sum) :
    (s.hList.map fun term => sumLeaves (s.heap.leafList s.root F) (fun x => sumLeaves (s.heap.leafList s.root F) (fun y =>
      s.heap.treeAmp s.root F x * termEntry s (s.heap.leafList s.root F) term x y * bra y) (fun _ => 0)) (fun _ => 0)).sum =
    ∑ i ∈ Finset.range (s.heap.stateDim s.root F), ∑ j ∈ Finset.range (s.heap.stateDim s.root F),
      s.heap.stateVec s.root F i * H.get [i, j] *
        bra (leafPoint (s.heap.leafList s.root F) (unravel ((s.heap.leafList s.root F).map Prod.snd) j) fun _ => 0) := by
  set L := s.heap.leafList s.root F with hL
  have hnd : (L.map Prod.fst).Nodup := leafList_nodup hr.ttn
  have h1 : ∀ term ∈ s.hList, sumLeaves L (fun x => sumLeaves L (fun y =>
      s.heap.treeAmp s.root F x * termEntry s L term x y * bra y) (fun _ => 0)) (fun _ => 0) =
      ∑ i ∈ Finset.range (s.heap.stateDim s.root F), ∑ j ∈ Finset.range (s.heap.stateDim s.root F),
        s.heap.stateVec s.root F i * (denseTerm L term).get [i, j] *
          bra (leafPoint L (unravel (L.map Prod.snd) j) fun _ => 0) := by
    intro term ht
    rw [sumLeaves_range]
    refine Finset.sum_congr rfl fun i hi => ?_
    rw [sumLeaves_range]
    refine Finset.sum_congr rfl fun j hj => ?_
    obtain ⟨-, -, d3⟩ := denseTerm_spec hnd (hr.fits term ht)
    rw [d3 i (Finset.mem_range.1 hi) j (Finset.mem_range.1 hj)]
    unfold termEntry stateVec
    simp only [opOn_mat (hr.mats term ht) s.now 0]
    rfl
  rw [List.map_congr_left h1]
  have h2 : ∀ i ∈ Finset.range (s.heap.stateDim s.root F), ∀ j ∈ Finset.range (s.heap.stateDim s.root F),
      s.heap.stateVec s.root F i * H.get [i, j] * bra (leafPoint L (unravel (L.map Prod.snd) j) fun _ => 0) =
      (s.hList.map fun term => s.heap.stateVec s.root F i * (denseTerm L term).get [i, j] *
        bra (leafPoint L (unravel (L.map Prod.snd) j) fun _ => 0)).sum := by
    intro i hi j hj
    rw [hH i (Finset.mem_range.1 hi) j (Finset.mem_range.1 hj)]
    rw [List.sum_map_mul_right, List.sum_map_mul_left]
  rw [Finset.sum_congr rfl fun i hi => Finset.sum_congr rfl fun j hj => h2 i hi j hj]
  generalize s.hList = l
  induction l with
  | nil => simp
  | cons t l ih => simp only [List.map_cons, List.sum_cons, Finset.sum_add_distrib, ih]

/-- The states at the terms: everything needed for the theorems of C14. -/
private theorem at_ttn {s0 s : Obj T R} {F : Forest} (hr : Ready s0 F) {uc : Bool} {n : ℕ} {term : Term T R}
    (hterm : term ∈ s0.hList) (hat : AtTerm s0 F uc n term s) :
    Sim2 s.heap s0.heap ∧ s.heap.IsTTN s0.root F ∧ s.heap.leafList s0.root F = s0.heap.leafList s0.root F ∧
      (∀ l ∈ (s0.heap.leafList s0.root F).map Prod.fst, s.heap.array l = opOn s0.now term l) ∧
      ∀ e ∈ F.edges s0.root, s.heap.isLeaf e.2.2.1 = true →
        OpFits (s.heap.array e.2.2.1) (s0.heap.hdim (e.1, e.2.1)) (s0.heap.hdim (e.1, e.2.1)) := by
  have e : Sim2 s.heap s0.heap := ⟨hat.next, hat.same⟩
  have ht := Sim2.ttn (Sim.symm e) hr.ttn
  have hl : ∀ l ∈ F.ids, s.heap.isLeaf l = true → s.heap.array l = opOn s0.now term l := hat.leaves
  refine ⟨e, ht, e.leafList ht, fun l hm => ?_, fun x hx hlf => ?_⟩
  · rw [leafList_fst] at hm
    obtain ⟨h1, h2⟩ := List.mem_filter.1 hm
    exact hl l h1 (by rw [e.isLeaf]; exact h2)
  · rw [hl _ (TreeSum.edges_mem hx).2 hlf, opOn_mat (hr.mats term hterm) s0.now 0]
    exact hr.fits term hterm _ (mem_leafList hx (by rw [← e.isLeaf]; exact hlf))

/-- `matrix_element()` of a `MultiLayer` object and its dense matrix: the first index of the matrix belongs to the state, the
second to `aux`. In the end the leaves carry no operator. -/
theorem C16_matrix_element_partial {s : Obj T R} {F : Forest} (hr : Ready s F) (hne : s.hList ≠ [])
    (hb : (s.heap.braNet true).IsTTN s.root F)
    (hd : (s.heap.braNet true).leafList s.root F = s.heap.leafList s.root F) {fuel : ℕ} (hf : F.depth < fuel) :
    ∃ s' H, denseHamiltonian fuel s = .ok (some H) ∧ H.Wf ∧ H.shape = [s.heap.stateDim s.root F, s.heap.stateDim s.root F] ∧
      matrixElement fuel none s = .ok (s', ∑ i ∈ Finset.range (s.heap.stateDim s.root F),
        ∑ j ∈ Finset.range (s.heap.stateDim s.root F),
          s.heap.stateVec s.root F i * H.get [i, j] * (s.heap.braNet true).stateVec s.root F j) ∧ Clean s F s' := by
  obtain ⟨H, d1, d2, d3, d4⟩ := denseHamiltonian_ok hr.ttn hr.axis hr.zero hr.const hne hr.fits hf
  have hbra : ∀ j, (s.heap.braNet true).stateVec s.root F j = (s.heap.braNet true).treeAmp s.root F
      (leafPoint (s.heap.leafList s.root F) (unravel ((s.heap.leafList s.root F).map Prod.snd) j) fun _ => 0) := by
    intro j; unfold stateVec; rw [hd]
  have hsum := dense_sum hr (fun y => (s.heap.braNet true).treeAmp s.root F y) H d4
  have hdim : ∀ e ∈ F.edges s.root, s.heap.isLeaf e.2.2.1 = true →
      s.heap.hdim (e.1, e.2.1) = (s.heap.braNet true).hdim (e.1, e.2.1) := by
    intro e he hl
    have hlf : (s.heap.braNet true).isLeaf = s.heap.isLeaf := rfl
    unfold Heap.leafList at hd
    rw [hlf, List.map_eq_map_iff] at hd
    have := hd e (List.mem_filter.2 ⟨he, hl⟩)
    simpa using this.symm
  obtain ⟨s', a', v1, v2, v3⟩ := termVisitor_ok (A := R) (useCache := false) (onlyTd := false) (op := none) hr.ttn hf
    (body := fun _ x => do
      let (h, ans) ← Heap.matrixElement fuel x.1.heap x.1.root
      let v ← scalar ans
      pure ({ x.1 with heap := h }, x.2 + v))
    (I := fun n s1 a => s1.root = s.root ∧ (∀ t, s.heap.isLeaf t = false → (s1.heap.node t).aux = (s.heap.node t).aux) ∧
      a = ((s.hList.take n).map fun term => sumLeaves (s.heap.leafList s.root F) (fun x =>
        sumLeaves (s.heap.leafList s.root F) (fun y => s.heap.treeAmp s.root F x *
          termEntry s (s.heap.leafList s.root F) term x y * (s.heap.braNet true).treeAmp s.root F y) (fun _ => 0))
            (fun _ => 0)).sum)
    (fun n s1 a h' e hi => ⟨hi.1, fun t hl => by
      rw [← hi.2.1 t hl]
      have := congrArg Node.aux (e.2 t); exact this.symm, hi.2.2⟩)
    (by rw [terms_eq hr]; exact hr.leaf)
    (fun n term hn _ s1 a hat _ hi => by
      rw [terms_eq hr] at hn
      have hterm := List.mem_of_getElem? hn
      obtain ⟨e, t1, l1, o1, o2⟩ := at_ttn hr hterm hat
      have eb : Sim2 (s1.heap.braNet true) (s.heap.braNet true) :=
        e.bra fun t hl => hi.2.1 t (by rw [← e.isLeaf]; exact hl)
      have tb := Sim2.ttn (Sim.symm eb) hb
      obtain ⟨h', m1⟩ := C14_matrix_element (fuel := fuel) t1 tb (by rw [e.axis]; exact hr.axis) (fun x hx hl => by
        have hs := (mem_tensors.1 (edges_src_mem t1 hx)).2
        rw [e.hdim hs, eb.hdim (by rw [braNet_isLeaf]; exact hs), ← hdim x hx (by rw [← e.isLeaf]; exact hl)]
        exact o2 x hx hl) hf
      have m2 := m1
      unfold Heap.matrixElement at m2
      rw [leaves_tree t1 (by rw [e.axis]; exact hr.axis) hf] at m2
      have m3 := (partialEnv_core _ _ _ _ _ m2).noAux
      have m4 : Sim noAux ((TreeSum.leavesOf s1.heap.isLeaf F).foldl (fun h l => h.setAux l (h.array l)) s1.heap) s1.heap :=
        foldl_sim (fun h l => setAux_noAux h l _) _ _
      have haux : ∀ t, s.heap.isLeaf t = false → (h'.node t).aux = (s.heap.node t).aux := by
        intro t hl
        rw [(partialEnv_core _ _ _ _ _ m2).aux, (foldl_setAux (fun h l => h.array l) (fun h a x l => by
          unfold Heap.array setAux Heap.upd; simp only; split <;> rfl) _ s1.heap).2 t, if_neg]
        · exact hi.2.1 t hl
        · intro q
          have := (List.mem_filter.1 q).2
          rw [e.isLeaf, hl] at this; cases this
      have hval : s1.root = s.root := hi.1
      refine ⟨{ s1 with heap := h' }, _, by
        simp only [hval]
        rw [m1]
        rfl, (m3.trans m4).symm, rfl, hi.1, haux, ?_⟩
      rw [hi.2.2, List.take_add_one, hn]
      simp only [Option.toList_some, List.map_append, List.map_cons, List.map_nil, List.sum_append, List.sum_cons,
        List.sum_nil, add_zero]
      congr 1
      rw [l1, eb.leafList tb, hd]
      refine TreeSum.sumLeaves_congr fun x => TreeSum.sumLeaves_congr fun y => ?_
      rw [← e.treeAmp t1, ← eb.treeAmp tb]
      unfold termEntry
      congr 3
      exact List.map_congr_left fun l hl => by rw [o1 l hl])
    (a := 0) ⟨rfl, fun _ _ => rfl, by simp [firstTerm]⟩
  rw [terms_eq hr, List.take_length] at v3
  have hval := v3.2.2.trans hsum
  refine ⟨s', H, d1, d2, d3, ?_, v2⟩
  unfold matrixElement
  rw [v1, hval]
  simp only [hbra]

/-- The claim holds if the dense matrix is symmetric. -/
theorem C16_matrix_element_symmetric {s : Obj T R} {F : Forest} (hr : Ready s F) (hne : s.hList ≠ [])
    (hb : (s.heap.braNet true).IsTTN s.root F)
    (hd : (s.heap.braNet true).leafList s.root F = s.heap.leafList s.root F) {fuel : ℕ} (hf : F.depth < fuel)
    {H : Nd R} (hH : denseHamiltonian fuel s = .ok (some H))
    (hsym : ∀ i < s.heap.stateDim s.root F, ∀ j < s.heap.stateDim s.root F, H.get [i, j] = H.get [j, i]) :
    ∃ s', matrixElement fuel none s = .ok (s', ∑ j ∈ Finset.range (s.heap.stateDim s.root F),
        ∑ i ∈ Finset.range (s.heap.stateDim s.root F),
          (s.heap.braNet true).stateVec s.root F j * H.get [j, i] * s.heap.stateVec s.root F i) := by
  obtain ⟨s', H', e1, -, -, e2, -⟩ := C16_matrix_element_partial hr hne hb hd hf
  rw [hH] at e1
  have : H = H' := Option.some.inj (Except.ok.inj e1)
  subst this
  refine ⟨s', ?_⟩
  rw [e2, Finset.sum_comm]
  congr 2
  refine Finset.sum_congr rfl fun j hj => Finset.sum_congr rfl fun i hi => ?_
  rw [hsym i (Finset.mem_range.1 hi) j (Finset.mem_range.1 hj)]
  ring

/-- The sum over the terms in `expection`, and the squared norm computed after it. -/
theorem expection_core {s : Obj T R} {F : Forest} (hr : Ready s F) (hne : s.hList ≠ []) {fuel : ℕ} (hf : F.depth < fuel) :
    ∃ s' H h', denseHamiltonian fuel s = .ok (some H) ∧ H.Wf ∧ H.shape = [s.heap.stateDim s.root F, s.heap.stateDim s.root F] ∧
      termVisitor fuel false none false (fun _ x => do
        let (h, ans) ← Heap.expection fuel x.1.heap x.1.root
        let v ← scalar ans
        pure ({ x.1 with heap := h }, x.2 + v)) s 0 = .ok (s',
          ∑ i ∈ Finset.range (s.heap.stateDim s.root F), ∑ j ∈ Finset.range (s.heap.stateDim s.root F),
            s.heap.stateVec s.root F i * H.get [i, j] * star (s.heap.stateVec s.root F j)) ∧
      Heap.globalSquare fuel s'.heap s'.root = .ok (h', some ⟨[], [∑ i ∈ Finset.range (s.heap.stateDim s.root F),
          s.heap.stateVec s.root F i * star (s.heap.stateVec s.root F i)]⟩) := by
  obtain ⟨H, d1, d2, d3, d4⟩ := denseHamiltonian_ok hr.ttn hr.axis hr.zero hr.const hne hr.fits hf
  have hsum := dense_sum hr (fun x => star (s.heap.treeAmp s.root F x)) H d4
  obtain ⟨s', a', v1, v2, v3⟩ := termVisitor_ok (A := R) (useCache := false) (onlyTd := false) (op := none) hr.ttn hf
    (body := fun _ x => do
      let (h, ans) ← Heap.expection fuel x.1.heap x.1.root
      let v ← scalar ans
      pure ({ x.1 with heap := h }, x.2 + v))
    (I := fun n s1 a => s1.root = s.root ∧
      a = ((s.hList.take n).map fun term => sumLeaves (s.heap.leafList s.root F) (fun x =>
        sumLeaves (s.heap.leafList s.root F) (fun y => s.heap.treeAmp s.root F x *
          termEntry s (s.heap.leafList s.root F) term x y * star (s.heap.treeAmp s.root F y)) (fun _ => 0))
            (fun _ => 0)).sum)
    (fun n s1 a h' e hi => hi)
    (by rw [terms_eq hr]; exact hr.leaf)
    (fun n term hn _ s1 a hat _ hi => by
      rw [terms_eq hr] at hn
      have hterm := List.mem_of_getElem? hn
      obtain ⟨e, t1, l1, o1, o2⟩ := at_ttn hr hterm hat
      obtain ⟨h', m1⟩ := C14_expection (fuel := fuel) t1 (by rw [e.axis]; exact hr.axis) (fun x hx hl => by
        have hs := (mem_tensors.1 (edges_src_mem t1 hx)).2
        rw [e.hdim hs]
        exact o2 x hx hl) hf
      have m2 := m1
      unfold Heap.expection at m2
      obtain ⟨h1, c1, c2⟩ := bind_eq_ok.1 m2
      have c3 : Sim noAux h1 s1.heap := by
        unfold conjAux at c1
        obtain ⟨ts, c4, c5⟩ := bind_eq_ok.1 c1
        have c6 := Except.ok.inj c5
        rw [← c6]
        exact foldl_sim (fun h l => setAux_noAux h l _) _ _
      have c7 : Sim noAux h' h1 := by
        unfold Heap.matrixElement at c2
        obtain ⟨ls, c4, c5⟩ := bind_eq_ok.1 c2
        exact (partialEnv_core _ _ _ _ _ c5).noAux.trans (foldl_sim (fun h l => setAux_noAux h l _) _ _)
      have hval : s1.root = s.root := hi.1
      refine ⟨{ s1 with heap := h' }, _, by
        simp only [hval]
        rw [m1]
        rfl, (c7.trans c3).symm, rfl, hi.1, ?_⟩
      rw [hi.2, List.take_add_one, hn]
      simp only [Option.toList_some, List.map_append, List.map_cons, List.map_nil, List.sum_append, List.sum_cons,
        List.sum_nil, add_zero]
      congr 1
      rw [l1]
      refine TreeSum.sumLeaves_congr fun x => TreeSum.sumLeaves_congr fun y => ?_
      rw [← e.treeAmp t1, ← e.treeAmp t1]
      unfold termEntry
      congr 3
      exact List.map_congr_left fun l hl => by rw [o1 l hl])
    (a := 0) ⟨rfl, by simp [firstTerm]⟩
  rw [terms_eq hr, List.take_length] at v3
  have hval : a' = ∑ i ∈ Finset.range (s.heap.stateDim s.root F), ∑ j ∈ Finset.range (s.heap.stateDim s.root F),
      s.heap.stateVec s.root F i * H.get [i, j] * star (s.heap.stateVec s.root F j) := v3.2.trans hsum
  have hroot : s'.root = s.root := v3.1
  have e : Sim2 s'.heap s.heap := ⟨v2.next, v2.same⟩
  have t1 := Sim2.ttn (Sim.symm e) hr.ttn
  obtain ⟨h', q⟩ := C14_global_square (fuel := fuel) t1 (by rw [e.axis]; exact hr.axis) hf
  refine ⟨s', H, h', d1, d2, d3, by rw [v1, hval], ?_⟩
  rw [hroot, q]
  rw [e.leafList t1, sumLeaves_range]
  simp only [← e.treeAmp t1]
  rfl

/-- `expection()` and the dense matrix; with `normalized=True` the value is divided by the squared norm. -/
theorem C16_expection_partial {s : Obj T R} {F : Forest} (hr : Ready s F) (hne : s.hList ≠ []) {fuel : ℕ} (hf : F.depth < fuel)
    (inv : R → R) (normalized : Bool) :
    ∃ s' H, denseHamiltonian fuel s = .ok (some H) ∧ H.Wf ∧ H.shape = [s.heap.stateDim s.root F, s.heap.stateDim s.root F] ∧
      expection fuel inv normalized none s = .ok (s',
        let v := ∑ i ∈ Finset.range (s.heap.stateDim s.root F), ∑ j ∈ Finset.range (s.heap.stateDim s.root F),
          s.heap.stateVec s.root F i * H.get [i, j] * star (s.heap.stateVec s.root F j)
        if normalized then v * inv (∑ i ∈ Finset.range (s.heap.stateDim s.root F),
          s.heap.stateVec s.root F i * star (s.heap.stateVec s.root F i)) else v) := by
  obtain ⟨s', H, h', d1, d2, d3, v1, q⟩ := expection_core hr hne hf
  cases normalized with
  | false =>
    refine ⟨s', H, d1, d2, d3, ?_⟩
    unfold expection
    rw [v1]
    rfl
  | true =>
    refine ⟨{ s' with heap := h' }, H, d1, d2, d3, ?_⟩
    unfold expection
    rw [v1]
    simp only [bind, Except.bind, if_true]
    rw [q]
    rfl

/-- The same for a symmetric dense matrix: `<state|H|state>`, divided by `<state|state>` if `normalized`. -/
theorem C16_expection_symmetric {s : Obj T R} {F : Forest} (hr : Ready s F) (hne : s.hList ≠ []) {fuel : ℕ} (hf : F.depth < fuel)
    (inv : R → R) (normalized : Bool) {H : Nd R} (hH : denseHamiltonian fuel s = .ok (some H))
    (hsym : ∀ i < s.heap.stateDim s.root F, ∀ j < s.heap.stateDim s.root F, H.get [i, j] = H.get [j, i]) :
    ∃ s', expection fuel inv normalized none s = .ok (s',
        let v := ∑ j ∈ Finset.range (s.heap.stateDim s.root F), ∑ i ∈ Finset.range (s.heap.stateDim s.root F),
          star (s.heap.stateVec s.root F j) * H.get [j, i] * s.heap.stateVec s.root F i
        if normalized then v * inv (∑ i ∈ Finset.range (s.heap.stateDim s.root F),
          s.heap.stateVec s.root F i * star (s.heap.stateVec s.root F i)) else v) := by
  obtain ⟨s', H', e1, -, -, e2⟩ := C16_expection_partial hr hne hf inv normalized
  rw [hH] at e1
  have : H = H' := Option.some.inj (Except.ok.inj e1)
  subst this
  refine ⟨s', ?_⟩
  rw [e2, Finset.sum_comm]
  have : ∀ j ∈ Finset.range (s.heap.stateDim s.root F), ∀ i ∈ Finset.range (s.heap.stateDim s.root F),
      s.heap.stateVec s.root F i * H.get [i, j] * star (s.heap.stateVec s.root F j) =
      star (s.heap.stateVec s.root F j) * H.get [j, i] * s.heap.stateVec s.root F i := fun j hj i hi => by
    rw [hsym i (Finset.mem_range.1 hi) j (Finset.mem_range.1 hj)]
    ring
  rw [Finset.sum_congr rfl fun j hj => Finset.sum_congr rfl fun i hi => this j hj i hi]

/-! Instances. -/

/-- The network of C14 with two terms; their sum is not symmetric. -/
def exSum : Obj ℕ ℤ :=
  { heap := exTwoAux, root := 0,
    hList := [[(2, .mat ⟨[2, 2], [9, 9, 9, 9]⟩), (3, .mat ⟨[2, 2], [1, 2, 3, 4]⟩), (2, .mat ⟨[2, 2], [0, 1, 1, 0]⟩)],
      [(3, .mat ⟨[2, 2], [1, 0, 0, -1]⟩)]],
    fList := none, time := none, env := [] }

/-- The same with symmetric operators. -/
def exSym : Obj ℕ ℤ :=
  { exSum with hList := [[(2, .mat ⟨[2, 2], [1, 2, 2, 0]⟩), (3, .mat ⟨[2, 2], [1, 3, 3, 4]⟩)], [(3, .mat ⟨[2, 2], [1, 0, 0, -1]⟩)]] }

theorem exSum_ready : Ready exSum exTwoForest := by
  have hleaf : exSum.heap.leafList 0 exTwoForest = [(3, 2), (2, 2)] := by decide
  refine ⟨exTwoAux_ttn, rfl, ?_, rfl, ?_, ?_, ?_⟩
  · intro e he hl
    have : e ∈ [(0, 0, 1, 1), (1, 0, 3, 0), (0, 1, 2, 0)] := he
    simp only [List.mem_cons, List.not_mem_nil, or_false] at this
    rcases this with rfl | rfl | rfl
    · cases hl
    · rfl
    · rfl
  · intro term h p hp
    simp only [exSum, List.mem_cons, List.not_mem_nil, or_false] at h
    rcases h with rfl | rfl <;> simp only [List.mem_cons, List.not_mem_nil, or_false] at hp
    · rcases hp with rfl | rfl | rfl <;> exact ⟨_, rfl⟩
    · subst hp; exact ⟨_, rfl⟩
  · intro term h p hp
    simp only [exSum, List.mem_cons, List.not_mem_nil, or_false] at h
    rcases h with rfl | rfl <;> simp only [List.mem_cons, List.not_mem_nil, or_false] at hp
    · rcases hp with rfl | rfl | rfl <;> rfl
    · subst hp; rfl
  · intro term h p hp
    have hp' : p ∈ exSum.heap.leafList 0 exTwoForest := hp
    rw [hleaf] at hp'
    simp only [exSum, List.mem_cons, List.not_mem_nil, or_false] at h hp'
    rcases h with rfl | rfl <;> rcases hp' with rfl | rfl
    · exact ⟨rfl, rfl⟩
    · exact ⟨rfl, rfl⟩
    · exact ⟨rfl, rfl⟩
    · rfl

theorem exSym_ready : Ready exSym exTwoForest := by
  have hleaf : exSym.heap.leafList 0 exTwoForest = [(3, 2), (2, 2)] := by decide
  refine ⟨exTwoAux_ttn, rfl, exSum_ready.zero, rfl, ?_, ?_, ?_⟩
  · intro term h p hp
    simp only [exSym, List.mem_cons, List.not_mem_nil, or_false] at h
    rcases h with rfl | rfl <;> simp only [List.mem_cons, List.not_mem_nil, or_false] at hp
    · rcases hp with rfl | rfl <;> exact ⟨_, rfl⟩
    · subst hp; exact ⟨_, rfl⟩
  · intro term h p hp
    simp only [exSym, List.mem_cons, List.not_mem_nil, or_false] at h
    rcases h with rfl | rfl <;> simp only [List.mem_cons, List.not_mem_nil, or_false] at hp
    · rcases hp with rfl | rfl <;> rfl
    · subst hp; rfl
  · intro term h p hp
    have hp' : p ∈ exSym.heap.leafList 0 exTwoForest := hp
    rw [hleaf] at hp'
    simp only [exSym, List.mem_cons, List.not_mem_nil, or_false] at h hp'
    rcases h with rfl | rfl <;> rcases hp' with rfl | rfl
    · exact ⟨rfl, rfl⟩
    · exact ⟨rfl, rfl⟩
    · exact ⟨rfl, rfl⟩
    · rfl

example : ∃ s' H, denseHamiltonian 3 exSum = .ok (some H) ∧ H.Wf ∧ H.shape = [4, 4] ∧
      matrixElement 3 none exSum = .ok (s', ∑ i ∈ Finset.range 4, ∑ j ∈ Finset.range 4,
          exSum.heap.stateVec 0 exTwoForest i * H.get [i, j] * (exSum.heap.braNet true).stateVec 0 exTwoForest j) ∧
      Clean exSum exTwoForest s' :=
  C16_matrix_element_partial exSum_ready (by simp [exSum]) exTwoAux_bra (by decide) (by decide)

/-- The dense matrix and the value computed. -/
example : (denseHamiltonian 3 exSum).toOption.bind (fun H => H.map Nd.data) =
      some [1, 1, 0, 2, 1, 1, 2, 0, 0, 3, -1, 4, 3, 0, 4, -1] ∧
    (matrixElement 3 none exSum).toOption.map Prod.snd = some 2433 := by
  constructor
  · decide +kernel
  · decide +kernel

example : ∃ H, denseHamiltonian 3 exSym = .ok (some H) ∧ ∃ s', matrixElement 3 none exSym = .ok (s', ∑ j ∈ Finset.range 4,
    ∑ i ∈ Finset.range 4, (exSym.heap.braNet true).stateVec 0 exTwoForest j * H.get [j, i] *
      exSym.heap.stateVec 0 exTwoForest i) := by
  refine ⟨_, rfl, ?_⟩
  refine C16_matrix_element_symmetric exSym_ready (by simp [exSym]) exTwoAux_bra (by decide) (by decide) rfl ?_
  decide +kernel

example : ∃ s' H, denseHamiltonian 3 exSum = .ok (some H) ∧ H.Wf ∧ H.shape = [4, 4] ∧
      expection 3 (fun x => x) false none exSum = .ok (s', ∑ i ∈ Finset.range 4, ∑ j ∈ Finset.range 4,
          exSum.heap.stateVec 0 exTwoForest i * H.get [i, j] * star (exSum.heap.stateVec 0 exTwoForest j)) :=
  C16_expection_partial exSum_ready (by simp [exSum]) (by decide) _ false

/-! The claim fails for a Hermitian matrix that is not symmetric: one tensor with one leaf, the state `(1, i)`, the operator
`σ_y`. The expectation value is `2`; the code returns `-2`. -/

/-- A network of one tensor (0) and one leaf (1) over the Gaussian integers. -/
def exGauss : Heap GaussianInt :=
  let h : Heap GaussianInt := ⟨fun _ => Node.tensor none none none, 0⟩
  let h := (h.alloc (Node.tensor (some ['a']) (some ⟨[2], [1, ⟨0, 1⟩]⟩) none)).1
  let h := (h.alloc (Node.leaf (some ['x']))).1
  h.link 0 0 1 0

/-- `σ_y` on its leaf. -/
def exSigma : Obj ℕ GaussianInt :=
  { heap := exGauss, root := 0, hList := [[(1, .mat ⟨[2, 2], [0, ⟨0, -1⟩, ⟨0, 1⟩, 0]⟩)]], fList := none, time := none, env := [] }

theorem C16_violated : (expection 2 (fun x => x) false none exSigma).toOption.map Prod.snd = some (-2) ∧
    (∃ H, denseHamiltonian 2 exSigma = .ok (some H) ∧
      ∑ j ∈ Finset.range 2, ∑ i ∈ Finset.range 2, star (exSigma.heap.stateVec 0 (.cons 0 0 1 .nil .nil) j) * H.get [j, i] *
        exSigma.heap.stateVec 0 (.cons 0 0 1 .nil .nil) i = 2) := by
  constructor
  · decide +kernel
  · exact ⟨_, rfl, by decide +kernel⟩

end ML
