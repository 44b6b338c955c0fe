import Verif.Lemmas.Dirac3
import Verif.Lemmas.SplitProp
import Verif.Model.Rk4
import Verif.Spec.Rk4

/-!
The Runge-Kutta step on a network with one tensor.
-/

open scoped BigOperators
open Py

namespace Heap

variable {R : Type} [CommRing R] [StarRing R]

omit [CommRing R] [StarRing R] in
theorem edges_one {h : Heap R} {F : Forest} (hl : F.LeafEnd h) (h1 : ∀ l ∈ F.ids, h.isLeaf l = true) (a : ℕ) : ∀ e ∈ F.edges a, e.1 = a := by
  induction F generalizing a with
  | nil => simp [Forest.edges]
  | cons i j id sub rest ih1 ih2 =>
    intro e he
    simp only [Forest.edges, List.cons_append, List.mem_cons, List.mem_append] at he
    obtain ⟨l1, l2, l3⟩ := hl
    rcases he with rfl | he | he
    · rfl
    · rw [l1 (h1 id (by simp [Forest.ids]))] at he
      simp [Forest.edges] at he
    · exact ih2 l3 (fun l hm => h1 l (by simp [Forest.ids, hm])) a e he

omit [CommRing R] [StarRing R] in
theorem tensors_one {h : Heap R} {r : ℕ} {F : Forest} (hr : h.isLeaf r = false) (h1 : ∀ l ∈ F.ids, h.isLeaf l = true) :
    h.tensors r F = [r] := by
  unfold tensors
  rw [List.filter_cons, if_pos (by simp [hr]), List.filter_eq_nil_iff.2 (fun l hl => by simp [h1 l hl])]

omit [CommRing R] [StarRing R] in
theorem bonds_one {h : Heap R} {r : ℕ} {F : Forest} (h1 : ∀ l ∈ F.ids, h.isLeaf l = true) : h.bonds r F = [] := by
  unfold bonds
  exact List.filter_eq_nil_iff.2 (fun e he => by simp [h1 _ (TreeSum.edges_mem he).2])

/-- The indices of the only tensor. -/
def oneIdx (h : Heap R) (r n : ℕ) (x : ℕ → ℕ) : List ℕ := (List.range n).map fun k => h.leafAssign x (r, k)

omit [StarRing R] in
theorem amp_one {h : Heap R} {r : ℕ} {F : Forest} (hr : h.isLeaf r = false) (h1 : ∀ l ∈ F.ids, h.isLeaf l = true) {A : Nd R}
    (hA : h.array r = some A) (x : ℕ → ℕ) : h.treeAmp r F x = A.get (h.oneIdx r A.ndim x) := by
  unfold treeAmp amp
  rw [tensors_one hr h1, bonds_one h1]
  simp only [sumBonds, List.map_cons, List.map_nil, List.prod_cons, List.prod_nil, mul_one, entry, hA]
  rfl

/-- The only tensor has one axis for every leaf. -/
theorem one_leaf {h : Heap R} {r : ℕ} {F : Forest} (ht : h.IsTTN r F) (h1 : ∀ l ∈ F.ids, h.isLeaf l = true) {A : Nd R} (hA : h.Full r A) :
    (∀ k < A.ndim, ∃ l m, h.acc r k = some (l, m) ∧ (l, h.hdim (r, k)) ∈ h.leafList r F) ∧
      ∀ l ∈ (h.leafList r F).map Prod.fst, ∃ k < A.ndim, ∃ m, h.acc r k = some (l, m) := by
  constructor
  · intro k hk
    obtain ⟨⟨l, m⟩, hl⟩ := Option.ne_none_iff_exists'.1 ((hA.acc k).2 hk)
    have he := ht.edge_of_acc hl
    refine ⟨l, m, hl, ?_⟩
    unfold leafList
    exact List.mem_map.2 ⟨(r, k, l, m), List.mem_filter.2 ⟨he, h1 _ (TreeSum.edges_mem he).2⟩, rfl⟩
  · intro l hl
    unfold leafList at hl
    simp only [List.mem_map, List.mem_filter, exists_exists_and_eq_and] at hl
    obtain ⟨e, ⟨he, -⟩, rfl⟩ := hl
    have h2 := edges_one ht.tree.leafEnd h1 r e he
    have h3 := (ht.isLink_edge he).1
    rw [h2] at h3
    exact ⟨e.2.1, (hA.acc _).1 (by rw [h3]; simp), _, h3⟩

theorem oneIdx_eq {h : Heap R} {r : ℕ} {F : Forest} (ht : h.IsTTN r F) (h1 : ∀ l ∈ F.ids, h.isLeaf l = true) {A : Nd R} (hA : h.Full r A)
    (x y : ℕ → ℕ) : h.oneIdx r A.ndim x = h.oneIdx r A.ndim y ↔ ∀ l ∈ (h.leafList r F).map Prod.fst, x l = y l := by
  obtain ⟨o1, o2⟩ := one_leaf ht h1 hA
  unfold oneIdx
  rw [List.map_inj_left]
  constructor
  · intro e l hl
    obtain ⟨k, hk, m, ha⟩ := o2 l hl
    have := e k (List.mem_range.2 hk)
    simpa [leafAssign, ha] using this
  · intro e k hk
    obtain ⟨l, m, ha, hm⟩ := o1 k (List.mem_range.1 hk)
    simpa [leafAssign, ha] using e l (List.mem_map.2 ⟨_, hm, rfl⟩)

theorem oneIdx_valid {h : Heap R} {r : ℕ} {F : Forest} (ht : h.IsTTN r F) (h1 : ∀ l ∈ F.ids, h.isLeaf l = true) {A : Nd R} (hA : h.Full r A)
    {x : ℕ → ℕ} (hx : ∀ p ∈ h.leafList r F, x p.1 < p.2) : Valid A.shape (h.oneIdx r A.ndim x) := by
  obtain ⟨o1, o2⟩ := one_leaf ht h1 hA
  unfold Valid oneIdx
  rw [List.forall₂_iff_get]
  refine ⟨by simp [Nd.ndim], fun k hk hk' => ?_⟩
  obtain ⟨l, m, ha, hm⟩ := o1 k (by simpa using hk)
  have := hx _ hm
  simp only [hdim, hA.array] at this
  simp only [List.get_eq_getElem, List.getElem_map, List.getElem_range, leafAssign, ha]
  rw [List.getD_eq_getElem _ _ hk'] at this
  exact this

/-- On the only tensor any function of the leaf indices is determined by its products with the states of the network. -/
theorem one_point {h : Heap R} {r : ℕ} {F : Forest} (ht : h.IsTTN r F) (h1 : ∀ l ∈ F.ids, h.isLeaf l = true) {A : Nd R} (hA : h.Full r A)
    {φ : (ℕ → ℕ) → R} (hφ : ∀ x y, (∀ l ∈ (h.leafList r F).map Prod.fst, x l = y l) → φ x = φ y)
    (h0 : ∀ B : Nd R, B.Wf → B.shape = A.shape →
      sumLeaves (h.leafList r F) (fun x => φ x * star ((h.setArray r (some B)).treeAmp r F x)) (fun _ => 0) = 0)
    {y : ℕ → ℕ} (hy : ∀ p ∈ h.leafList r F, y p.1 < p.2) : φ y = 0 := by
  classical
  set L := h.leafList r F with hL
  have hnd : (L.map Prod.fst).Nodup := leafList_nodup ht
  set y0 : ℕ → ℕ := fun l => if l ∈ L.map Prod.fst then y l else 0 with hy0
  have hyy : ∀ l ∈ L.map Prod.fst, y l = y0 l := fun l hl => by rw [hy0]; simp only [if_pos hl]
  rw [hφ y y0 hyy]
  set B : Nd R := Nd.ofFn A.shape fun w => if w = h.oneIdx r A.ndim y then 1 else 0 with hB
  have key := h0 B (Nd.ofFn_wf _ _) rfl
  rw [← TreeSum.sumLeaves_delta hnd φ y0 (fun _ => 0) (fun p hp => by rw [← hyy _ (List.mem_map.2 ⟨p, hp, rfl⟩)]; exact hy p hp)
    (fun l hl => by rw [hy0]; simp only [if_neg hl])]
  refine Eq.trans ?_ key
  refine TreeSum.sumLeaves_congr' hnd fun x _ hx => ?_
  have hx' : (h.setArray r (some B)).treeAmp r F x = if h.oneIdx r A.ndim x = h.oneIdx r A.ndim y then 1 else 0 := by
    have e1 : ∀ l, (h.setArray r (some B)).isLeaf l = h.isLeaf l := fun l => by
      unfold isLeaf; rw [node_setArray]; split <;> rfl
    rw [amp_one (by rw [e1]; exact ht.leaf) (fun l hl => by rw [e1]; exact h1 l hl) (A := B) (by rw [array_setArray, if_pos rfl])]
    have e2 : (h.setArray r (some B)).oneIdx r B.ndim x = h.oneIdx r A.ndim x := by
      unfold oneIdx; rw [leafAssign_setArray]; rfl
    rw [e2, hB, Nd.get_ofFn _ (oneIdx_valid ht h1 hA hx)]
  rw [hx', mul_comm (φ x)]
  by_cases q : h.oneIdx r A.ndim x = h.oneIdx r A.ndim y
  · rw [if_pos q, star_one, one_mul]
    rw [oneIdx_eq ht h1 hA] at q
    rw [List.map_congr_left (g := fun _ => (1 : R)) (fun l hl => by rw [if_pos]; rw [← hyy l hl]; exact (q l hl).symm)]
    rw [List.map_const', List.prod_replicate, one_pow, one_mul]
  · rw [if_neg q, star_zero, zero_mul]
    rw [oneIdx_eq ht h1 hA] at q
    push Not at q
    obtain ⟨l, hl, hne⟩ := q
    rw [List.prod_eq_zero (List.mem_map.2 ⟨l, hl, if_neg (by rw [← hyy l hl]; exact fun q => hne q.symm)⟩), zero_mul]

end Heap

namespace ML

open Heap

variable {T R : Type} [Zero T] [Field R] [StarRing R]

omit [Zero T] [StarRing R] in
theorem setArray_setArray (h : Heap R) (t : ℕ) (B C : Option (Nd R)) : (h.setArray t B).setArray t C = h.setArray t C := by
  have e : ((h.setArray t B).setArray t C).node = (h.setArray t C).node := by
    funext u
    rw [node_setArray, node_setArray, node_setArray]
    split <;> rfl
  have : ∀ a b : Heap R, a.node = b.node → a.next = b.next → a = b := by
    rintro ⟨_, _⟩ ⟨_, _⟩ rfl rfl; rfl
  exact this _ _ e rfl

/-- The object during a step: that after the mean fields were formed, with another array at the root. -/
structure Stage (s2 : Obj T R) (F : Forest) (A : Nd R) (u : Obj T R) : Prop where
  twin : Twin u { s2 with heap := s2.heap.setArray s2.root (some A) }
  env : u.env = s2.env
  leaves : ∀ l ∈ F.ids, u.heap.isLeaf l = true → u.heap.array l = none
  wf : A.Wf
  shape : ∀ A0, s2.heap.array s2.root = some A0 → A.shape = A0.shape

/-- The object after the mean fields were formed, for a network with one tensor. -/
structure OneReady (s2 : Obj T R) (F : Forest) (inv : Dict ℕ (Nd R)) : Prop where
  ready : EomReady s2 F inv
  one : ∀ l ∈ F.ids, s2.heap.isLeaf l = true
  env : EnvRight s2 s2.root
  terms : s2.allTerms none ≠ []

theorem Stage.ready {s2 u : Obj T R} {F : Forest} {inv : Dict ℕ (Nd R)} {A : Nd R} (hs : OneReady s2 F inv) (hu : Stage s2 F A u) :
    EomReady u F inv ∧ EnvRight u u.root ∧ (∀ l ∈ F.ids, u.heap.isLeaf l = true) := by
  obtain ⟨A0, hA0⟩ := hs.ready.ttn.full s2.root (mem_tensors.2 ⟨.inl rfl, hs.ready.ttn.leaf⟩)
  have hsh := hu.shape A0 hA0.array
  have ht0 := hs.ready.ttn.setArray hA0.array hu.wf hsh
  have hroot : u.root = s2.root := hu.twin.root
  have hleaf0 : ∀ l, (s2.heap.setArray s2.root (some A)).isLeaf l = s2.heap.isLeaf l := fun l => by
    unfold isLeaf; rw [node_setArray]; split <;> rfl
  have haxis0 : ∀ l, ((s2.heap.setArray s2.root (some A)).node l).axis = (s2.heap.node l).axis := fun l => by
    rw [node_setArray]; split <;> rfl
  have hleaf : ∀ l, u.heap.isLeaf l = s2.heap.isLeaf l := fun l => (hu.twin.sim.isLeaf l).trans (hleaf0 l)
  have hone : ∀ l ∈ F.ids, u.heap.isLeaf l = true := fun l hl => by rw [hleaf]; exact hs.one l hl
  have htu : u.heap.IsTTN s2.root F := Sim2.ttn (Sim.symm hu.twin.sim) ht0
  have hten : u.heap.tensors s2.root F = [s2.root] := tensors_one htu.leaf hone
  have hterms : u.allTerms none = s2.allTerms none := hu.twin.terms
  have hnow : u.now = s2.now := hu.twin.now
  have hll : u.heap.leafList s2.root F = s2.heap.leafList s2.root F := by
    rw [hu.twin.sim.leafList htu]
    unfold leafList
    simp only [hleaf0, hdim_setArray hA0.array hsh]
  refine ⟨⟨?_, ?_, ?_, ?_, ?_, ?_, ?_⟩, ?_, hone⟩
  · rw [hroot]; exact htu
  · rw [hroot]
    refine ⟨by rw [hu.twin.sim.axis, haxis0]; exact hs.ready.rooted.1, ?_⟩
    rw [bonds_one hone]
    simp
  · rw [hroot, hten]
    intro t ht hax
    simp only [List.mem_cons, List.not_mem_nil, or_false] at ht
    subst ht
    rw [hu.twin.sim.axis, haxis0] at hax
    exact absurd hs.ready.rooted.1 hax
  · intro term hterm p hp
    rw [hterms] at hterm
    rw [hleaf]
    exact hs.ready.leaf term hterm p hp
  · intro term hterm p hp
    rw [hterms] at hterm
    rw [hroot, hll] at hp
    rw [hnow]
    exact hs.ready.fits term hterm p hp
  · rw [hroot, bonds_one hone]
    simp
  · rw [hroot, hten]
    intro t ht n i v hv
    simp only [List.mem_cons, List.not_mem_nil, or_false] at ht
    subst ht
    rw [hu.env] at hv
    rw [hu.twin.sim.hdim (by rw [hleaf]; exact hs.ready.ttn.leaf), hdim_setArray hA0.array hsh]
    exact hs.ready.env _ (mem_tensors.2 ⟨.inl rfl, hs.ready.ttn.leaf⟩) n i v hv
  · intro n term hn i v hv
    rw [hterms] at hn
    rw [hu.env, hroot] at hv
    rw [hroot]
    have hf := hs.env n term hn i v hv
    have g : s2.heap.GoodChange (s2.heap.setArray s2.root (some A)) s2.root := by
      refine ⟨fun c => ?_, rfl, fun c => ?_, fun c hc => ?_, fun A' hA' => ?_⟩
      · unfold Heap.access; rw [node_setArray]; split <;> rfl
      · rw [node_setArray]; split <;> exact ⟨rfl, rfl, rfl, rfl⟩
      · rw [array_setArray, if_neg hc]
      · exact ⟨A, by rw [array_setArray, if_pos rfl], hu.wf, hu.shape A' hA'⟩
    obtain ⟨E, ⟨c, j, hcj, -⟩, -⟩ := id hf
    have hcj' : s2.heap.acc s2.root i = some (c, j) := by
      rw [← hcj, Heap.acc_def, Heap.acc_def]
      unfold Heap.access Obj.withTerm
      simp only
      split <;> rfl
    have := SplitProp.field_change (s' := { s2 with heap := s2.heap.setArray s2.root (some A) }) hs.ready.ttn g (fun _ => rfl)
      (hs.ready.ttn.edge_of_acc hcj') hf
    refine (field_withTerm (s0 := { s2 with heap := s2.heap.setArray s2.root (some A) }) ht0
      (Sim.trans (sim_withTerm u term) hu.twin.sim) (fun l hl hlf => ?_) (mem_tensors.2 ⟨.inl rfl, ht0.leaf⟩)).2 this
    rw [withTerm_isLeaf] at hlf
    rw [withTerm_leaf hlf, hnow]
    rfl

/-- One call of `eom` during a step: `aux` of the tensor is the derivative of the present state. -/
theorem Stage.eom {s2 u : Obj T R} {F : Forest} {inv : Dict ℕ (Nd R)} {A : Nd R} (hs : OneReady s2 F inv) (hu : Stage s2 F A u) {coef : R}
    (hcoef : coef ≠ 0) (ie : Option R) {fuel : ℕ} (hf : F.ids.length < fuel) :
    ∃ u' D, ML.eom fuel inv coef ie u = .ok u' ∧ Stage s2 F A u' ∧ (u'.heap.node s2.root).aux = some D ∧ D.Wf ∧ D.shape = A.shape ∧
      ∀ y, (∀ p ∈ s2.heap.leafList s2.root F, y p.1 < p.2) →
        variation s2 F s2.root (some D) y = generator s2 F coef ie (variation s2 F s2.root (some A)) y := by
  obtain ⟨r1, r2, r3⟩ := hu.ready hs
  obtain ⟨A0, hA0⟩ := hs.ready.ttn.full s2.root (mem_tensors.2 ⟨.inl rfl, hs.ready.ttn.leaf⟩)
  have hsh := hu.shape A0 hA0.array
  have ht0 := hs.ready.ttn.setArray hA0.array hu.wf hsh
  set u0 : Obj T R := { s2 with heap := s2.heap.setArray s2.root (some A) } with hu0
  have hroot : u.root = s2.root := hu.twin.root
  have hm : s2.root ∈ u.heap.tensors u.root F := by rw [hroot]; exact mem_tensors.2 ⟨.inl rfl, by rw [← hroot]; exact r1.ttn.leaf⟩
  have hm0 : s2.root ∈ u0.heap.tensors u0.root F := mem_tensors.2 ⟨.inl rfl, ht0.leaf⟩
  have hA1 : u0.heap.array s2.root = some A := by rw [hu0]; simp only; rw [array_setArray, if_pos rfl]
  have hA : u.heap.array s2.root = some A := by rw [hu.twin.sim.array (mem_tensors.1 hm).2]; exact hA1
  obtain ⟨u', c1, c2, c3, c4, c5, c6, c7, c8⟩ := eom_ok r1 (by rw [hu.twin.terms]; exact hs.terms) coef ie hf
  obtain ⟨G, X, D, d1, d2, d3, d4⟩ := c4 _ hm A hA
  have hcore : Core u F inv coef ie (fun _ => D) := by
    refine ⟨r1, ?_, fun e he hl => hu.leaves _ (TreeSum.edges_mem he).2 hl, ?_, hcoef, ?_⟩
    · intro e he
      rw [bonds_one r3] at he
      cases he
    · intro t ht
      rw [tensors_one r1.ttn.leaf r3] at ht
      simp only [List.mem_cons, List.not_mem_nil, or_false] at ht
      rw [ht]
      exact r2
    · intro t ht B hB
      rw [tensors_one r1.ttn.leaf r3] at ht
      simp only [List.mem_cons, List.not_mem_nil, or_false] at ht
      rw [ht, hroot] at hB ⊢
      obtain rfl : B = A := Option.some.inj (hB.symm.trans hA)
      have := c4 _ hm B hA
      rw [d1] at this
      exact this
  refine ⟨u', D, c1, ⟨⟨Sim.trans ⟨c2.next, c2.same⟩ hu.twin.sim, c3.trans hroot, c6.trans hu.twin.hList, c7.trans hu.twin.fList,
    c8.trans hu.twin.time⟩, c5.trans hu.env, c2.leaves, hu.wf, hu.shape⟩, d1, d2, d3, fun y hy => ?_⟩
  have hvar : ∀ B : Nd R, B.Wf → B.shape = A.shape → variation u F s2.root (some B) = variation s2 F s2.root (some B) := by
    intro B hB hBs
    rw [hu.twin.variation ht0 hm0 hA1 hB hBs]
    funext x
    show ((s2.heap.setArray s2.root (some A)).setArray s2.root (some B)).treeAmp s2.root F x = (s2.heap.setArray s2.root (some B)).treeAmp s2.root F x
    rw [setArray_setArray]
  have hll : u.heap.leafList u.root F = s2.heap.leafList s2.root F := by
    rw [hu.twin.leafList ht0]
    show (s2.heap.setArray s2.root (some A)).leafList s2.root F = _
    unfold leafList
    have hleaf0 : ∀ l, (s2.heap.setArray s2.root (some A)).isLeaf l = s2.heap.isLeaf l := fun l => by
      unfold isLeaf; rw [node_setArray]; split <;> rfl
    simp only [hleaf0, hdim_setArray hA0.array hsh]
  have hent : ∀ x y, hEntry u F x y = hEntry s2 F x y := by
    intro x y
    unfold hEntry termEntry
    rw [hll, hu.twin.terms, hu.twin.now]
    rfl
  have hψ : u.heap.treeAmp u.root F = variation s2 F s2.root (some A) := by
    rw [← hvar A hu.wf rfl, variation_self hA]
  have hvel : vel u F (fun _ => D) = variation s2 F s2.root (some D) := by
    rw [← hvar D d2 d3]
    funext x
    unfold vel
    rw [tensors_one r1.ttn.leaf r3, hroot]
    simp
  set L := s2.heap.leafList s2.root F with hL
  set ψ := variation s2 F s2.root (some A) with hψ0
  have hdep : ∀ B : Nd R, B.Wf → B.shape = A.shape → ∀ x y : ℕ → ℕ, (∀ l ∈ L.map Prod.fst, x l = y l) →
      variation s2 F s2.root (some B) x = variation s2 F s2.root (some B) y := by
    intro B hB hBs x y hxy
    unfold variation
    have e1 : ∀ l, (s2.heap.setArray s2.root (some B)).isLeaf l = s2.heap.isLeaf l := fun l => by
      unfold isLeaf; rw [node_setArray]; split <;> rfl
    have e2 : ∀ x, (s2.heap.setArray s2.root (some B)).treeAmp s2.root F x = B.get (s2.heap.oneIdx s2.root A0.ndim x) := by
      intro x
      rw [amp_one (by rw [e1]; exact hs.ready.ttn.leaf) (fun l hl => by rw [e1]; exact hs.one l hl) (A := B)
        (by rw [array_setArray, if_pos rfl])]
      unfold oneIdx Nd.ndim
      rw [leafAssign_setArray, hBs, hsh]
    rw [e2, e2, (oneIdx_eq hs.ready.ttn hs.one hA0 x y).2 hxy]
  have key : coef * variation s2 F s2.root (some D) y - sumLeaves L (fun x => ψ x * hEntry s2 F x y) (fun _ => 0)
      + coef * ie.getD 0 * ψ y = 0 := by
    refine one_point hs.ready.ttn hs.one hA0 (φ := fun y => coef * variation s2 F s2.root (some D) y -
      sumLeaves L (fun x => ψ x * hEntry s2 F x y) (fun _ => 0) + coef * ie.getD 0 * ψ y) ?_ ?_ hy
    · intro x y hxy
      beta_reduce
      rw [hdep D d2 d3 x y hxy, hψ0, hdep A hu.wf rfl x y hxy]
      congr 2
      refine TreeSum.sumLeaves_congr fun z => ?_
      congr 1
      unfold hEntry termEntry
      congr 1
      refine List.map_congr_left fun term _ => ?_
      congr 1
      exact List.map_congr_left fun l hl => by rw [hxy l hl]
    · intro B hB hBs
      have h1 := hcore.root (A := A) (B := B) (by rw [hroot]; exact hA) hB (hBs.trans hsh.symm)
      rw [hψ, hvel, hroot, hvar B hB (hBs.trans hsh.symm)] at h1
      unfold dot element at h1
      simp only [hll, hent] at h1
      rw [sumLeaves_swap] at h1
      rw [← TreeSum.sumLeaves_mul_left, ← TreeSum.sumLeaves_mul_left] at h1
      have e1 : ∀ y, (coef * variation s2 F s2.root (some D) y - sumLeaves L (fun x => ψ x * hEntry s2 F x y) (fun _ => 0) +
          coef * ie.getD 0 * ψ y) * star ((s2.heap.setArray s2.root (some B)).treeAmp s2.root F y) =
          coef * (variation s2 F s2.root (some D) y * star (variation s2 F s2.root (some B) y)) +
          (-1 * sumLeaves L (fun x => ψ x * hEntry s2 F x y * star (variation s2 F s2.root (some B) y)) (fun _ => 0) +
          coef * ie.getD 0 * (ψ y * star (variation s2 F s2.root (some B) y))) := by
        intro y
        have : sumLeaves L (fun x => ψ x * hEntry s2 F x y * star (variation s2 F s2.root (some B) y)) (fun _ => 0) =
            star (variation s2 F s2.root (some B) y) * sumLeaves L (fun x => ψ x * hEntry s2 F x y) (fun _ => 0) := by
          rw [← TreeSum.sumLeaves_mul_left]
          exact TreeSum.sumLeaves_congr fun x => mul_comm _ _
        rw [this]
        unfold variation
        ring
      rw [TreeSum.sumLeaves_congr e1, sumLeaves_add, sumLeaves_add, h1, TreeSum.sumLeaves_mul_left _ (-1)]
      ring
  unfold generator
  rw [← hL, eq_sub_iff_add_eq, eq_div_iff hcoef]
  linear_combination key

/-- Another array at the root. -/
theorem Stage.set {s2 u : Obj T R} {F : Forest} {A B : Nd R} {h : Heap R} (hu : Stage s2 F A u) (hB : B.Wf) (hBs : B.shape = A.shape)
    (hroot : s2.heap.isLeaf s2.root = false) (hone : ∀ l ∈ F.ids, s2.heap.isLeaf l = true)
    (hh : Sim noAux h (u.heap.setArray s2.root (some B))) : Stage s2 F B { u with heap := h } := by
  have hleaf0 : ∀ l, (s2.heap.setArray s2.root (some A)).isLeaf l = s2.heap.isLeaf l := fun l => by
    unfold isLeaf; rw [node_setArray]; split <;> rfl
  refine ⟨⟨?_, hu.twin.root, hu.twin.hList, hu.twin.fList, hu.twin.time⟩, hu.env, ?_, hB, fun A0 hA0 => hBs.trans (hu.shape A0 hA0)⟩
  · have := sim2_setArray hu.twin.sim (t := s2.root) (by rw [hu.twin.sim.isLeaf]; exact (hleaf0 _).trans hroot) (some B)
    change Sim2 _ ((s2.heap.setArray s2.root (some A)).setArray s2.root (some B)) at this
    rw [setArray_setArray] at this
    exact Sim.trans hh.aux this
  · intro l hl hlf
    have hne : l ≠ s2.root := by
      intro q
      rw [q, ] at hl
      have := hone _ hl
      rw [hroot] at this
      cases this
    show h.array l = none
    rw [Sim.array hh l, array_setArray, if_neg hne]
    refine hu.leaves l hl ?_
    rw [hu.twin.sim.isLeaf]
    exact (hleaf0 l).trans (hone l hl)

theorem one_var {s2 : Obj T R} {F : Forest} (ht : s2.heap.IsTTN s2.root F) (hone : ∀ l ∈ F.ids, s2.heap.isLeaf l = true) {A0 : Nd R}
    (hA0 : s2.heap.Full s2.root A0) {y : ℕ → ℕ} (hy : ∀ p ∈ s2.heap.leafList s2.root F, y p.1 < p.2) :
    ∃ w, Valid A0.shape w ∧ ∀ B : Nd R, B.shape = A0.shape → variation s2 F s2.root (some B) y = B.get w := by
  refine ⟨_, oneIdx_valid ht hone hA0 hy, fun B hBs => ?_⟩
  have e1 : ∀ l, (s2.heap.setArray s2.root (some B)).isLeaf l = s2.heap.isLeaf l := fun l => by
    unfold isLeaf; rw [node_setArray]; split <;> rfl
  unfold variation
  rw [amp_one (by rw [e1]; exact ht.leaf) (fun l hl => by rw [e1]; exact hone l hl) (A := B)
    (by rw [array_setArray, if_pos rfl])]
  unfold oneIdx Nd.ndim
  rw [leafAssign_setArray, hBs]

/-- The sum `y0 + c k` of arrays, as in the stages. -/
theorem add_scaled {a d : Nd R} (ha : a.Wf) (hd : d.Wf) (hs : d.shape = a.shape) (f : R → R) :
    ∃ b, a.add ⟨d.shape, d.data.map f⟩ = .ok b ∧ b.Wf ∧ b.shape = a.shape ∧ ∀ w, Valid a.shape w → b.get w = a.get w + f (d.get w) := by
  obtain ⟨C, c1, c2, c3, c4⟩ := Nd.add_ok (a := a) (b := ⟨d.shape, d.data.map f⟩) ha (by unfold Nd.Wf at *; simpa using hd) hs.symm
  refine ⟨C, c1, c2, c3, fun w hw => ?_⟩
  rw [c4 w hw, map_get hd _ (by rw [hs]; exact hw)]

theorem map_wf {d : Nd R} (hd : d.Wf) (f : R → R) : (⟨d.shape, d.data.map f⟩ : Nd R).Wf := by unfold Nd.Wf at *; simpa using hd

theorem generator_congr {s : Obj T R} {F : Forest} (ht : s.heap.IsTTN s.root F) (coef : R) (ie : Option R) {φ χ : (ℕ → ℕ) → R}
    (h : ∀ y, (∀ p ∈ s.heap.leafList s.root F, y p.1 < p.2) → φ y = χ y) {y : ℕ → ℕ}
    (hy : ∀ p ∈ s.heap.leafList s.root F, y p.1 < p.2) : generator s F coef ie φ y = generator s F coef ie χ y := by
  unfold generator
  rw [h y hy, TreeSum.sumLeaves_congr' (leafList_nodup ht) (g' := fun x => χ x * hEntry s F x y) fun x _ hx => by rw [h x hx]]

theorem generator_lin (s : Obj T R) (F : Forest) (coef : R) (ie : Option R) (φ χ : (ℕ → ℕ) → R) (c : R) (y : ℕ → ℕ) :
    generator s F coef ie (fun x => φ x + c * χ x) y = generator s F coef ie φ y + c * generator s F coef ie χ y := by
  unfold generator
  have : sumLeaves (s.heap.leafList s.root F) (fun x => (φ x + c * χ x) * hEntry s F x y) (fun _ => 0) =
      sumLeaves (s.heap.leafList s.root F) (fun x => φ x * hEntry s F x y) (fun _ => 0) +
        c * sumLeaves (s.heap.leafList s.root F) (fun x => χ x * hEntry s F x y) (fun _ => 0) := by
    rw [← TreeSum.sumLeaves_mul_left, ← sumLeaves_add]
    exact TreeSum.sumLeaves_congr fun x => by ring
  rw [this]
  ring

omit [Field R] [StarRing R] in
theorem Dict.get!_single (t : ℕ) (A : Nd R) : Dict.get! [(t, A)] t = .ok A := by simp [Dict.get!, Dict.get?]

/-- The loop of `rk4Step` after the mean fields and inverse densities were formed. -/
theorem rk4_core [CharZero R] {s2 : Obj T R} {F : Forest} {inv : Dict ℕ (Nd R)} (hs : OneReady s2 F inv)
    (hlv : ∀ l ∈ F.ids, s2.heap.isLeaf l = true → s2.heap.array l = none) {coef : R}
    (hcoef : coef ≠ 0) (ie : Option R) (dt : R) {fuel : ℕ} (hf : F.ids.length < fuel) {lin : Linalg R} {s s1 : Obj T R}
    (h1 : formEnv fuel false s = .ok s1) (h2 : formInvDensity fuel lin s1 = .ok (s2, inv)) :
    ∃ s' B, rk4Step fuel lin coef ie dt s = .ok s' ∧ Stage s2 F B s' ∧ (s'.heap.node s2.root).aux = none ∧
      ∀ y, (∀ p ∈ s2.heap.leafList s2.root F, y p.1 < p.2) → variation s2 F s2.root (some B) y =
        taylor4 (generator s2 F coef ie) dt (s2.heap.treeAmp s2.root F) y := by
  have ht := hs.ready.ttn
  obtain ⟨A0, hA0⟩ := ht.full s2.root (mem_tensors.2 ⟨.inl rfl, ht.leaf⟩)
  have hvis : ∀ {A : Nd R} {u : Obj T R}, Stage s2 F A u → u.heap.visitor fuel u.root (u.heap.node u.root).axis false = .ok [s2.root] := by
    intro A u hu
    obtain ⟨r1, -, r3⟩ := hu.ready hs
    rw [r1.rooted.1, visit_tensors r1.ttn (lt_of_le_of_lt F.depth_le hf), tensors_one r1.ttn.leaf r3, hu.twin.root]
  have harr : ∀ {A : Nd R} {u : Obj T R}, Stage s2 F A u → u.heap.array s2.root = some A := by
    intro A u hu
    obtain ⟨r1, -, -⟩ := hu.ready hs
    have hl := r1.ttn.leaf
    rw [hu.twin.root] at hl
    rw [hu.twin.sim.array hl]
    show (s2.heap.setArray s2.root (some A)).array s2.root = _
    rw [array_setArray, if_pos rfl]
  have st0 : Stage s2 F A0 s2 := by
    refine ⟨⟨?_, rfl, rfl, rfl, rfl⟩, rfl, hlv, hA0.wf, fun A hA => ?_⟩
    · show Sim2 s2.heap (s2.heap.setArray s2.root (some A0))
      refine ⟨rfl, fun u => ?_⟩
      rw [node_setArray]
      split
      · rename_i q
        rw [q, ← show (s2.heap.node s2.root).array = some A0 from hA0.array]
      · rfl
    · rw [hA0.array] at hA
      cases hA
      rfl
  -- first stage
  obtain ⟨u1, D1, e1, g1, x1, w1, sh1, p1⟩ := st0.eom hs hcoef ie hf
  have wk1 := map_wf w1 (dt * ·)
  obtain ⟨A1, y1, wA1, shA1, val1⟩ := add_scaled hA0.wf wk1 sh1 (· / 2)
  have g1' := g1.set wA1 shA1 ht.leaf hs.one (h := u1.heap.setArray s2.root (some A1)) ⟨rfl, fun _ => rfl⟩
  -- second stage
  obtain ⟨u2, D2, e2, g2, x2, w2, sh2, p2⟩ := g1'.eom hs hcoef ie hf
  have wk2 := map_wf w2 (dt * ·)
  obtain ⟨A2, y2, wA2, shA2, val2⟩ := add_scaled hA0.wf wk2 (sh2.trans shA1) (· / 2)
  have g2' := g2.set wA2 (shA2.trans shA1.symm) ht.leaf hs.one (h := u2.heap.setArray s2.root (some A2)) ⟨rfl, fun _ => rfl⟩
  -- third stage
  obtain ⟨u3, D3, e3, g3, x3, w3, sh3, p3⟩ := g2'.eom hs hcoef ie hf
  have wk3 := map_wf w3 (dt * ·)
  obtain ⟨A3, y3, wA3, shA3, val3⟩ := add_scaled hA0.wf w3 (sh3.trans shA2) (dt * ·)
  have g3' := g3.set wA3 (shA3.trans shA2.symm) ht.leaf hs.one (h := u3.heap.setArray s2.root (some A3)) ⟨rfl, fun _ => rfl⟩
  -- last stage
  obtain ⟨u4, D4, e4, g4, x4, w4, sh4, p4⟩ := g3'.eom hs hcoef ie hf
  obtain ⟨a, ya, wa, sha, vala⟩ := add_scaled wk1 wk2 ((sh2.trans shA1).trans sh1.symm) (2 * ·)
  obtain ⟨b, yb, wb, shb, valb⟩ := add_scaled wa wk3 ((sh3.trans shA2).trans (sh1.symm.trans sha.symm)) (2 * ·)
  obtain ⟨c, yc, wc, shc, valc⟩ := add_scaled wb w4 (((sh4.trans shA3).trans (sh1.symm.trans sha.symm)).trans shb.symm) (dt * ·)
  obtain ⟨B, yB, wB, shB, valB⟩ := add_scaled hA0.wf wc (shc.trans (shb.trans (sha.trans sh1))) (· / 6)
  have g4' := g4.set wB (shB.trans shA3.symm) ht.leaf hs.one (h := (u4.heap.setArray s2.root (some B)).setAux s2.root none)
    (setAux_noAux _ _ _)
  have f1 : [s2.root].foldlM (rkFirst dt) (u1.heap, ([] : Dict ℕ (Nd R)), ([] : Dict ℕ (Nd R))) =
      .ok (u1.heap.setArray s2.root (some A1), [(s2.root, A0)], [(s2.root, ⟨D1.shape, D1.data.map (dt * ·)⟩)]) := by
    rw [List.foldlM_cons]
    unfold rkFirst
    simp only [harr g1, x1]
    rw [y1]
    rfl
  have f2 : [s2.root].foldlM (rkMid dt true [(s2.root, A0)]) (u2.heap, ([] : Dict ℕ (Nd R))) =
      .ok (u2.heap.setArray s2.root (some A2), [(s2.root, ⟨D2.shape, D2.data.map (dt * ·)⟩)]) := by
    rw [List.foldlM_cons]
    unfold rkMid
    simp only [Dict.get!_single, ok_bind, x2, if_true]
    rw [y2]
    rfl
  have f3 : [s2.root].foldlM (rkMid dt false [(s2.root, A0)]) (u3.heap, ([] : Dict ℕ (Nd R))) =
      .ok (u3.heap.setArray s2.root (some A3), [(s2.root, ⟨D3.shape, D3.data.map (dt * ·)⟩)]) := by
    rw [List.foldlM_cons]
    unfold rkMid
    simp only [Dict.get!_single, ok_bind, x3, Bool.false_eq_true, if_false]
    rw [y3]
    rfl
  have f4 : [s2.root].foldlM (rkLast dt [(s2.root, A0)] [(s2.root, ⟨D1.shape, D1.data.map (dt * ·)⟩)]
      [(s2.root, ⟨D2.shape, D2.data.map (dt * ·)⟩)] [(s2.root, ⟨D3.shape, D3.data.map (dt * ·)⟩)]) u4.heap =
      .ok ((u4.heap.setArray s2.root (some B)).setAux s2.root none) := by
    rw [List.foldlM_cons]
    unfold rkLast
    simp only [Dict.get!_single, ok_bind, x4]
    rw [ya]
    simp only [ok_bind]
    rw [yb]
    simp only [ok_bind]
    rw [yc]
    simp only [ok_bind]
    rw [yB]
    rfl
  refine ⟨_, B, ?_, g4', ?_, fun y hy => ?_⟩
  · unfold rk4Step
    rw [h1]
    simp only [ok_bind]
    rw [h2]
    simp only [ok_bind]
    rw [e1]
    simp only [ok_bind]
    rw [hvis g1]
    simp only [ok_bind]
    rw [f1]
    simp only [ok_bind]
    rw [e2]
    simp only [ok_bind]
    rw [hvis g2]
    simp only [ok_bind]
    rw [f2]
    simp only [ok_bind]
    rw [e3]
    simp only [ok_bind]
    rw [hvis g3]
    simp only [ok_bind]
    rw [f3]
    simp only [ok_bind]
    rw [e4]
    simp only [ok_bind]
    rw [hvis g4]
    simp only [ok_bind]
    rw [f4]
    rfl
  · show (((u4.heap.setArray s2.root (some B)).setAux s2.root none).node s2.root).aux = none
    unfold Heap.setAux
    rw [node_upd, if_pos rfl]
  · set L := generator s2 F coef ie with hL
    set a0 := s2.heap.treeAmp s2.root F with ha0
    have hv0 : variation s2 F s2.root (some A0) = a0 := variation_self hA0.array
    rw [hv0] at p1
    have hcong : ∀ {φ χ : (ℕ → ℕ) → R}, (∀ y, (∀ p ∈ s2.heap.leafList s2.root F, y p.1 < p.2) → φ y = χ y) → ∀ {y : ℕ → ℕ},
      (∀ p ∈ s2.heap.leafList s2.root F, y p.1 < p.2) → L φ y = L χ y := fun {_ _} h {_} hy => generator_congr ht coef ie h hy
    have hlin : ∀ φ χ : (ℕ → ℕ) → R, ∀ c y, L (fun x => φ x + c * χ x) y = L φ y + c * L χ y := generator_lin s2 F coef ie
    have q1 : ∀ y, (∀ p ∈ s2.heap.leafList s2.root F, y p.1 < p.2) →
        variation s2 F s2.root (some A1) y = a0 y + dt / 2 * L a0 y := by
      intro y hy
      obtain ⟨w, hw, hvar⟩ := one_var ht hs.one hA0 hy
      rw [← p1 y hy, ← hv0, hvar A1 shA1, hvar A0 rfl, hvar D1 sh1, val1 w hw, map_get w1 _ (by rw [sh1]; exact hw)]
      ring
    have p2' : ∀ y, (∀ p ∈ s2.heap.leafList s2.root F, y p.1 < p.2) →
        variation s2 F s2.root (some D2) y = L a0 y + dt / 2 * L (L a0) y := by
      intro y hy
      rw [p2 y hy, hcong q1 hy, hlin]
    have q2 : ∀ y, (∀ p ∈ s2.heap.leafList s2.root F, y p.1 < p.2) →
        variation s2 F s2.root (some A2) y = a0 y + dt / 2 * (L a0 y + dt / 2 * L (L a0) y) := by
      intro y hy
      obtain ⟨w, hw, hvar⟩ := one_var ht hs.one hA0 hy
      rw [← p2' y hy, ← hv0, hvar A2 shA2, hvar A0 rfl, hvar D2 (sh2.trans shA1), val2 w hw,
        map_get w2 _ (by rw [sh2, shA1]; exact hw)]
      ring
    have p3' : ∀ y, (∀ p ∈ s2.heap.leafList s2.root F, y p.1 < p.2) →
        variation s2 F s2.root (some D3) y = L a0 y + dt / 2 * (L (L a0) y + dt / 2 * L (L (L a0)) y) := by
      intro y hy
      rw [p3 y hy, hcong q2 hy, hlin, hlin]
    have q3 : ∀ y, (∀ p ∈ s2.heap.leafList s2.root F, y p.1 < p.2) →
        variation s2 F s2.root (some A3) y = a0 y + dt * (L a0 y + dt / 2 * (L (L a0) y + dt / 2 * L (L (L a0)) y)) := by
      intro y hy
      obtain ⟨w, hw, hvar⟩ := one_var ht hs.one hA0 hy
      rw [← p3' y hy, ← hv0, hvar A3 shA3, hvar A0 rfl, hvar D3 (sh3.trans shA2), val3 w hw]
    have p4' : ∀ y, (∀ p ∈ s2.heap.leafList s2.root F, y p.1 < p.2) →
        variation s2 F s2.root (some D4) y = L a0 y + dt * (L (L a0) y + dt / 2 * (L (L (L a0)) y + dt / 2 * L (L (L (L a0))) y)) := by
      intro y hy
      rw [p4 y hy, hcong q3 hy, hlin, hlin, hlin]
    obtain ⟨w, hw, hvar⟩ := one_var ht hs.one hA0 hy
    have z1 := p1 y hy
    have z2 := p2' y hy
    have z3 := p3' y hy
    have z4 := p4' y hy
    rw [hvar D1 sh1] at z1
    rw [hvar D2 (sh2.trans shA1)] at z2
    rw [hvar D3 (sh3.trans shA2)] at z3
    rw [hvar D4 (sh4.trans shA3)] at z4
    have hw1 : Valid D1.shape w := by rw [sh1]; exact hw
    have hwa : Valid a.shape w := by rw [sha]; exact hw1
    have hwb : Valid b.shape w := by rw [shb]; exact hwa
    have hb := valB w hw
    rw [valc w hwb, valb w hwa, vala w hw1, map_get w1 _ hw1, map_get w2 _ (by rw [sh2, shA1]; exact hw),
      map_get w3 _ (by rw [sh3, shA2]; exact hw), z1, z2, z3, z4] at hb
    rw [hvar B shB, hb, ← hvar A0 rfl, hv0]
    unfold taylor4
    field_simp
    ring

end ML
