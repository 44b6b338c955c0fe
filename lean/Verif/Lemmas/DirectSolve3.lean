import Verif.Lemmas.DirectSolve2
import Verif.Lemmas.Rk4

/-!
`direct_step` with a solver of `scipy.integrate`, for a network of one tensor.
-/

open scoped BigOperators
open Py

namespace DirectSolve

open Heap ML

variable {T R : Type} [Zero T] [Field R] [StarRing R]

/-- The derivatives that are returned, in terms of a network with the same shapes. -/
theorem Follows.evals {c : Config T R} {F : Forest} {s0 : Obj T R} {log : List (Event T R)} {fin : Obj T R} :
    ∀ {pre : List (Event T R)} {cur : Obj T R} {last : Option (Obj T R × Dict ℕ (Nd R))}, Follows c F cur last log fin → Kin s0 cur →
      (∀ s inv, last = some (s, inv) → Kin s0 s ∧ .reform s inv ∈ pre) → ∀ {t y d}, .eval t y d ∈ log →
      ∃ s inv, Kin s0 s ∧ .reform s inv ∈ pre ++ log ∧ Frozen s F inv (c.coef (clock c t)) c.initEnergy y d := by
  induction log with
  | nil => intro pre cur last _ _ _ t y d h; cases h
  | cons e log ih =>
    intro pre cur last hf hc hl t y d h
    cases e with
    | reform s inv =>
      obtain ⟨h1, -, -, h4⟩ := hf
      have hs := hc.trans h1.kin
      have := ih (pre := pre ++ [.reform s inv]) h4 hs (fun s' inv' hq => by cases hq; exact ⟨hs, by simp⟩) (t := t) (y := y) (d := d)
        (by simpa using h)
      rw [List.append_assoc] at this
      exact this
    | eval t' y' d' =>
      obtain ⟨⟨s, inv, h1, h2⟩, h3⟩ := hf
      rcases List.mem_cons.1 h with q | q
      · cases q
        obtain ⟨g1, g2⟩ := hl s inv h1
        exact ⟨s, inv, g1, List.mem_append.2 (.inl g2), h2⟩
      · have hc' : Kin s0 { cur with time := clock c t' } := 
          ⟨⟨hc.root, hc.hList, hc.fList, hc.next, hc.access, hc.leaf, hc.axis, hc.mark, hc.name, hc.shape⟩, hc.wf⟩
        have := ih (pre := pre ++ [.eval t' y' d']) h3 hc' (fun s' inv' hq => ⟨(hl s' inv' hq).1, List.mem_append.2 (.inl (hl s' inv' hq).2)⟩) q
        rw [List.append_assoc] at this
        exact this
    | update y' s =>
      obtain ⟨h1, h2⟩ := hf
      have := ih (pre := pre ++ [.update y' s]) h2 (hc.trans h1.1) (fun s' inv' hq => ⟨(hl s' inv' hq).1, List.mem_append.2 (.inl (hl s' inv' hq).2)⟩)
        (t := t) (y := y) (d := d) (by simpa using h)
      rw [List.append_assoc] at this
      exact this

/-- For one tensor the state depends on its array and on the links only. -/
theorem variation_one {s s' : Obj T R} (k : SameShape s s') {F : Forest} (ht : s.heap.IsTTN s.root F) (hone : ∀ l ∈ F.ids, s.heap.isLeaf l = true)
    (B : Nd R) : variation s' F s'.root (some B) = variation s F s.root (some B) := by
  have e1 : ∀ (h : Heap R) (r l : ℕ), (h.setArray r (some B)).isLeaf l = h.isLeaf l := fun h r l => by
    unfold isLeaf; rw [node_setArray]; split <;> rfl
  funext x
  unfold variation
  rw [amp_one (by rw [e1, k.root, k.leaf]; exact ht.leaf) (fun l hl => by rw [e1, k.leaf]; exact hone l hl) (A := B) (by rw [Heap.array_setArray, if_pos rfl]),
    amp_one (by rw [e1]; exact ht.leaf) (fun l hl => by rw [e1]; exact hone l hl) (A := B) (by rw [Heap.array_setArray, if_pos rfl])]
  congr 1
  unfold oneIdx
  refine List.map_congr_left fun i _ => ?_
  rw [leafAssign_setArray, leafAssign_setArray]
  unfold leafAssign
  rw [k.root]
  simp only [k.acc]

theorem generator_one {s s' : Obj T R} (k : SameShape s s') {F : Forest} (ht : s.heap.IsTTN s.root F) (coef : R) (ie : Option R) :
    generator s' F coef ie = generator { s with time := s'.time } F coef ie := by
  funext φ y
  unfold generator hEntry termEntry
  rw [k.leafList ht, k.terms]
  rfl

/-- The right-hand side for the array of the only tensor is that of the equation of motion of the state. -/
theorem frozen_one {s : Obj T R} {F : Forest} (ht : s.heap.IsTTN s.root F) (hax : (s.heap.node s.root).axis = none)
    (hone : ∀ l ∈ F.ids, s.heap.isLeaf l = true) {inv : Dict ℕ (Nd R)} {coef : R} (hcoef : coef ≠ 0) {ie : Option R} {y d : List R}
    (hf : Frozen s F inv coef ie y d) {A0 : Nd R} (hA0 : s.heap.array s.root = some A0) {x : ℕ → ℕ} (hx : ∀ p ∈ s.heap.leafList s.root F, x p.1 < p.2) :
    variation s F s.root (some ⟨A0.shape, d⟩) x = generator s F coef ie (variation s F s.root (some ⟨A0.shape, y⟩)) x := by
  have hm : s.root ∈ s.heap.tensors s.root F := mem_tensors.2 ⟨.inl rfl, ht.leaf⟩
  obtain ⟨A1, hfull⟩ := ht.full _ hm
  obtain rfl : A1 = A0 := Option.some.inj (hfull.array.symm.trans hA0)
  obtain ⟨p, q, hp, hq, hall⟩ := hf
  obtain ⟨G, X, g1, g2, g3, g4, g5⟩ := hall _ hm
  rw [hax] at g3
  have hps := hp.shape _ hm _ hA0
  have hqs := hq.shape _ hm _ hA0
  have hpw := hp.wf _ hm
  have hqw := hq.wf _ hm
  have hpy : (⟨A1.shape, y⟩ : Nd R) = p s.root := by
    have := hp.flat
    rw [tensors_one ht.leaf hone] at this
    simp only [List.flatMap_cons, List.flatMap_nil, List.append_nil] at this
    rw [this, ← hps]
  have hqy : (⟨A1.shape, d⟩ : Nd R) = q s.root := by
    have := hq.flat
    rw [tensors_one ht.leaf hone] at this
    simp only [List.flatMap_cons, List.flatMap_nil, List.append_nil] at this
    rw [this, ← hqs]
  rw [hpy, hqy]
  set P := p s.root with hP
  set Q := q s.root with hQ
  set L := s.heap.leafList s.root F with hL
  set ψ := variation s F s.root (some P) with hψ
  -- the network with free leaves
  set h0 := s.withTerm [] with hh0
  have n0 : ∀ t, (h0.node t).isLeaf = (s.heap.node t).isLeaf ∧ (h0.node t).access = (s.heap.node t).access ∧ (h0.node t).name = (s.heap.node t).name := by
    intro t
    rw [hh0]; unfold Obj.withTerm; simp only
    split <;> exact ⟨rfl, rfl, rfl⟩
  have a0 : ∀ t, s.heap.isLeaf t = false → h0.array t = s.heap.array t := by
    intro t hl
    unfold Heap.isLeaf at hl
    rw [hh0]; unfold Obj.withTerm Heap.array; simp only [hl]
    rfl
  have t0 : h0.IsTTN s.root F := ht.congr' (fun t => (n0 t).2.1) rfl (fun t => (n0 t).1) (fun t => (n0 t).2.2)
    (fun t A hl hA hw => ⟨A, (a0 t hl).trans hA, hw, rfl⟩)
  have hov : ∀ B C : Nd R, B.Wf → B.shape = A1.shape → C.Wf → C.shape = A1.shape →
      sumLeaves L (fun x => variation s F s.root (some C) x * star (variation s F s.root (some B) x)) (fun _ => 0) =
        sumIdx A1.shape (fun w => C.get w * star (B.get w)) := by
    intro B C hB hBs hC hCs
    have k : SameShape s { s with heap := h0 } := ⟨rfl, rfl, rfl, rfl, fun t => (n0 t).2.1, fun t => (n0 t).1, fun t => by
      show (h0.node t).axis = _
      rw [hh0]; unfold Obj.withTerm; simp only; split <;> rfl, fun t => by
      show (h0.node t).normalized = _
      rw [hh0]; unfold Obj.withTerm; simp only; split <;> rfl, fun t => (n0 t).2.2, fun t hl => by rw [a0 t hl]⟩
    have v := variation_one k ht hone
    have := overlap_root (h := h0) t0 (fun e he => by rw [bonds_one (fun l hl => by rw [k.leaf]; exact hone l hl)] at he; cases he) (fun e _ hl => by
      have hl' : (s.heap.node e.2.2.1).isLeaf = true := by rw [← (n0 _).1]; exact hl
      rw [hh0]; unfold Obj.withTerm Heap.array; simp only [hl', if_true]; rfl) (A := A1) (B := B) (C := C)
      (by obtain ⟨A2, f2⟩ := t0.full s.root (mem_tensors.2 ⟨.inl rfl, t0.leaf⟩)
          obtain rfl : A2 = A1 := Option.some.inj (f2.array.symm.trans ((a0 _ ht.leaf).trans hA0))
          exact f2) hB hBs hC hCs
    rw [← this, ← v, ← v]
    have : h0.leafList s.root F = L := k.leafList ht
    rw [this]
    rfl
  have hdep : ∀ B : Nd R, B.shape = A1.shape → ∀ x y : ℕ → ℕ, (∀ l ∈ L.map Prod.fst, x l = y l) →
      variation s F s.root (some B) x = variation s F s.root (some B) y := by
    intro B hBs x y hxy
    unfold variation
    have e1 : ∀ l, (s.heap.setArray s.root (some B)).isLeaf l = s.heap.isLeaf l := fun l => by
      unfold isLeaf; rw [node_setArray]; split <;> rfl
    have e2 : ∀ x, (s.heap.setArray s.root (some B)).treeAmp s.root F x = B.get (s.heap.oneIdx s.root A1.ndim x) := by
      intro x
      rw [amp_one (by rw [e1]; exact ht.leaf) (fun l hl => by rw [e1]; exact hone l hl) (A := B)
        (by rw [Heap.array_setArray, if_pos rfl])]
      unfold oneIdx Nd.ndim
      rw [leafAssign_setArray, hBs]
    rw [e2, e2, (oneIdx_eq ht hone hfull x y).2 hxy]
  have hgrad : ∀ B : Nd R, B.Wf → B.shape = A1.shape → sumIdx A1.shape (fun w => G.get w * star (B.get w)) =
      sumLeaves L (fun y => sumLeaves L (fun x => ψ x * hEntry s F x y) (fun _ => 0) * star (variation s F s.root (some B) y)) (fun _ => 0) := by
    intro B hB hBs
    have h1 := g4 B hB (hBs.trans hps.symm)
    have hll : (s.heap.setArray s.root (some P)).leafList s.root F = L := by
      rw [hL]; unfold leafList
      have hleaf0 : ∀ l, (s.heap.setArray s.root (some P)).isLeaf l = s.heap.isLeaf l := fun l => by
        unfold isLeaf; rw [node_setArray]; split <;> rfl
      simp only [hleaf0, hdim_setArray hA0 hps]
    have h2 : ((s.allTerms none).map (termElem { s with heap := s.heap.setArray s.root (some P) } F s.root B)).sum =
        element { s with heap := s.heap.setArray s.root (some P) } F ψ (variation s F s.root (some B)) := by
      have := element_terms (s := { s with heap := s.heap.setArray s.root (some P) }) (F := F) (t := s.root) (B := B)
      rw [show ({ s with heap := s.heap.setArray s.root (some P) } : Obj T R).allTerms none = s.allTerms none from rfl] at this
      rw [← this]
      congr 1
      funext x
      unfold variation
      simp only [setArray_setArray]
    rw [h2] at h1
    unfold inner at h1
    rw [g1, hps] at h1
    rw [h1]
    unfold element
    simp only [hll]
    rw [sumLeaves_swap]
    refine TreeSum.sumLeaves_congr fun y => ?_
    rw [mul_comm, ← TreeSum.sumLeaves_mul_left]
    refine TreeSum.sumLeaves_congr fun x => ?_
    have : hEntry { s with heap := s.heap.setArray s.root (some P) } F x y = hEntry s F x y := by
      unfold hEntry termEntry
      simp only [hll]
      rfl
    rw [this]
    ring
  have key : coef * variation s F s.root (some Q) x - sumLeaves L (fun z => ψ z * hEntry s F z x) (fun _ => 0)
      + coef * ie.getD 0 * ψ x = 0 := by
    refine one_point ht hone hfull (φ := fun y => coef * variation s F s.root (some Q) y -
      sumLeaves L (fun x => ψ x * hEntry s F x y) (fun _ => 0) + coef * ie.getD 0 * ψ y) ?_ ?_ hx
    · intro x y hxy
      beta_reduce
      rw [hdep Q hqs x y hxy, hψ, hdep P hps x y hxy]
      congr 2
      refine TreeSum.sumLeaves_congr fun z => ?_
      congr 1
      unfold hEntry termEntry
      congr 1
      refine List.map_congr_left fun term _ => ?_
      congr 1
      exact List.map_congr_left fun l hl => by rw [hxy l hl]
    · intro B hB hBs
      have e1 : ∀ y, (coef * variation s F s.root (some Q) y - sumLeaves L (fun x => ψ x * hEntry s F x y) (fun _ => 0) +
          coef * ie.getD 0 * ψ y) * star ((s.heap.setArray s.root (some B)).treeAmp s.root F y) =
          coef * (variation s F s.root (some Q) y * star (variation s F s.root (some B) y)) +
          (-1 * (sumLeaves L (fun x => ψ x * hEntry s F x y) (fun _ => 0) * star (variation s F s.root (some B) y)) +
          coef * ie.getD 0 * (ψ y * star (variation s F s.root (some B) y))) := by
        intro y
        unfold variation
        ring
      rw [TreeSum.sumLeaves_congr e1, sumLeaves_add, sumLeaves_add, TreeSum.sumLeaves_mul_left, TreeSum.sumLeaves_mul_left, TreeSum.sumLeaves_mul_left,
        ← hgrad B hB hBs, hψ, hov B Q hB hBs hqw hqs, hov B P hB hBs hpw hps, ← sumIdx_mul_left, ← sumIdx_mul_left, ← sumIdx_mul_left,
        ← sumIdx_add, ← sumIdx_add]
      refine (sumIdx_congr fun w hw => ?_).trans (sumIdx_zero _)
      have hw' : Valid P.shape w := by rw [hps]; exact hw
      rw [g5 w hw', if_pos rfl, g3 w hw']
      field_simp
      ring
  unfold generator
  rw [← hL, eq_sub_iff_add_eq, eq_div_iff hcoef]
  linear_combination key

end DirectSolve
