import Verif.Lemmas.Rk4
import Verif.Props.C63

/-!
C69: the Runge-Kutta step of `direct_step` (`ode_method='RK4'`).

`generator`, `taylor4` and `rk4Classical` are defined in `Spec/Rk4.lean`.
-/

open scoped BigOperators
open Py

namespace ML

open Heap

variable {T R : Type} [Zero T] [Field R] [StarRing R]

/-- If the network has one tensor only, one step with `ode_method='RK4'` multiplies the state by the Taylor polynomial of degree 4 of
`exp(dt (H / coef - init_energy))`. (Missing: networks with more tensors, for which it is false, see below.) -/
theorem C69_rk4_partial [CharZero R] {s : Obj T R} {F : Forest} (hr : DirectReady s F) (hone : ∀ l ∈ F.ids, s.heap.isLeaf l = true)
    (lin : Linalg R) {coef : R} (hcoef : coef ≠ 0) (initEnergy : Option R) (dt : R) {fuel : ℕ} (hf : F.ids.length < fuel) :
    ∃ s', rk4Step fuel lin coef initEnergy dt s = .ok s' ∧ s'.root = s.root ∧ s'.hList = s.hList ∧ s'.fList = s.fList ∧ s'.time = s.time ∧
      s'.heap.IsTTN s.root F ∧ (s'.heap.node s.root).aux = none ∧ ∀ y, (∀ p ∈ s.heap.leafList s.root F, y p.1 < p.2) →
        s'.heap.treeAmp s.root F y = taylor4 (generator s F coef initEnergy) dt (s.heap.treeAmp s.root F) y := by
  have hlin : lin.Works s F := by
    intro e he
    rw [bonds_one hone] at he
    cases he
  obtain ⟨s2, inv, s', -, t2, -, -, a5, -, -, s1, b1, b2⟩ := derivative_core' hr hlin hcoef initEnergy hf
  have hl2 : ∀ l, s2.heap.isLeaf l = s.heap.isLeaf l := t2.sim.isLeaf
  have hone2 : ∀ l ∈ F.ids, s2.heap.isLeaf l = true := fun l hl => by rw [hl2]; exact hone l hl
  have hs : OneReady s2 F inv := ⟨a5.ready, hone2, a5.env _ (mem_tensors.2 ⟨.inl rfl, a5.ready.ttn.leaf⟩), by rw [t2.terms]; exact hr.terms⟩
  obtain ⟨s', B, c1, c2, c3, c4⟩ := rk4_core hs (fun l hl hlf => by
    rw [← edges_targets F s2.root] at hl
    obtain ⟨e, he, rfl⟩ := List.mem_map.1 hl
    exact a5.leafArr e he hlf) hcoef initEnergy dt hf b1 b2
  obtain ⟨r1, -, r3⟩ := c2.ready hs
  have hroot : s'.root = s.root := c2.twin.root.trans t2.root
  refine ⟨s', c1, hroot, c2.twin.hList.trans t2.hList, c2.twin.fList.trans t2.fList, c2.twin.time.trans t2.time, ?_, ?_, fun y hy => ?_⟩
  · rw [← hroot]; exact r1.ttn
  · rw [← t2.root]; exact c3
  · have hll := t2.leafList hr.ttn
    have hgen : generator s2 F coef initEnergy = generator s F coef initEnergy := by
      funext φ y
      unfold generator hEntry termEntry
      rw [hll, t2.terms, t2.now]
    have := c4 y (by rw [hll]; exact hy)
    rw [hgen, t2.amp hr.ttn] at this
    rw [← this]
    have hA : s'.heap.array s2.root = some B := by
      have hl := r1.ttn.leaf
      rw [c2.twin.root] at hl
      rw [c2.twin.sim.array hl]
      show (s2.heap.setArray s2.root (some B)).array s2.root = _
      rw [array_setArray, if_pos rfl]
    obtain ⟨A0, hA0⟩ := a5.ready.ttn.full s2.root (mem_tensors.2 ⟨.inl rfl, a5.ready.ttn.leaf⟩)
    have ht0 := a5.ready.ttn.setArray hA0.array c2.wf (c2.shape A0 hA0.array)
    have hamp := congrFun (c2.twin.amp ht0) y
    rw [hroot] at hamp
    exact hamp

/-- The object of C63: one tensor, `H` swaps the two states, the state is `(1, 0)`. -/
def exRk1 : Obj ℚ SplitProp.Gq := ⟨SplitProp.exQ, 0, SplitProp.exQExt.hList, none, some 0, []⟩

/-- With `coef = i`, the amplitudes after one step are `1 - dt²/2 + dt⁴/24` and `-i (dt - dt³/6)`. -/
example (dt : SplitProp.Gq) : ∃ s', rk4Step 5 (exactLinalg SplitProp.Gq) ⟨0, 1⟩ none dt exRk1 = .ok s' ∧
    s'.heap.treeAmp 0 SplitProp.exQForest (fun _ => 0) = 1 - dt ^ 2 / 2 + dt ^ 4 / 24 ∧
    s'.heap.treeAmp 0 SplitProp.exQForest (fun _ => 1) = ⟨0, -1⟩ * (dt - dt ^ 3 / 6) := by
  obtain ⟨s', h, -, -, -, -, -, -, h2⟩ := C69_rk4_partial (fuel := 5) (s := exRk1) SplitProp.exQ_ready (by decide +kernel) (exactLinalg SplitProp.Gq)
    (coef := ⟨0, 1⟩) (by decide +kernel) none dt (by decide)
  have hL : exRk1.heap.leafList exRk1.root SplitProp.exQForest = [(1, 2)] := by decide +kernel
  have v0 := h2 (fun _ => 0) (by rw [hL]; decide)
  have v1 := h2 (fun _ => 1) (by rw [hL]; decide)
  set L := generator exRk1 SplitProp.exQForest (⟨0, 1⟩ : SplitProp.Gq) none with hLd
  set φ := exRk1.heap.treeAmp exRk1.root SplitProp.exQForest with hφ
  have k0 : φ (fun _ => 0) = 1 ∧ L φ (fun _ => 0) = 0 ∧ L (L φ) (fun _ => 0) = -1 ∧ L (L (L φ)) (fun _ => 0) = 0 ∧
      L (L (L (L φ))) (fun _ => 0) = 1 := by rw [hLd, hφ]; decide +kernel
  have k1 : φ (fun _ => 1) = 0 ∧ L φ (fun _ => 1) = ⟨0, -1⟩ ∧ L (L φ) (fun _ => 1) = 0 ∧ L (L (L φ)) (fun _ => 1) = ⟨0, 1⟩ ∧
      L (L (L (L φ))) (fun _ => 1) = 0 := by rw [hLd, hφ]; decide +kernel
  obtain ⟨a1, a2, a3, a4, a5⟩ := k0
  obtain ⟨b1, b2, b3, b4, b5⟩ := k1
  have hm : (⟨0, 1⟩ : SplitProp.Gq) = -⟨0, -1⟩ := by decide +kernel
  unfold taylor4 at v0 v1
  rw [a1, a2, a3, a4, a5] at v0
  rw [b1, b2, b3, b4, b5, hm] at v1
  refine ⟨s', h, v0.trans ?_, v1.trans ?_⟩ <;> ring

/-! A network with two tensors: that of C32, without normalization marks. -/

def exRkHeap : Heap ℚ := exEomHeap.upd 1 fun n => { n with normalized := false }

def exRk2 : Obj ℕ ℚ := { exEom [] with heap := exRkHeap }

theorem exRk2_ready : DirectReady exRk2 exTwoForest where
  ttn := by
    refine exEomHeap_ttn.congr' (h' := exRkHeap) (fun c => ?_) rfl (fun c => ?_) (fun c => ?_) (fun c A _ hA hw => ⟨A, ?_, hw, rfl⟩)
    · unfold exRkHeap Heap.access; rw [node_upd]; split <;> rename_i q <;> [rw [q]; rfl]
    · unfold exRkHeap Heap.isLeaf; rw [node_upd]; split <;> rename_i q <;> [rw [q]; rfl]
    · unfold exRkHeap; rw [node_upd]; split <;> rename_i q <;> [rw [q]; rfl]
    · rw [← hA]; unfold exRkHeap Heap.array; rw [node_upd]; split <;> rename_i q <;> [rw [q]; rfl]
  rooted := ⟨rfl, (by decide +kernel : ∀ e ∈ exRkHeap.bonds 0 exTwoForest, (exRkHeap.node e.2.2.1).axis = some e.2.2.2)⟩
  can := by
    intro e he
    have : exRkHeap.bonds 0 exTwoForest = [(0, 0, 1, 1)] := by decide +kernel
    change e ∈ exRkHeap.bonds 0 exTwoForest at he
    rw [this] at he
    simp only [List.mem_cons, List.not_mem_nil, or_false] at he
    subst he
    obtain ⟨A, h1, h2⟩ := exEom_canonical
    exact ⟨A, h1, h2⟩
  norm := by
    intro t ht _ A h1
    have : t ∈ exRkHeap.tensors 0 exTwoForest := ht
    rw [show exRkHeap.tensors 0 exTwoForest = [0, 1] by decide +kernel] at this
    simp only [List.mem_cons, List.not_mem_nil, or_false] at this
    rcases this with rfl | rfl <;> cases h1
  axes := (by decide +kernel : ∀ l ∈ exTwoForest.ids, exRkHeap.isLeaf l = true → (exRkHeap.node l).axis = none)
  leaf := by
    intro term ht p hp
    have := exDirect_ready.leaf term ht p hp
    revert this
    show exEomHeap.isLeaf p.1 = true → exRkHeap.isLeaf p.1 = true
    unfold exRkHeap Heap.isLeaf; rw [node_upd]; split <;> rename_i q <;> [rw [q]; skip] <;> exact id
  fits := by
    intro term ht p hp
    have hl : exRkHeap.leafList 0 exTwoForest = exEomHeap.leafList 0 exTwoForest := by decide +kernel
    change p ∈ exRkHeap.leafList 0 exTwoForest at hp
    rw [hl] at hp
    exact exDirect_ready.fits term ht p hp
  terms := by simp [exRk2, exEom, Obj.allTerms]

/-- With two tensors the step is not the Runge-Kutta step of the equations of motion: the stages after the first one use mean fields and
inverse densities of the old arrays. The object meets all hypotheses of C60, the inverse is exact, and the two methods differ. -/
theorem C69_stale_fields_violated : ∃ (s a b : Obj ℕ ℚ) (F : Forest) (lin : Linalg ℚ), DirectReady s F ∧ lin.Works s F ∧
    rk4Step 5 lin 1 none (1/10) s = .ok a ∧ rk4Classical 5 lin 1 none (1/10) s = .ok b ∧
      a.heap.treeAmp 0 F (fun _ => 0) ≠ b.heap.treeAmp 0 F (fun _ => 0) := by
  have h : ((rk4Step 5 exLin 1 none (1/10) exRk2).toOption.bind fun a => (rk4Classical 5 exLin 1 none (1/10) exRk2).toOption.map fun b =>
      decide (a.heap.treeAmp 0 exTwoForest (fun _ => 0) = b.heap.treeAmp 0 exTwoForest (fun _ => 0))) = some false := by decide +kernel
  cases ha : rk4Step 5 exLin 1 none (1/10) exRk2 with
  | error e => rw [ha] at h; cases h
  | ok a =>
    cases hb : rk4Classical 5 exLin 1 none (1/10) exRk2 with
    | error e => rw [ha, hb] at h; cases h
    | ok b =>
      rw [ha, hb] at h
      refine ⟨exRk2, a, b, exTwoForest, exLin, exRk2_ready, ?_, ha, hb, ?_⟩
      · intro e he d hd
        have : exRkHeap.bonds 0 exTwoForest = [(0, 0, 1, 1)] := by decide +kernel
        change e ∈ exRkHeap.bonds 0 exTwoForest at he
        rw [this] at he
        simp only [List.mem_cons, List.not_mem_nil, or_false] at he
        subst he
        exact ⟨_, rfl, rfl⟩
      · simpa [Except.toOption] using h

end ML
