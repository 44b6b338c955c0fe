import Verif.Lemmas.Eom4
import Verif.Props.C10
import Mathlib.Algebra.Field.Rat
import Mathlib.Algebra.Star.Rat

/-!
C32: the equations of motion keep the gauge.

`EomReady` (`Spec/Eom.lean`) is what is assumed: a tree tensor network with one root and sound normalization marks, terms whose operators
fit, an inverse density of the right size for every tensor but the root (any matrix), and stored mean fields in `env_` of the right size
(any matrices, as they may belong to an earlier time).
-/

open scoped BigOperators
open Py

namespace ML

open Heap

variable {T R : Type} [Zero T] [Field R] [StarRing R]

/-- After `eom()` every tensor has a derivative in `aux`, of the shape of its array. If a tensor other than the root is orthonormal
towards its axis (slices `A[.., z, ..]`), its derivative is orthogonal to all slices. The links and arrays are unchanged, and no leaf
carries an operator. -/
theorem C32_eom_gauge {s : Obj T R} {F : Forest} {inv : Dict ℕ (Nd R)} (hr : EomReady s F inv) (hne : s.allTerms none ≠ [])
    (coef : R) (initEnergy : Option R) {fuel : ℕ} (hf : F.ids.length < fuel) :
    ∃ s', eom fuel inv coef initEnergy s = .ok s' ∧ Clean s F s' ∧
      (∀ t ∈ s.heap.tensors s.root F, ∀ A, s.heap.array t = some A →
        ∃ D, (s'.heap.node t).aux = some D ∧ D.Wf ∧ D.shape = A.shape) ∧
      ∀ t ∈ s.heap.tensors s.root F, t ≠ s.root → ∃ k, (s.heap.node t).axis = some k ∧ (s.heap.Canonical t k →
        ∀ A D, s.heap.array t = some A → (s'.heap.node t).aux = some D →
          ∀ z w, z < A.shape.getD k 1 → w < A.shape.getD k 1 →
            sumIdx (A.shape.eraseIdx k) (fun p => D.get (p.insertIdx k z) * star (A.get (p.insertIdx k w))) = 0) := by
  obtain ⟨s', e1, e2, -, e3, -⟩ := eom_ok hr hne coef initEnergy hf
  refine ⟨s', e1, e2, fun t hm A hA => ?_, fun t hm hnr => ?_⟩
  · obtain ⟨G, X, D, d1, d2, d3, -⟩ := e3 t hm A hA
    exact ⟨D, d1, d2, d3⟩
  · rcases axis_cases hr.base hm with ⟨q, -⟩ | ⟨e, -, -, q⟩
    · exact absurd q hnr
    · refine ⟨e.2.2.2, q, fun hcan A D hA hD z w hz hw => ?_⟩
      set k := e.2.2.2
      obtain ⟨G, X, D', d1, d2, d3, d4, d5, d6, -, d7⟩ := e3 t hm A hA
      obtain rfl : D = D' := Option.some.inj (hD.symm.trans d1)
      obtain ⟨A', a1, a2, a3⟩ := hcan
      obtain rfl : A' = A := Option.some.inj (a1.symm.trans hA)
      rw [q] at d6
      obtain ⟨M, m1, m2⟩ := d6
      have hX : sumIdx (A'.shape.eraseIdx k) (fun p => X.get (p.insertIdx k z) * star (A'.get (p.insertIdx k w))) = 0 :=
        gauge_of (D := fun p => X.get (p.insertIdx k z)) (X := fun p => timesAxis k (A'.shape.getD k 1) G M p z)
          (fun z w hz hw => a3 z w hz hw) (fun p hp => m2 p z hp hz) hw
      have : sumIdx (A'.shape.eraseIdx k) (fun p => D.get (p.insertIdx k z) * star (A'.get (p.insertIdx k w))) =
          sumIdx (A'.shape.eraseIdx k) (fun p => coef⁻¹ * (X.get (p.insertIdx k z) * star (A'.get (p.insertIdx k w)))) := by
        refine sumIdx_congr fun p hp => ?_
        rw [d7 _ (valid_insert a2 rfl hp hz), if_neg hnr, sub_zero, div_eq_mul_inv]
        ring
      rw [this, sumIdx_mul_left, hX, mul_zero]

/-- Without terms `eom()` fails: there is nothing to divide by the coefficient. -/
theorem C32_no_terms {s : Obj T R} {F : Forest} (ht : s.heap.IsTTN s.root F) (hax : (s.heap.node s.root).axis = none)
    (hne : s.allTerms none = []) (inv : Dict ℕ (Nd R)) (coef : R) (initEnergy : Option R) {fuel : ℕ} (hf : F.depth < fuel) :
    eom fuel inv coef initEnergy s = .error .typeError := by
  have hv := visitor_tree ht.tree true hf
  simp only [Bool.true_or, if_true, List.filter_true, List.cons_append, List.nil_append] at hv
  have e1 : Sim noAux ((s.root :: F.ids).foldl (fun h t => h.setAux t none) s.heap) s.heap :=
    foldl_sim (fun h l => setAux_noAux h l none) _ _
  have ht1 := Sim2.ttn (Sim.symm e1.aux) ht
  have haux := (foldl_setAux (fun _ _ => none) (fun _ _ _ _ => rfl) (s.root :: F.ids) s.heap).2 s.root
  rw [if_pos (by simp)] at haux
  set h1 := (s.root :: F.ids).foldl (fun h t => h.setAux t none) s.heap with hh1
  have hv1 := visitor_tree ht1.tree true hf
  simp only [Bool.true_or, if_true, List.filter_true, List.cons_append, List.nil_append] at hv1
  set h2 := (s.root :: F.ids).foldl Heap.reset h1 with hh2
  have e2 : Sim noOps h2 h1 := foldl_sim noOps_reset _ _
  have ht2 := Sim2.ttn (Sim.symm e2.ops) ht1
  have haux2 : (h2.node s.root).aux = none := by
    have := congrArg Node.aux (e2.2 s.root)
    have q : (h2.node s.root).aux = (h1.node s.root).aux := this
    rw [q, haux]
  unfold eom
  rw [hax, hv]
  simp only [ok_bind]
  rw [← hh1]
  unfold termVisitor
  simp only
  rw [hv1]
  simp only [ok_bind]
  rw [← hh2]
  have : ({ s with heap := h1 } : Obj T R).allTerms none = [] := hne
  rw [this]
  simp only [List.zipIdx_nil, List.foldlM_nil]
  show (do
    let ts ← h2.visitor fuel s.root (h2.node s.root).axis false
    let h ← ts.foldlM (finishEom coef initEnergy) h2
    pure ({ s with heap := h } : Obj T R)) = _
  rw [show (h2.node s.root).axis = none by rw [e2.ops.axis, e1.aux.axis]; exact hax, visit_tensors ht2 hf]
  simp only [ok_bind]
  have : h2.tensors s.root F = s.root :: (F.ids.filter fun t => !(h2.isLeaf t)) := by
    unfold tensors
    rw [List.filter_cons_of_pos (by simp [ht2.leaf])]
  rw [this, List.foldlM_cons]
  unfold finishEom
  rw [haux2]
  rfl

/-! Instance: a root with a leaf of dimension 2, and a tensor with orthonormal slices and a leaf of dimension 3. The terms are
antisymmetric: they generate a rotation. -/

/-- The network. -/
def exEomHeap : Heap ℚ :=
  let h := (empty.alloc (Node.tensor (some ['a']) (some ⟨[2, 2], [1, 2, 3, 5]⟩) none)).1
  let h := (h.alloc (Node.tensor (some ['b']) (some ⟨[3, 2], [3/5, 0, 4/5, 0, 0, 1]⟩) (some 1) true)).1
  let h := (h.alloc (Node.leaf (some ['x']))).1
  let h := (h.alloc (Node.leaf (some ['y']))).1
  ((h.link 0 0 1 1).link 0 1 2 0).link 1 0 3 0

theorem exEomHeap_reachable : Reachable exEomHeap := by
  unfold exEomHeap
  refine .link (.link (.link (.new _ (.new _ (.new _ (.new _ .empty rfl) rfl) rfl) rfl) ?_ ?_ ?_ ?_)
    ?_ ?_ ?_ ?_) ?_ ?_ ?_ ?_ <;> decide +kernel

theorem exEomHeap_acc (k : ℕ) : exEomHeap.acc 0 (k + 2) = none ∧ exEomHeap.acc 1 (k + 2) = none := by
  constructor <;> simp [exEomHeap, Heap.acc_def, Heap.access, Heap.link, Heap.alloc, Heap.upd, Heap.empty, Node.tensor, Node.leaf,
    Dict.get?, Dict.set]

theorem exEomHeap_full : exEomHeap.Full 0 ⟨[2, 2], [1, 2, 3, 5]⟩ ∧ exEomHeap.Full 1 ⟨[3, 2], [3/5, 0, 4/5, 0, 0, 1]⟩ := by
  refine ⟨⟨rfl, rfl, by simp [Nd.Wf], by decide, fun k => ?_⟩, ⟨rfl, rfl, by simp [Nd.Wf], by decide, fun k => ?_⟩⟩ <;>
    rcases k with _ | _ | k
  · simp [Nd.ndim]; decide +kernel
  · simp [Nd.ndim]; decide +kernel
  · exact ⟨fun q => absurd (exEomHeap_acc k).1 q, fun q => absurd q (by simp [Nd.ndim])⟩
  · simp [Nd.ndim]; decide +kernel
  · simp [Nd.ndim]; decide +kernel
  · exact ⟨fun q => absurd (exEomHeap_acc k).2 q, fun q => absurd q (by simp [Nd.ndim])⟩

theorem exEomHeap_tensors : exEomHeap.tensors 0 exTwoForest = [0, 1] := by decide +kernel

theorem exEomHeap_ttn : exEomHeap.IsTTN 0 exTwoForest where
  links := linkInv_of_reachable exEomHeap_reachable
  tree := ⟨by decide +kernel, ⟨by decide +kernel, ⟨by decide +kernel, trivial, trivial⟩, by decide +kernel, trivial, trivial⟩,
    by decide +kernel, ⟨by decide +kernel, ⟨fun _ => rfl, trivial, trivial⟩, fun _ => rfl, trivial, trivial⟩⟩
  leaf := rfl
  lt := by decide +kernel
  full := by
    rw [exEomHeap_tensors]
    intro t ht
    simp only [List.mem_cons, List.not_mem_nil, or_false] at ht
    rcases ht with rfl | rfl
    · exact ⟨_, exEomHeap_full.1⟩
    · exact ⟨_, exEomHeap_full.2⟩
  dims := by decide +kernel
  names := by
    rw [exEomHeap_tensors]
    intro t ht
    simp only [List.mem_cons, List.not_mem_nil, or_false] at ht
    rcases ht with rfl | rfl
    · exact ⟨['a'], rfl⟩
    · exact ⟨['b'], rfl⟩

/-- The object, with the given stored mean fields. -/
def exEom (env : Dict (ℕ × ℕ × ℕ) (Option (Nd ℚ))) : Obj ℕ ℚ :=
  { heap := exEomHeap, root := 0,
    hList := [[(3, .mat ⟨[3, 3], [0, 1, 0, -1, 0, 2, 0, -2, 0]⟩)],
      [(2, .mat ⟨[2, 2], [0, 1, -1, 0]⟩), (3, .mat ⟨[3, 3], [1, 0, 2, 0, 1, 0, 2, 0, 3]⟩)]],
    fList := none, time := none, env := env }

/-- The inverse of the density `[[5, 13], [13, 34]]` of tensor 1. -/
def exInv : Dict ℕ (Nd ℚ) := [(1, ⟨[2, 2], [34, -13, -13, 5]⟩)]

theorem exEom_canonical : exEomHeap.Canonical 1 1 := by
  refine ⟨⟨[3, 2], [3/5, 0, 4/5, 0, 0, 1]⟩, rfl, by decide, fun z w hz hw => ?_⟩
  change z < 2 at hz
  change w < 2 at hw
  obtain rfl | rfl : z = 0 ∨ z = 1 := by omega
  all_goals obtain rfl | rfl : w = 0 ∨ w = 1 := by omega
  all_goals decide +kernel

theorem exEom_ready (env : Dict (ℕ × ℕ × ℕ) (Option (Nd ℚ)))
    (he : ∀ t ∈ [0, 1], ∀ n i v, env.get? (n, t, i) = some v → OpFits v (exEomHeap.hdim (t, i)) (exEomHeap.hdim (t, i))) :
    EomReady (exEom env) exTwoForest exInv where
  ttn := exEomHeap_ttn
  rooted := ⟨rfl, (by decide +kernel : ∀ e ∈ exEomHeap.bonds 0 exTwoForest, (exEomHeap.node e.2.2.1).axis = some e.2.2.2)⟩
  norm := by
    intro t ht _ A h1 h2 h3
    have : t ∈ exEomHeap.tensors 0 exTwoForest := ht
    rw [exEomHeap_tensors] at this
    simp only [List.mem_cons, List.not_mem_nil, or_false] at this
    rcases this with rfl | rfl
    · cases h1
    · exact exEom_canonical
  leaf := by
    intro term ht p hp
    simp only [Obj.allTerms, exEom, List.mem_cons, List.not_mem_nil, or_false] at ht
    rcases ht with rfl | rfl <;> simp only [List.mem_cons, List.not_mem_nil, or_false] at hp
    · subst hp; rfl
    · rcases hp with rfl | rfl <;> rfl
  fits := by
    intro term ht p hp
    have hl : exEomHeap.leafList 0 exTwoForest = [(3, 3), (2, 2)] := by decide +kernel
    change p ∈ exEomHeap.leafList 0 exTwoForest at hp
    rw [hl] at hp
    simp only [Obj.allTerms, exEom, List.mem_cons, List.not_mem_nil, or_false] at ht hp
    rcases ht with rfl | rfl <;> rcases hp with rfl | rfl
    · exact ⟨by simp [Nd.Wf, TermOp.at], rfl⟩
    · rfl
    · exact ⟨by simp [Nd.Wf, TermOp.at], rfl⟩
    · exact ⟨by simp [Nd.Wf, TermOp.at], rfl⟩
  inv := by
    intro e he
    have : exEomHeap.bonds 0 exTwoForest = [(0, 0, 1, 1)] := by decide +kernel
    change e ∈ exEomHeap.bonds 0 exTwoForest at he
    rw [this] at he
    simp only [List.mem_cons, List.not_mem_nil, or_false] at he
    subst he
    exact ⟨_, rfl, rfl⟩
  env := by
    intro t ht
    have : t ∈ exEomHeap.tensors 0 exTwoForest := ht
    rw [exEomHeap_tensors] at this
    exact he t this

/-- A stored mean field that belongs to no state of the network. -/
def exStale : Dict (ℕ × ℕ × ℕ) (Option (Nd ℚ)) := [((0, 1, 0), some ⟨[3, 3], [1, 2, 3, 4, 5, 6, 7, 8, 9]⟩)]

theorem exStale_fits : ∀ t ∈ [0, 1], ∀ n i v, exStale.get? (n, t, i) = some v →
    OpFits v (exEomHeap.hdim (t, i)) (exEomHeap.hdim (t, i)) := by
  intro t ht n i v hv
  by_cases q : ((0, 1, 0) : ℕ × ℕ × ℕ) = (n, t, i)
  · cases q
    cases hv
    exact ⟨by simp [Nd.Wf], by decide +kernel⟩
  · simp [exStale, Dict.get?, q] at hv

/-- The derivative of tensor 1 in the example is not zero, and orthogonal to its slices (with and without a stored mean field). -/
example : ((eom 5 exInv 1 none (exEom [])).toOption.map fun s => ((s.heap.node 1).aux.map Nd.data)) =
      some (some [1068/25, -392/25, -801/25, 294/25, 0, 0]) := by
  decide +kernel

example : ∃ s', eom 5 exInv 2 (some 3) (exEom exStale) = .ok s' ∧ Clean (exEom exStale) exTwoForest s' ∧ ∃ D,
    (s'.heap.node 1).aux = some D ∧ ∀ z w, z < 2 → w < 2 →
      sumIdx [3] (fun p => D.get (p.insertIdx 1 z) * star ((⟨[3, 2], [3/5, 0, 4/5, 0, 0, 1]⟩ : Nd ℚ).get (p.insertIdx 1 w))) = 0 := by
  obtain ⟨s', h1, h2, h3, h4⟩ := C32_eom_gauge (exEom_ready exStale exStale_fits) (by simp [exEom, Obj.allTerms]) 2 (some 3)
    (fuel := 5) (by decide)
  have hm : 1 ∈ (exEom exStale).heap.tensors (exEom exStale).root exTwoForest := by
    show 1 ∈ exEomHeap.tensors 0 exTwoForest
    rw [exEomHeap_tensors]; simp
  obtain ⟨D, d1, -, -⟩ := h3 1 hm _ rfl
  obtain ⟨k, k1, k2⟩ := h4 1 hm (by decide)
  obtain rfl : k = 1 := by
    have : (some 1 : Option ℕ) = some k := k1
    exact (Option.some.inj this).symm
  exact ⟨s', h1, h2, D, d1, k2 exEom_canonical _ D rfl d1⟩

example : eom 5 exInv 1 none { exEom [] with hList := [] } = .error .typeError :=
  C32_no_terms (F := exTwoForest) exEomHeap_ttn rfl rfl _ _ _ (by decide)

end ML
