import Verif.Spec.DirectSolve
import Verif.Lemmas.SplitProp
import Verif.Lemmas.Dirac2

/-!
`vectorize` and `tensorize` on a network.
-/

open Py

namespace DirectSolve

open Heap ML

section vector

variable {R : Type} [CommRing R]

/-- The arrays `p t` at all tensors of a list. -/
def setAll (ts : List ℕ) (p : ℕ → Nd R) (h : Heap R) : Heap R := ts.foldl (fun h t => h.setArray t (some (p t))) h

theorem setAll_next (ts : List ℕ) (p : ℕ → Nd R) (h : Heap R) : (setAll ts p h).next = h.next := by
  induction ts generalizing h with
  | nil => rfl
  | cons t ts ih => exact ih _

theorem setAll_node (ts : List ℕ) (p : ℕ → Nd R) (h : Heap R) (u : ℕ) :
    (setAll ts p h).node u = if u ∈ ts then { h.node u with array := some (p u) } else h.node u := by
  induction ts generalizing h with
  | nil => rfl
  | cons t ts ih =>
    show (setAll ts p (h.setArray t (some (p t)))).node u = _
    rw [ih, node_setArray]
    by_cases q : u = t
    · subst q; simp
    · simp [q]

theorem tensorizeLoop_parts (p : ℕ → Nd R) (ts : List ℕ) (h : Heap R)
    (hs : ∀ t ∈ ts, (p t).Wf ∧ ∃ A, h.array t = some A ∧ (p t).shape = A.shape) (pre : List R) :
    tensorizeLoop (pre ++ ts.flatMap fun t => (p t).data) false none ts pre.length h = .ok (setAll ts p h) := by
  induction ts generalizing h pre with
  | nil => rfl
  | cons t ts ih =>
    obtain ⟨hw, A, hA, hAs⟩ := hs t (by simp)
    have hlen : (p t).data.length = A.shape.prod := by rw [← hAs]; exact hw
    rw [tensorizeLoop]
    have e1 : h.shapeFor none t = .ok A.shape := by simp [shapeFor, hA]
    rw [e1]
    simp only [ok_bind]
    have e2 : ((pre ++ (t :: ts).flatMap fun t => (p t).data).drop pre.length).take (pre.length + A.shape.prod - pre.length) = (p t).data := by
      rw [Nat.add_sub_cancel_left, ← hlen]
      simp
    rw [e2]
    have e3 : (⟨[(p t).data.length], (p t).data⟩ : Nd R).reshape A.shape = .ok (p t) := by
      unfold Nd.reshape
      rw [if_pos (by simp [hlen])]
      cases hp : p t
      rw [hp] at hAs
      simp at hAs ⊢
      exact hAs.symm
    rw [e3]
    simp only [ok_bind]
    have := ih (h.setArray t (some (p t))) (fun u hu => by
      obtain ⟨h1, B, h2, h3⟩ := hs u (by simp [hu])
      refine ⟨h1, ?_⟩
      rw [Heap.array_setArray]
      split
      · rename_i q; rw [q]; exact ⟨_, rfl, rfl⟩
      · exact ⟨B, h2, h3⟩) (pre ++ (p t).data)
    simp only [List.length_append, hlen] at this
    simpa [setAll, setArrayOrAux] using this

theorem visitor_tensors {h : Heap R} {r : ℕ} {F : Forest} (ht : h.IsTTN r F) (hax : (h.node r).axis = none) {fuel : ℕ} (hf : F.ids.length < fuel) :
    h.visitor fuel r (h.node r).axis false = .ok (h.tensors r F) := by
  rw [hax, visitor_tree ht.tree false (lt_of_le_of_lt F.depth_le hf)]
  unfold Heap.tensors
  simp [ht.leaf]

theorem tensorize_parts {h : Heap R} {r : ℕ} {F : Forest} (ht : h.IsTTN r F) (hax : (h.node r).axis = none) {fuel : ℕ} (hf : F.ids.length < fuel)
    {p : ℕ → Nd R} (hp : ∀ t ∈ h.tensors r F, (p t).Wf ∧ ∃ A, h.array t = some A ∧ (p t).shape = A.shape) :
    h.tensorize fuel r ((h.tensors r F).flatMap fun t => (p t).data) = .ok (setAll (h.tensors r F) p h) := by
  unfold tensorize
  rw [visitor_tensors ht hax hf, ok_bind]
  simpa using tensorizeLoop_parts p (h.tensors r F) h hp []

theorem vectorize_parts {h : Heap R} {r : ℕ} {F : Forest} (ht : h.IsTTN r F) (hax : (h.node r).axis = none) {fuel : ℕ} (hf : F.ids.length < fuel)
    {useAux : Bool} {p : ℕ → Nd R} (hp : ∀ t ∈ h.tensors r F, h.arrayOrAux useAux t = some (p t)) :
    ∃ d, h.vectorize fuel r useAux = .ok ((h.tensors r F).flatMap fun t => (p t).data, d) := by
  unfold vectorize
  rw [visitor_tensors ht hax hf, ok_bind]
  have hm : (h.tensors r F).mapM (fun t => h.dataOf useAux t) = .ok ((h.tensors r F).map fun t => (p t).data) := by
    generalize h.tensors r F = ts at hp
    induction ts with
    | nil => rfl
    | cons t ts ih =>
      have e1 : h.dataOf useAux t = .ok (p t).data := by unfold dataOf; rw [hp t (by simp)]
      rw [List.mapM_cons, e1, ok_bind, ih fun u hu => hp u (by simp [hu])]
      rfl
  rw [hm, ok_bind]
  have hne : ((h.tensors r F).map fun t => (p t).data).isEmpty = false := by
    have : r ∈ h.tensors r F := mem_tensors.2 ⟨.inl rfl, ht.leaf⟩
    cases hc : h.tensors r F with
    | nil => rw [hc] at this; cases this
    | cons => rfl
  rw [hne]
  simp only [Bool.false_eq_true, if_false, List.flatMap_def]
  exact ⟨_, rfl⟩

/-- A vector of the right length is made of parts. -/
theorem exists_parts {h : Heap R} {r : ℕ} {F : Forest} (ht : h.IsTTN r F) {y : List R} (hy : y.length = size h r F) : ∃ p, Parts h r F y p := by
  have hnd : (h.tensors r F).Nodup := ht.tree.nodup.filter _
  have harr : ∀ t ∈ h.tensors r F, ∃ A, h.array t = some A := fun t hm => (ht.full t hm).imp fun A hA => hA.array
  unfold size at hy
  suffices H : ∃ p : ℕ → Nd R, y = (h.tensors r F).flatMap (fun t => (p t).data) ∧ ∀ t ∈ h.tensors r F, (p t).Wf ∧ ∀ A, h.array t = some A → (p t).shape = A.shape by
    obtain ⟨p, p1, p2⟩ := H
    exact ⟨p, p1, fun t hm => (p2 t hm).1, fun t hm => (p2 t hm).2⟩
  generalize h.tensors r F = ts at hnd harr hy
  induction ts generalizing y with
  | nil =>
    simp only [List.map_nil, List.sum_nil, List.length_eq_zero_iff] at hy
    exact ⟨fun _ => ⟨[], []⟩, by simp [hy], fun t hm => by cases hm⟩
  | cons t ts ih =>
    obtain ⟨n1, n2⟩ := List.nodup_cons.1 hnd
    obtain ⟨A, hA⟩ := harr t (by simp)
    rw [List.map_cons, List.sum_cons, hA] at hy
    simp only at hy
    obtain ⟨p, p1, p2⟩ := ih (y := y.drop A.shape.prod) n2 (fun u hu => harr u (by simp [hu])) (by rw [List.length_drop, hy]; omega)
    refine ⟨fun u => if u = t then ⟨A.shape, y.take A.shape.prod⟩ else p u, ?_, fun u hu => ?_⟩
    · rw [List.flatMap_cons]
      beta_reduce
      rw [if_pos rfl]
      conv_lhs => rw [← List.take_append_drop A.shape.prod y]
      congr 1
      rw [p1]
      refine List.flatMap_congr fun u hu => ?_
      rw [if_neg fun (q : u = t) => n1 (q ▸ hu)]
    · by_cases q : u = t
      · subst q
        simp only [if_true]
        refine ⟨?_, fun B hB => ?_⟩
        · show (y.take A.shape.prod).length = A.shape.prod
          rw [List.length_take]
          omega
        · rw [hA] at hB; cases hB; rfl
      · simp only [q, if_false]
        exact p2 u (by simpa [q] using hu)

theorem Parts.length {h : Heap R} {r : ℕ} {F : Forest} (ht : h.IsTTN r F) {y : List R} {p : ℕ → Nd R} (hp : Parts h r F y p) :
    y.length = size h r F := by
  rw [hp.flat, List.length_flatMap]
  unfold size
  congr 1
  refine List.map_congr_left fun t hm => ?_
  obtain ⟨A, hA⟩ := ht.full t hm
  rw [hA.array]
  simp only
  rw [← hp.shape t hm A hA.array]
  exact hp.wf t hm

end vector

variable {K T R Z : Type} [Zero T] [Field R] [StarRing R]

theorem SameShape.rfl' (s : Obj T R) : SameShape s s :=
  ⟨rfl, rfl, rfl, rfl, fun _ => rfl, fun _ => rfl, fun _ => rfl, fun _ => rfl, fun _ => rfl, fun _ _ => rfl⟩

theorem SameShape.trans {s s' s'' : Obj T R} (a : SameShape s s') (b : SameShape s' s'') : SameShape s s'' :=
  ⟨b.root.trans a.root, b.hList.trans a.hList, b.fList.trans a.fList, b.next.trans a.next, fun t => (b.access t).trans (a.access t),
    fun t => (b.leaf t).trans (a.leaf t), fun t => (b.axis t).trans (a.axis t), fun t => (b.mark t).trans (a.mark t),
    fun t => (b.name t).trans (a.name t), fun t hl => (b.shape t (by rw [a.leaf]; exact hl)).trans (a.shape t hl)⟩

theorem SameNet.rfl' (s : Obj T R) : SameNet s s := ⟨.rfl' s, fun _ _ => rfl⟩

theorem SameNet.trans {s s' s'' : Obj T R} (a : SameNet s s') (b : SameNet s' s'') : SameNet s s'' :=
  ⟨a.toSameShape.trans b.toSameShape, fun t hl => (b.array t (by rw [a.leaf]; exact hl)).trans (a.array t hl)⟩

theorem SameNet.kin {s s' : Obj T R} (a : SameNet s s') : Kin s s' :=
  ⟨a.toSameShape, fun c A hl hA hw => ⟨A, by rw [a.array c hl]; exact hA, hw, rfl⟩⟩

theorem Kin.trans {s s' s'' : Obj T R} (a : Kin s s') (b : Kin s' s'') : Kin s s'' :=
  ⟨a.toSameShape.trans b.toSameShape, fun c A hl hA hw => by
    obtain ⟨B, b1, b2, b3⟩ := a.wf c A hl hA hw
    obtain ⟨C, c1, c2, c3⟩ := b.wf c B (by rw [a.leaf]; exact hl) b1 b2
    exact ⟨C, c1, c2, c3.trans b3⟩⟩

theorem Kin.ttn {s s' : Obj T R} (k : Kin s s') {F : Forest} (ht : s.heap.IsTTN s.root F) : s'.heap.IsTTN s'.root F := by
  rw [k.root]
  exact ht.congr' k.access k.next k.leaf k.name k.wf

theorem SameShape.tensors {s s' : Obj T R} (k : SameShape s s') (F : Forest) : s'.heap.tensors s'.root F = s.heap.tensors s.root F := by
  unfold Heap.tensors; simp only [k.root, k.leaf]

theorem SameShape.bonds {s s' : Obj T R} (k : SameShape s s') (F : Forest) : s'.heap.bonds s'.root F = s.heap.bonds s.root F := by
  unfold Heap.bonds; simp only [k.root, k.leaf]

theorem SameShape.acc {s s' : Obj T R} (k : SameShape s s') (t i : ℕ) : s'.heap.acc t i = s.heap.acc t i := by
  simp only [Heap.acc_def, k.access]

theorem SameShape.terms {s s' : Obj T R} (k : SameShape s s') : s'.allTerms none = s.allTerms none := by
  unfold Obj.allTerms; rw [k.fList, k.hList]

theorem SameShape.hdim {s s' : Obj T R} (k : SameShape s s') {t : ℕ} (hl : s.heap.isLeaf t = false) (i : ℕ) :
    s'.heap.hdim (t, i) = s.heap.hdim (t, i) := by
  have := k.shape t hl
  unfold Heap.hdim
  simp only
  cases h1 : s.heap.array t <;> cases h2 : s'.heap.array t <;> rw [h1, h2] at this <;> simp at this ⊢
  rw [this]

theorem SameShape.rooted {s s' : Obj T R} (k : SameShape s s') {F : Forest} (hr : s.heap.Rooted s.root F) : s'.heap.Rooted s'.root F := by
  refine ⟨by rw [k.root, k.axis]; exact hr.1, fun x hx => ?_⟩
  rw [k.bonds] at hx
  rw [k.axis]
  exact hr.2 x hx

theorem SameShape.leafList {s s' : Obj T R} (k : SameShape s s') {F : Forest} (ht : s.heap.IsTTN s.root F) :
    s'.heap.leafList s'.root F = s.heap.leafList s.root F := by
  unfold Heap.leafList
  rw [k.root]
  have e1 : (F.edges s.root).filter (fun e => s'.heap.isLeaf e.2.2.1) = (F.edges s.root).filter fun e => s.heap.isLeaf e.2.2.1 := by
    simp only [k.leaf]
  rw [e1]
  refine List.map_congr_left fun e he => ?_
  rw [k.hdim (mem_tensors.1 (edges_src_mem ht (List.mem_filter.1 he).1)).2]

theorem SameShape.size {s s' : Obj T R} (k : SameShape s s') (F : Forest) : size s'.heap s'.root F = size s.heap s.root F := by
  unfold DirectSolve.size
  rw [k.tensors]
  congr 1
  refine List.map_congr_left fun t hm => ?_
  have := k.shape t (mem_tensors.1 hm).2
  cases h1 : s.heap.array t <;> cases h2 : s'.heap.array t <;> rw [h1, h2] at this <;> simp at this ⊢
  rw [this]

theorem SameShape.parts {s s' : Obj T R} (k : SameShape s s') {F : Forest} {y : List R} {p : ℕ → Nd R} (hp : Parts s.heap s.root F y p) :
    Parts s'.heap s'.root F y p := by
  refine ⟨by rw [k.tensors]; exact hp.flat, by rw [k.tensors]; exact hp.wf, ?_⟩
  rw [k.tensors]
  intro t hm A hA
  have := k.shape t (mem_tensors.1 hm).2
  rw [hA] at this
  cases h1 : s.heap.array t with
  | none => rw [h1] at this; simp at this
  | some B =>
    rw [h1] at this
    simp at this
    rw [this]
    exact hp.shape t hm B h1

theorem SameNet.markOk {s s' : Obj T R} (k : SameNet s s') {t : ℕ} (h : s.heap.MarkOk t) : s'.heap.MarkOk t := by
  intro A h1 h2 h3
  rw [k.mark] at h1
  rw [k.leaf] at h2
  rw [k.array t h2] at h3
  have := h A h1 h2 h3
  rw [k.axis]
  cases h4 : (s.heap.node t).axis with
  | none => rw [h4] at this; exact this
  | some i =>
    rw [h4] at this
    obtain ⟨B, b1, b2⟩ := this
    exact ⟨B, by rw [k.array t h2]; exact b1, b2⟩

theorem twin_net {s s' : Obj T R} (e : Twin s' s) : SameNet s s' where
  root := e.root
  hList := e.hList
  fList := e.fList
  next := e.sim.1
  access := e.sim.access
  leaf := e.sim.isLeaf
  axis := e.sim.axis
  mark := e.sim.normalized
  name := e.sim.name
  shape t hl := by rw [e.sim.array (by rw [e.sim.isLeaf]; exact hl)]
  array t hl := e.sim.array (by rw [e.sim.isLeaf]; exact hl)

/-- Mean fields of a tensor do not depend on its own array. -/
theorem field_setArray {s : Obj T R} {F : Forest} (ht : s.heap.IsTTN s.root F) {t : ℕ} (hm : t ∈ s.heap.tensors s.root F) {A B : Nd R}
    (hA : s.heap.array t = some A) (hB : B.Wf) (hBs : B.shape = A.shape) {term : Term T R} {i : ℕ} {v : Option (Nd R)}
    (hv : FieldIs (s.withTerm term) t i v) : FieldIs (({ s with heap := s.heap.setArray t (some B) } : Obj T R).withTerm term) t i v := by
  obtain ⟨F', f1, -⟩ := ht.reroot hm
  obtain ⟨E, ⟨c, j, q1, -⟩, -⟩ := id hv
  rw [withTerm_acc] at q1
  refine SplitProp.field_change (s := s) (s' := { s with heap := s.heap.setArray t (some B) }) f1 ?_ (fun _ => rfl) (f1.edge_of_acc q1) hv
  refine ⟨fun c => ?_, rfl, fun c => ?_, fun c hc => ?_, fun A' hA' => ?_⟩
  · unfold Heap.access; rw [node_setArray]; split <;> rename_i q <;> [rw [q]; rfl]
  · rw [node_setArray]; split <;> rename_i q <;> [rw [q]; skip] <;> exact ⟨rfl, rfl, rfl, rfl⟩
  · rw [Heap.array_setArray, if_neg hc]
  · rw [hA] at hA'; cases hA'
    exact ⟨B, by rw [Heap.array_setArray, if_pos rfl], hB, hBs⟩

end DirectSolve
