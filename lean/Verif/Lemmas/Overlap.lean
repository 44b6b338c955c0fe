import Verif.Lemmas.Field

/-!
Overlaps of two networks with the same links: with orthonormal tensors the branches contract to identities, and to zero as soon as
one tensor in a branch is orthogonal to its partner.
-/

open scoped BigOperators
open Py

namespace Heap

variable {R : Type} [CommRing R] [StarRing R]

open TreeSum

/-- `t` is orthonormal towards axis `k`, and its partner in the bra is its conjugate. -/
def CanonPair (p : Heap R) (ua : Bool) (t k : ℕ) : Prop :=
  p.Canonical t k ∧ ∀ A, p.array t = some A → (p.braNet ua).array t = some A.conj

/-- The slices of `t` along axis `k` are orthogonal to those of its partner in the bra. -/
def OrthPair (p : Heap R) (ua : Bool) (t k : ℕ) : Prop :=
  ∀ A B, p.array t = some A → (p.braNet ua).array t = some B → A.shape = B.shape ∧
    ∀ z w, z < A.shape.getD k 1 → w < A.shape.getD k 1 →
      sumIdx (A.shape.eraseIdx k) (fun q => A.get (q.insertIdx k z) * B.get (q.insertIdx k w)) = 0

/-- The environment of a tensor whose branches contract to identities. -/
theorem trueEnv_slices {p : Heap R} (hw : p.Wf) {ua : Bool} {t : ℕ} {A B : Nd R} (hA : p.Full t A) (hB : (p.braNet ua).Full t B)
    (hs : A.shape = B.shape) {j : ℕ} (hj : p.acc t j ≠ none) {G : Forest} (hG : p.children t (some j) = G.heads)
    (he : EnvsOk p ua t G (G.heads.map fun x => (x.1, none))) {v w : ℕ} (hv : v < A.shape.getD j 1) (hw' : w < A.shape.getD j 1) :
    p.trueEnv ua G t j v w = sumIdx (A.shape.eraseIdx j) (fun q => A.get (q.insertIdx j v) * B.get (q.insertIdx j w)) := by
  have hjA : j < A.ndim := (hA.acc j).1 hj
  have hK : (p.envList ua G).map Prod.fst = (List.range A.ndim).eraseIdx j := by
    rw [envList_fst, ← hG, hA.keys_some hw hjA]
  obtain ⟨T, C, c1, c2, q1, q2, q3⟩ := trace_some hA.wf (hA.ndim_eq hB) hA.pos hB.pos (he.shape hA hB) hjA hK
  rw [fold_none (by simp [List.all_map, Function.comp_def])] at c1
  cases c1
  have p0 : A.shape.getD j 1 ≠ 0 := by rw [← hA.hdim_eq]; exact (hA.hdim_pos j).ne'
  obtain ⟨C', d1, d2, d3, d4⟩ := Tensor.partialTrace_spec A B hjA (by rw [← hA.ndim_eq hB]; exact hjA) (by rw [hs]) p0
      (by rw [← hB.hdim_eq]; exact (hB.hdim_pos j).ne')
  rw [c2] at d1
  cases d1
  rw [trueEnv_eq hA hB]
  exact (q3 v hv w (by rw [← hs]; exact hw')).symm.trans (d4 v w hv (by rw [← hs]; exact hw'))

theorem forest_mem_edges {F : Forest} {a u : ℕ} (hu : u ∈ F.ids) : ∃ e ∈ F.edges a, e.2.2.1 = u := by
  induction F generalizing a with
  | nil => cases hu
  | cons i j id sub rest ih1 ih2 =>
    simp only [Forest.ids, List.cons_append, List.mem_cons, List.mem_append] at hu
    rcases hu with rfl | hu | hu
    · exact ⟨_, by simp [Forest.edges]; exact .inl rfl, rfl⟩
    · obtain ⟨e, h1, h2⟩ := ih1 (a := id) hu
      exact ⟨e, by simp [Forest.edges, h1], h2⟩
    · obtain ⟨e, h1, h2⟩ := ih2 (a := a) hu
      exact ⟨e, by simp [Forest.edges, h1], h2⟩

/-- Branches of orthonormal tensors contract to identities. -/
theorem envs_none {p : Heap R} (hw : p.Wf) {ua : Bool} {F : Forest} {a : ℕ} (hr : F.RepIn p) (hf : Fits p ua F a)
    (hl : ∀ e ∈ F.edges a, p.isLeaf e.2.2.1 = true → (if ua then (p.node e.2.2.1).aux else p.array e.2.2.1) = none)
    (hc : ∀ e ∈ F.edges a, p.isLeaf e.2.2.1 = false → p.CanonPair ua e.2.2.1 e.2.2.2) :
    EnvsOk p ua a F (F.heads.map fun x => (x.1, none)) := by
  induction F generalizing a with
  | nil => exact List.Forall₂.nil
  | cons i j id sub rest ih1 ih2 =>
    obtain ⟨r1, r2, r3⟩ := hr
    obtain ⟨⟨f1, f2, f3⟩, f4, f5⟩ := hf
    refine List.Forall₂.cons ⟨rfl, ?_⟩ (ih2 r3 f5 (fun e he => hl e (by simp [Forest.edges, he])) fun e he => hc e (by simp [Forest.edges, he]))
    cases hlf : p.isLeaf id with
    | true =>
      have h1 := f1 hlf
      have h2 := hl (a, i, id, j) (by simp [Forest.edges]) hlf
      simp only at h2
      rw [h2] at h1
      refine ⟨h1, fun v _ w _ => ?_⟩
      show p.trueEnv ua sub id j v w = _
      unfold trueEnv envMat
      rw [if_pos hlf]
      show opEntry _ v w = _
      rw [h2]
      rfl
    | false =>
      obtain ⟨⟨A, hA⟩, ⟨B, hB⟩, h3, h4⟩ := f2 hlf
      obtain ⟨⟨A', a1, a2, a3⟩, hBA⟩ := hc (a, i, id, j) (by simp [Forest.edges]) hlf
      simp only at a1 a2 a3 hBA
      obtain rfl : A' = A := Option.some.inj (a1.symm.trans hA.array)
      have : B = A'.conj := Option.some.inj (hB.array.symm.trans (hBA _ a1))
      have hs : A'.shape = B.shape := by rw [this]; rfl
      have ih := ih1 r2 f4 (fun e he => hl e (by simp [Forest.edges, he])) fun e he => hc e (by simp [Forest.edges, he])
      refine ⟨by rw [h3, h4, hA.hdim_eq, hB.hdim_eq, hs], fun v hv w hw' => ?_⟩
      rw [h3, hA.hdim_eq] at hv
      rw [h4, hB.hdim_eq, ← hs] at hw'
      show p.trueEnv ua sub id j v w = _
      rw [trueEnv_slices hw hA hB hs f3 r1 ih hv hw', ← a3 v w hv hw', this]
      refine sumIdx_congr fun q _ => ?_
      rw [conj_get]

/-- If some tensors in the branches are orthogonal to their partners and the others are orthonormal, the contraction is zero. -/
theorem envs_zero {p : Heap R} (hw : p.Wf) {ua : Bool} (S : ℕ → Prop) {F : Forest} {a : ℕ} (hr : F.RepIn p) (hf : Fits p ua F a)
    (hle : F.LeafEnd p)
    (hl : ∀ e ∈ F.edges a, p.isLeaf e.2.2.1 = true → (if ua then (p.node e.2.2.1).aux else p.array e.2.2.1) = none)
    (hc : ∀ e ∈ F.edges a, p.isLeaf e.2.2.1 = false → ¬ S e.2.2.1 → p.CanonPair ua e.2.2.1 e.2.2.2)
    (ho : ∀ e ∈ F.edges a, p.isLeaf e.2.2.1 = false → S e.2.2.1 → p.OrthPair ua e.2.2.1 e.2.2.2)
    (hS : ∃ u ∈ F.ids, p.isLeaf u = false ∧ S u) {σ τ : Assign} (hσ : InR p.hdim a F σ) (hτ : InR (p.braNet ua).hdim a F τ) :
    p.trueEnvs ua F a σ τ = 0 := by
  induction F generalizing a σ τ with
  | nil => obtain ⟨u, h1, -⟩ := hS; cases h1
  | cons i j id sub rest ih1 ih2 =>
    obtain ⟨r1, r2, r3⟩ := hr
    obtain ⟨⟨f1, f2, f3⟩, f4, f5⟩ := hf
    obtain ⟨l1, l2, l3⟩ := hle
    have hun : p.trueEnvs ua (.cons i j id sub rest) a σ τ =
        p.trueEnv ua sub id j (σ (a, i)) (τ (a, i)) * p.trueEnvs ua rest a σ τ := rfl
    rw [hun]
    by_cases q1 : ∃ u ∈ rest.ids, p.isLeaf u = false ∧ S u
    · rw [ih2 r3 f5 l3 (fun e he => hl e (by simp [Forest.edges, he])) (fun e he => hc e (by simp [Forest.edges, he]))
        (fun e he => ho e (by simp [Forest.edges, he])) q1 (fun x hx => hσ x (by simp [hx])) (fun x hx => hτ x (by simp [hx])),
        mul_zero]
    · have hlf : p.isLeaf id = false := by
        by_contra hlf
        have hlf : p.isLeaf id = true := by simpa using hlf
        obtain ⟨u, u1, u2, u3⟩ := hS
        simp only [Forest.ids, List.cons_append, List.mem_cons, List.mem_append] at u1
        rcases u1 with rfl | u1 | u1
        · rw [hlf] at u2; cases u2
        · rw [l1 hlf] at u1; cases u1
        · exact q1 ⟨u, u1, u2, u3⟩
      suffices p.trueEnv ua sub id j (σ (a, i)) (τ (a, i)) = 0 by rw [this, zero_mul]
      by_cases q2 : ∃ u ∈ sub.ids, p.isLeaf u = false ∧ S u
      · unfold trueEnv envMat
        rw [hlf]
        simp only [Bool.false_eq_true, if_false]
        have z : ∀ (d : ℕ × ℕ → ℕ) (L : List (ℕ × ℕ)) (s : Assign), sumOver d L (fun _ => (0 : R)) s = 0 := by
          intro d L
          induction L with
          | nil => intro s; rfl
          | cons x L ih => intro s; simp [sumOver, ih]
        rw [← z p.hdim (halfs id sub) (Nd.upd (fun _ => 0) (id, j) (σ (a, i)))]
        refine sumOver_congr fun σ' _ hσ' => ?_
        rw [← z (p.braNet ua).hdim (halfs id sub) (Nd.upd (fun _ => 0) (id, j) (τ (a, i)))]
        refine sumOver_congr fun τ' _ hτ' => ?_
        have := ih1 (a := id) r2 f4 l2 (fun e he => hl e (by simp [Forest.edges, he])) (fun e he => hc e (by simp [Forest.edges, he]))
          (fun e he => ho e (by simp [Forest.edges, he])) q2 hσ' hτ'
        unfold trueEnvs at this
        rw [this, mul_zero, zero_mul]
      · have hSid : S id := by
          obtain ⟨u, u1, u2, u3⟩ := hS
          simp only [Forest.ids, List.cons_append, List.mem_cons, List.mem_append] at u1
          rcases u1 with rfl | u1 | u1
          · exact u3
          · exact absurd ⟨u, u1, u2, u3⟩ q2
          · exact absurd ⟨u, u1, u2, u3⟩ q1
        obtain ⟨⟨A, hA⟩, ⟨B, hB⟩, h3, h4⟩ := f2 hlf
        obtain ⟨hs, ho'⟩ := ho (a, i, id, j) (by simp [Forest.edges]) hlf hSid A B hA.array hB.array
        have ih := envs_none hw (a := id) r2 f4 (fun e he => hl e (by simp [Forest.edges, he])) fun e he hle' =>
          hc e (by simp [Forest.edges, he]) hle' fun q => q2 ⟨e.2.2.1, (edges_mem he).2, hle', q⟩
        have hv := hσ (a, i) (by simp)
        have hw' := hτ (a, i) (by simp)
        rw [h3, hA.hdim_eq] at hv
        rw [h4, hB.hdim_eq, ← hs] at hw'
        rw [trueEnv_slices hw hA hB hs f3 r1 ih hv hw']
        exact ho' _ _ hv hw'

/-- Two networks with the same links and shapes. -/
structure Alike (h k : Heap R) : Prop where
  access : ∀ c, k.access c = h.access c
  next : k.next = h.next
  leaf : ∀ c, k.isLeaf c = h.isLeaf c
  name : ∀ c, (k.node c).name = (h.node c).name
  arr : ∀ c A, h.isLeaf c = false → h.array c = some A → A.Wf → ∃ B, k.array c = some B ∧ B.Wf ∧ B.shape = A.shape

omit [CommRing R] [StarRing R] in
theorem Alike.setArray (h : Heap R) {t : ℕ} {A B : Nd R} (hA : h.array t = some A) (hB : B.Wf) (hs : B.shape = A.shape) :
    Alike h (h.setArray t (some B)) := by
  refine ⟨?_, rfl, ?_, ?_, ?_⟩
  · intro c; unfold Heap.access; rw [node_setArray]; split <;> rfl
  · intro c; unfold Heap.isLeaf; rw [node_setArray]; split <;> rfl
  · intro c; rw [node_setArray]; split <;> rfl
  · intro c C hl hc hw
    unfold Heap.array
    rw [node_setArray]
    split
    · rename_i q; subst q
      rw [hA] at hc
      cases hc
      exact ⟨B, rfl, hB, hs⟩
    · exact ⟨C, hc, hw, rfl⟩

theorem Alike.ttn {h k : Heap R} (e : Alike h k) {r : ℕ} {F : Forest} (ht : h.IsTTN r F) : k.IsTTN r F :=
  ht.congr' e.access e.next e.leaf e.name e.arr

/-- The heap with the arrays of `k` and the conjugates of the arrays of `b` in `aux`. -/
def pair (k b : Heap R) : Heap R :=
  { k with
    node := fun t =>
      { k.node t with
        aux := (if (k.node t).isLeaf then none else (b.array t).map Nd.conj) } }

theorem pair_array {k b : Heap R} {t : ℕ} (hl : k.isLeaf t = false) : ((pair k b).braNet true).array t = (b.array t).map Nd.conj := by
  have hl' : (k.node t).isLeaf = false := hl
  show (if (k.node t).isLeaf then (k.node t).array else if true then (if (k.node t).isLeaf then none else (b.array t).map Nd.conj) else _) = _
  rw [hl']
  rfl

theorem conj_wf {A : Nd R} (h : A.Wf) : A.conj.Wf := by unfold Nd.conj; unfold Nd.Wf at h ⊢; simpa using h

theorem pair_ttn {k b : Heap R} (e : Alike k b) {r : ℕ} {F : Forest} (ht : k.IsTTN r F) :
    (pair k b).IsTTN r F ∧ ((pair k b).braNet true).IsTTN r F := by
  constructor
  · exact ht.congr' (fun _ => rfl) rfl (fun _ => rfl) (fun _ => rfl) fun c A _ hc hw => ⟨A, hc, hw, rfl⟩
  · refine ht.congr' (fun _ => rfl) rfl (fun _ => rfl) (fun _ => rfl) fun c C hl hc hw => ?_
    obtain ⟨B, b1, b2, b3⟩ := e.arr c C hl hc hw
    rw [pair_array hl, b1]
    exact ⟨B.conj, rfl, conj_wf b2, b3⟩

theorem pair_hdim {k b : Heap R} (e : Alike k b) {r : ℕ} {F : Forest} (ht : k.IsTTN r F) {t : ℕ} (hm : t ∈ k.tensors r F) (i : ℕ) :
    ((pair k b).braNet true).hdim (t, i) = k.hdim (t, i) := by
  obtain ⟨A, hA⟩ := ht.full t hm
  obtain ⟨B, b1, b2, b3⟩ := e.arr t A hA.leaf hA.array hA.wf
  unfold hdim
  simp only
  rw [pair_array hA.leaf, b1, hA.array]
  show B.shape.getD i 1 = _
  rw [b3]

omit [StarRing R] in
theorem IsTTN.src_mem {h : Heap R} {r : ℕ} {F : Forest} (ht : h.IsTTN r F) {e : ℕ × ℕ × ℕ × ℕ} (he : e ∈ F.edges r) :
    e.1 ∈ h.tensors r F :=
  mem_tensors.2 ⟨(edges_mem he).1, Forest.edges_src_leaf ht.leaf ht.tree.leafEnd (k := e.2.1) (y := e.2.2.1) (l := e.2.2.2) he⟩

/-- The overlap as a contraction. -/
theorem pair_overlap {k b : Heap R} (e : Alike k b) {r : ℕ} {F : Forest} (ht : k.IsTTN r F) :
    sumLeaves (k.leafList r F) (fun x => k.treeAmp r F x * star (b.treeAmp r F x)) (fun _ => 0) =
      (pair k b).denseElement true r F := by
  obtain ⟨p1, p2⟩ := pair_ttn e ht
  have l1 : (pair k b).leafList r F = k.leafList r F := rfl
  have l2 : ((pair k b).braNet true).leafList r F = k.leafList r F := by
    unfold leafList
    refine List.map_congr_left fun x hx => ?_
    rw [pair_hdim e ht (ht.src_mem (List.mem_filter.1 hx).1)]
  unfold denseElement sumLL
  rw [l1, l2]
  refine sumLeaves_congr' (leafList_nodup ht) fun x hx1 hx2 => ?_
  have a1 : (pair k b).treeAmp r F x = k.treeAmp r F x := treeAmp_congr (h := k) (h' := pair k b) (fun _ => rfl) (fun _ _ => rfl) (fun _ => rfl) r F x
  have a2 : ∀ y, ((pair k b).braNet true).treeAmp r F y = star (b.treeAmp r F y) := by
    intro y
    rw [← braNet_amp (e.ttn ht)]
    refine treeAmp_congr_on (e.ttn ht).conj (fun t hm => ?_) (fun t i => ?_) (fun t => ?_) y
    · have hl : b.isLeaf t = false := (mem_tensors.1 hm).2
      rw [pair_array (by rw [← e.leaf]; exact hl), braNet_array hl]
      rfl
    · show k.acc t i = b.acc t i
      rw [acc_def, acc_def, e.access]
    · exact (e.leaf t).symm
  beta_reduce
  rw [a1]
  have e2 := sumLeaves_delta (leafList_nodup ht) (fun y => k.treeAmp r F x * star (b.treeAmp r F y)) x
    (fun _ => 0) hx2 (fun l hl => (hx1 l hl).symm)
  beta_reduce at e2
  rw [← e2]
  refine sumLeaves_congr fun y => ?_
  rw [a2 y]
  have a3 : leavesOf (pair k b).isLeaf F = leavesOf k.isLeaf F := rfl
  rw [a3, leafList_fst]
  have : ((leavesOf k.isLeaf F).map fun l => opEntry (if true then ((pair k b).node l).aux else (pair k b).array l) (x l) (y l)) =
      (leavesOf k.isLeaf F).map fun l => if x l = y l then 1 else 0 := by
    refine List.map_congr_left fun l hl => ?_
    have hlf : (k.node l).isLeaf = true := (List.mem_filter.1 hl).2
    simp only [if_true]
    show opEntry (if (k.node l).isLeaf then none else _) _ _ = _
    rw [hlf]
    rfl
  rw [this]
  ring

/-- The slices of `X` along axis `k` are orthogonal to those of `A`. -/
def Gauge (A : Nd R) (k : ℕ) (X : Nd R) : Prop :=
  ∀ z w, z < A.shape.getD k 1 → w < A.shape.getD k 1 →
    sumIdx (A.shape.eraseIdx k) (fun q => X.get (q.insertIdx k z) * star (A.get (q.insertIdx k w))) = 0

omit [CommRing R] in
theorem array_setArray (h : Heap R) (t : ℕ) (B : Option (Nd R)) (u : ℕ) :
    (h.setArray t B).array u = if u = t then B else h.array u := by
  unfold Heap.array
  rw [node_setArray]
  split <;> rfl

/-- Changes of two different tensors, in the gauge, are orthogonal. -/
theorem overlap_zero {h : Heap R} {r : ℕ} {F : Forest} (ht : h.IsTTN r F) (hc : h.CanonicalTree r F) {t1 t2 : ℕ} (hne : t1 ≠ t2)
    (m1 : t1 ∈ h.tensors r F) (m2 : t2 ∈ h.tensors r F) {A1 A2 X Y : Nd R} (hA1 : h.array t1 = some A1) (hA2 : h.array t2 = some A2)
    (hX : X.Wf) (hXs : X.shape = A1.shape) (hY : Y.Wf) (hYs : Y.shape = A2.shape)
    (g1 : ∀ e ∈ h.bonds r F, e.2.2.1 = t1 → Gauge A1 e.2.2.2 X) (g2 : ∀ e ∈ h.bonds r F, e.2.2.1 = t2 → Gauge A2 e.2.2.2 Y) :
    sumLeaves (h.leafList r F) (fun x => (h.setArray t1 (some X)).treeAmp r F x *
      star ((h.setArray t2 (some Y)).treeAmp r F x)) (fun _ => 0) = 0 := by
  set k := h.setArray t1 (some X) with hk
  set b := h.setArray t2 (some Y) with hb
  have ek : Alike h k := Alike.setArray h hA1 hX hXs
  have eb : Alike h b := Alike.setArray h hA2 hY hYs
  have karr : ∀ u, k.array u = if u = t1 then some X else h.array u := array_setArray h t1 _
  have barr : ∀ u, b.array u = if u = t2 then some Y else h.array u := array_setArray h t2 _
  have hkt := ek.ttn ht
  have e : Alike k b := by
    refine ⟨fun c => by rw [eb.access, ek.access], by rw [eb.next, ek.next], fun c => by rw [eb.leaf, ek.leaf],
      fun c => by rw [eb.name, ek.name], fun c C hl hC hw => ?_⟩
    rw [karr] at hC
    by_cases q : c = t1
    · rw [if_pos q] at hC
      cases hC
      rw [barr, if_neg (by rw [q]; exact hne), q]
      obtain ⟨A, hA⟩ := ht.full t1 m1
      obtain rfl : A = A1 := Option.some.inj (hA.array.symm.trans hA1)
      exact ⟨A, hA1, hA.wf, hXs.symm⟩
    · rw [if_neg q] at hC
      rw [barr]
      split
      · rename_i q2
        subst q2
        rw [hA2] at hC
        cases hC
        exact ⟨Y, rfl, hY, hYs⟩
      · exact ⟨C, hC, hw, rfl⟩
  have hll : k.leafList r F = h.leafList r F := by
    unfold leafList
    have : ∀ e, k.isLeaf e = h.isLeaf e := ek.leaf
    simp only [this]
    refine List.map_congr_left fun x hx => ?_
    obtain ⟨A, hA⟩ := ht.full _ (ht.src_mem (List.mem_filter.1 hx).1)
    obtain ⟨B, b1, b2, b3⟩ := ek.arr _ A hA.leaf hA.array hA.wf
    unfold hdim
    simp only
    rw [b1, hA.array]
    simp only [b3]
  rw [← hll, pair_overlap e hkt]
  obtain ⟨p1, p2⟩ := pair_ttn e hkt
  rw [denseElement_eq p1 p2]
  have z : ∀ (d : ℕ × ℕ → ℕ) (L : List (ℕ × ℕ)) (s : Assign), sumOver d L (fun _ => (0 : R)) s = 0 := by
    intro d L
    induction L with
    | nil => intro s; rfl
    | cons x L ih => intro s; simp [sumOver, ih]
  have hlfk : ∀ u, (pair k b).isLeaf u = h.isLeaf u := ek.leaf
  have hbd : ∀ x ∈ F.edges r, h.isLeaf x.2.2.1 = false → x ∈ h.bonds r F := fun x hx hl => mem_bonds.2 ⟨hx, hl⟩
  have hkt' : k.tensors r F = h.tensors r F := by unfold tensors; simp only [ek.leaf]
  have hzero : ∀ σ τ, InR (pair k b).hdim r F σ → InR ((pair k b).braNet true).hdim r F τ → (pair k b).trueEnvs true F r σ τ = 0 := by
    intro σ τ hσ hτ
    have hlf0 : ∀ x ∈ F.edges r, (pair k b).isLeaf x.2.2.1 = true →
        (if true then ((pair k b).node x.2.2.1).aux else (pair k b).array x.2.2.1) = none := by
      intro x hx hl
      have hl' : (k.node x.2.2.1).isLeaf = true := hl
      simp only [if_true]
      show (if (k.node x.2.2.1).isLeaf then none else _) = _
      rw [hl']
      rfl
    refine envs_zero p1.links.wf (fun u => u = t1 ∨ u = t2) p1.tree.rep (p1.fits p2 ?_) p1.tree.leafEnd hlf0 ?_ ?_ ?_ hσ hτ
    · intro x hx hl
      rw [hlf0 x hx hl]
      exact (pair_hdim e hkt (hkt.src_mem hx) _).symm
    · intro x hx hl hS
      simp only [not_or] at hS
      rw [hlfk] at hl
      obtain ⟨A, a1, a2, a3⟩ := hc x (hbd x hx hl)
      have k1 : k.array x.2.2.1 = some A := by rw [karr, if_neg hS.1, a1]
      refine ⟨⟨A, k1, a2, a3⟩, fun A' hA' => ?_⟩
      rw [pair_array (by rw [ek.leaf]; exact hl), barr, if_neg hS.2, a1]
      have : k.array x.2.2.1 = some A' := hA'
      rw [k1] at this
      cases this
      rfl
    · intro x hx hl hS A' B' hA' hB'
      rw [hlfk] at hl
      have hA'' : k.array x.2.2.1 = some A' := hA'
      rw [pair_array (by rw [ek.leaf]; exact hl), barr] at hB'
      rw [karr] at hA''
      rcases hS with q | q
      · rw [if_pos q] at hA''
        rw [if_neg (by rw [q]; exact hne), q, hA1] at hB'
        cases hA''
        obtain rfl : A1.conj = B' := Option.some.inj hB'
        refine ⟨hXs, fun z w hz hw => ?_⟩
        rw [hXs] at hz hw ⊢
        rw [← g1 x (hbd x hx hl) q z w hz hw]
        exact sumIdx_congr fun p _ => by rw [conj_get]
      · rw [if_neg (by rw [q]; exact hne.symm), q, hA2] at hA''
        rw [if_pos q] at hB'
        cases hA''
        obtain rfl : Y.conj = B' := Option.some.inj hB'
        refine ⟨hYs.symm, fun z w hz hw => ?_⟩
        have := congrArg star (g2 x (hbd x hx hl) q w z hw hz)
        rw [star_zero] at this
        rw [← this, sumIdx_eq_sum_range, sumIdx_eq_sum_range, star_sum]
        refine Finset.sum_congr rfl fun i _ => ?_
        rw [conj_get, star_mul', star_star, mul_comm]
    · by_cases q : t1 = r
      · have : t2 ∈ F.ids := by
          rcases (mem_tensors.1 m2).1 with q' | q'
          · exact absurd (q.trans q'.symm) hne
          · exact q'
        exact ⟨t2, this, by rw [hlfk]; exact (mem_tensors.1 m2).2, .inr rfl⟩
      · exact ⟨t1, (mem_tensors.1 m1).1.resolve_left q, by rw [hlfk]; exact (mem_tensors.1 m1).2, .inl rfl⟩
  rw [← z (pair k b).hdim (halfs r F) (fun _ => 0)]
  refine sumOver_congr fun σ _ hσ => ?_
  rw [← z ((pair k b).braNet true).hdim (halfs r F) (fun _ => 0)]
  refine sumOver_congr fun τ _ hτ => ?_
  rw [hzero σ τ hσ hτ, mul_zero, zero_mul]

end Heap
