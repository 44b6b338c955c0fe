import Verif.Lemmas.Eom2
import Verif.Spec.Eom

/-!
The gradient at any tensor of the network, by taking it as the root.
-/

open scoped BigOperators
open Py

namespace TreeSum

variable {R : Type} [CommRing R]

open Heap (sumLeaves)

theorem sumLeaves_perm {L L' : List (ℕ × ℕ)} (hp : L.Perm L') (hL : (L.map Prod.fst).Nodup) (g : (ℕ → ℕ) → R) (x : ℕ → ℕ) :
    sumLeaves L g x = sumLeaves L' g x := by
  induction hp generalizing x with
  | nil => rfl
  | cons p _ ih =>
    simp only [List.map_cons, List.nodup_cons] at hL
    simp only [sumLeaves]
    exact Finset.sum_congr rfl fun v _ => ih hL.2 _
  | swap p q L =>
    simp only [List.map_cons, List.nodup_cons, List.mem_cons, not_or] at hL
    simp only [sumLeaves]
    rw [Finset.sum_comm]
    refine Finset.sum_congr rfl fun v _ => Finset.sum_congr rfl fun w _ => ?_
    congr 1
    funext l
    unfold Nd.upd
    have := hL.1.1
    split <;> split <;> simp_all
  | trans h1 _ ih1 ih2 => rw [ih1 hL, ih2 ((h1.map _).nodup_iff.1 hL)]

end TreeSum

namespace Heap

open TreeSum

variable {R : Type} [CommRing R]

theorem leafEdges_sub {h : Heap R} {r t : ℕ} {F F' : Forest} (ht : h.IsTTN r F) (ht' : h.IsTTN t F')
    (hp : (t :: F'.ids).Perm (r :: F.ids)) {e : ℕ × ℕ × ℕ × ℕ} (he : e ∈ F'.edges t) (hl : h.isLeaf e.2.2.1 = true) :
    e ∈ F.edges r := by
  have hq := (edges_props ht.links.wf ht.links.sym ht'.tree ht'.leaf).1 e he
  have hsl := Forest.edges_src_leaf ht'.leaf ht'.tree.leafEnd (k := e.2.1) (y := e.2.2.1) (l := e.2.2.2) he
  have hme : e.1 = r ∨ e.1 ∈ F.ids := by
    have := hp.mem_iff (a := e.1)
    simp only [List.mem_cons] at this
    exact this.1 (edges_mem he).1
  obtain ⟨-, -, p3, -⟩ := edges_props ht.links.wf ht.links.sym ht.tree ht.leaf
  rcases p3 e.1 e.2.1 e.2.2.1 e.2.2.2 ((ht.mem_linked e.1).1 hme) hq with q | q
  · exact q
  · exfalso
    have := Forest.edges_src_leaf ht.leaf ht.tree.leafEnd (k := e.2.2.2) (y := e.1) (l := e.2.1) q
    rw [hl] at this
    cases this

theorem leafList_perm [StarRing R] {h : Heap R} {r t : ℕ} {F F' : Forest} (ht : h.IsTTN r F) (ht' : h.IsTTN t F')
    (hp : (t :: F'.ids).Perm (r :: F.ids)) : (h.leafList t F').Perm (h.leafList r F) := by
  unfold leafList
  refine List.Perm.map _ ?_
  have n1 : ((F'.edges t).filter fun e => h.isLeaf e.2.2.1).Nodup := by
    have := leafList_nodup ht'
    unfold leafList at this
    rw [List.map_map] at this
    exact this.of_map
  have n2 : ((F.edges r).filter fun e => h.isLeaf e.2.2.1).Nodup := by
    have := leafList_nodup ht
    unfold leafList at this
    rw [List.map_map] at this
    exact this.of_map
  rw [List.perm_ext_iff_of_nodup n1 n2]
  intro e
  simp only [List.mem_filter]
  exact ⟨fun q => ⟨leafEdges_sub ht ht' hp q.1 q.2, q.2⟩, fun q => ⟨leafEdges_sub ht' ht hp.symm q.1 q.2, q.2⟩⟩

theorem treeAmp_reroot {h : Heap R} {r t : ℕ} {F F' : Forest} (ht : h.IsTTN r F) (ht' : h.IsTTN t F')
    (hp : (t :: F'.ids).Perm (r :: F.ids)) (x : ℕ → ℕ) : h.treeAmp t F' x = h.treeAmp r F x :=
  ht.isNet.amp_listing ht'.isNet (hp.filter _) x

theorem IsTTN.setArray {h : Heap R} {r : ℕ} {F : Forest} (ht : h.IsTTN r F) {t : ℕ} {A B : Nd R} (hA : h.array t = some A)
    (hB : B.Wf) (hBs : B.shape = A.shape) : (h.setArray t (some B)).IsTTN r F := by
  refine ht.congr' ?_ rfl ?_ ?_ ?_
  · intro c; unfold Heap.access; rw [node_setArray]; split <;> rfl
  · intro c; unfold Heap.isLeaf; rw [node_setArray]; split <;> rfl
  · intro c; rw [node_setArray]; split <;> rfl
  · intro c C hl hc hw
    unfold Heap.array
    rw [node_setArray]
    split
    · rename_i q; subst q
      rw [hA] at hc
      cases hc
      exact ⟨B, rfl, hB, hBs⟩
    · exact ⟨C, hc, hw, rfl⟩

variable [StarRing R]

/-- The array of any tensor with all its mean fields applied is the gradient of the matrix element with respect to the conjugate
array. -/
theorem effective_any {h : Heap R} {r : ℕ} {F : Forest} (ht : h.IsTTN r F) {t : ℕ} (hm : t ∈ h.tensors r F) {A : Nd R}
    (hA : h.Full t A) {E : ℕ → ℕ → ℕ → R} (hE : ∀ i < A.ndim, IsField h t i (E i)) {B : Nd R} (hB : B.Wf)
    (hBs : B.shape = A.shape) :
    sumIdx A.shape (fun w => (sumIdx A.shape fun v =>
        A.get v * ((List.range A.ndim).map fun k => E k (v.getD k 0) (w.getD k 0)).prod) * star (B.get w)) =
      sumLeaves (h.leafList r F) (fun x => sumLeaves (h.leafList r F) (fun y => h.treeAmp r F x *
        (((h.leafList r F).map Prod.fst).map fun l => opEntry (h.array l) (x l) (y l)).prod *
          star ((h.setArray t (some B)).treeAmp r F y)) (fun _ => 0)) (fun _ => 0) := by
  obtain ⟨F', f1, f2⟩ := ht.reroot hm
  have hp := leafList_perm ht f1 f2
  have hnd := leafList_nodup f1
  have := effective f1 hA hE hB hBs
  rw [this, sumLeaves_perm hp hnd]
  refine sumLeaves_congr fun x => ?_
  rw [sumLeaves_perm hp hnd]
  refine sumLeaves_congr fun y => ?_
  rw [treeAmp_reroot ht f1 f2, treeAmp_reroot (ht.setArray hA.array hB hBs) (f1.setArray hA.array hB hBs) f2,
    ((hp.map Prod.fst).map _).prod_eq]

/-! Changes of `aux`. -/

omit [CommRing R] [StarRing R] in
theorem Sim.array {h k : Heap R} (e : Sim noAux h k) (t : ℕ) : h.array t = k.array t := by
  have := congrArg Node.array (e.2 t); exact this

theorem trueEnv_noAux {h k : Heap R} (e : Sim noAux h k) (G : Forest) (t j : ℕ) : h.trueEnv false G t j = k.trueEnv false G t j := by
  funext v w
  unfold trueEnv
  have e1 : h.isLeaf = k.isLeaf := funext fun t => e.aux.isLeaf t
  have e2 : h.array = k.array := funext fun t => e.array t
  have e3 : h.hdim = k.hdim := funext fun p => by unfold hdim; rw [e2]
  have e4 : h.entry = k.entry := funext fun σ => funext fun t => by unfold entry; rw [e2]
  have e5 : (h.braNet false).array = (k.braNet false).array := funext fun t => by
    show (if h.isLeaf t = true then h.array t else if false = true then (h.node t).aux else (h.array t).map Nd.conj) =
      (if k.isLeaf t = true then k.array t else if false = true then (k.node t).aux else (k.array t).map Nd.conj)
    rw [e1, e2]; rfl
  have e6 : (h.braNet false).hdim = (k.braNet false).hdim := funext fun p => by unfold hdim; rw [e5]
  have e7 : (h.braNet false).entry = (k.braNet false).entry := funext fun σ => funext fun t => by unfold entry; rw [e5]
  rw [e1, e2, e3, e4, e6, e7]
  rfl

theorem braHdim_noAux {h k : Heap R} (e : Sim noAux h k) (p : ℕ × ℕ) : (h.braNet false).hdim p = (k.braNet false).hdim p := by
  have e5 : (h.braNet false).array p.1 = (k.braNet false).array p.1 := by
    show (if h.isLeaf p.1 = true then h.array p.1 else if false = true then (h.node p.1).aux else (h.array p.1).map Nd.conj) =
      (if k.isLeaf p.1 = true then k.array p.1 else if false = true then (k.node p.1).aux else (k.array p.1).map Nd.conj)
    rw [e.aux.isLeaf, e.array]; rfl
  unfold hdim; rw [e5]

theorem MarkOk.congr {h k : Heap R} (e : Sim2 h k) {t : ℕ} (hm : h.MarkOk t) : k.MarkOk t := by
  intro A h1 h2 h3
  have hl : h.isLeaf t = false := by rw [e.isLeaf]; exact h2
  have := hm A (by rw [e.normalized]; exact h1) hl (by rw [e.array hl]; exact h3)
  rw [e.axis] at this
  cases hx : (k.node t).axis with
  | none => rw [hx] at this; exact this
  | some j =>
    rw [hx] at this
    obtain ⟨A', a1, a2, a3⟩ := this
    exact ⟨A', by rw [← e.array hl]; exact a1, a2, a3⟩

/-- Soundness of caches and marks does not depend on `aux`. -/
theorem Sound.noAux {P : ℕ → ℕ → Prop} {h0 k0 h k : Heap R} (hw : h0.Wf) (hw' : k0.Wf) (e : Sim noAux h0 k0)
    (hp : ∀ t, (k.node t).penv = (h.node t).penv) (hl : ∀ t, k.isLeaf t = h.isLeaf t) (hs : Sound P h0 h false) :
    Sound P k0 k false := by
  intro _
  obtain ⟨s1, s2⟩ := hs rfl
  refine ⟨fun t j v q1 q2 q3 G hG => ?_, fun t j q1 q2 => ?_⟩
  · have := s1 t j v q1 (by rw [← hp]; exact q2) (by rw [← hl]; exact q3) G
      (hG.congr hw' hw (fun c i => e.aux.acc c i) fun c _ => e.aux.isLeaf c)
    rw [trueEnv_noAux e, braHdim_noAux e] at this
    have e3 : h0.hdim (t, j) = k0.hdim (t, j) := by unfold hdim; rw [e.array]
    rw [← e3]
    exact this
  · exact (s2 t j q1 (by rw [e.aux.axis]; exact q2)).congr e.aux

end Heap
