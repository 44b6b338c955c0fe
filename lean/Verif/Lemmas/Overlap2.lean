import Verif.Lemmas.Overlap

/-!
The overlap of two states that differ in one tensor only: the density of that tensor.
-/

open scoped BigOperators
open Py

namespace Heap

variable {R : Type} [CommRing R]

open TreeSum

variable [StarRing R]

/-- Away from the root the mean fields of the identity are identities, if the tensors there are orthonormal. -/
theorem field_delta {h : Heap R} {r : ℕ} {F : Forest} (ht : h.IsTTN r F) {t : ℕ}
    (hleaf : ∀ e ∈ F.edges r, h.isLeaf e.2.2.1 = true → h.array e.2.2.1 = none)
    (hc : ∀ e ∈ h.bonds r F, e.2.2.1 ≠ t → h.Canonical e.2.2.1 e.2.2.2) {i c j : ℕ} (he : (t, i, c, j) ∈ F.edges r)
    {E : ℕ → ℕ → R} (hE : IsField h t i E) {v w : ℕ} (hv : v < h.hdim (t, i)) (hw : w < h.hdim (t, i)) :
    E v w = if v = w then 1 else 0 := by
  obtain ⟨hlink, -⟩ := edges_props ht.links.wf ht.links.sym ht.tree ht.leaf
  have hacc : h.acc t i = some (c, j) := hlink _ he
  have hmt := ht.src_mem he
  obtain ⟨c', j', e1, e2⟩ := hE
  rw [hacc] at e1
  obtain ⟨rfl, rfl⟩ := Prod.mk.inj (Option.some.inj e1)
  rcases e2 with ⟨hl, rfl⟩ | ⟨hl, G, hG, rfl⟩
  · have := hleaf _ he hl
    simp only at this
    rw [this]
    rfl
  · obtain ⟨G', g1, g2, g3, g4, g5, g6, g7, g8⟩ := subforest ht.tree.rep ht.tree.leafEnd ht.tree.nodup he
    have hGG : G = G' := forest_unique hG.rep g1 (hG.heads.symm.trans g3)
    subst hGG
    have hmc : c ∈ h.tensors r F := mem_tensors.2 ⟨.inr (g7 c (by simp)), hl⟩
    have hback : h.acc c j = some (t, i) := ht.links.sym _ _ _ _ hacc
    rw [ht.field_env hmc (by rw [hback]; simp) hG]
    have hed : ∀ e ∈ Forest.edges t (.cons i j c G .nil), e ∈ F.edges r := by
      intro e h1
      simp only [Forest.edges, List.cons_append, List.mem_cons, List.append_nil] at h1
      rcases h1 with rfl | h1
      · exact he
      · exact g4 e h1
    have htgt : ∀ e ∈ Forest.edges t (.cons i j c G .nil), e.2.2.1 ≠ t := by
      intro e h1 q
      have := (edges_mem h1).2
      simp only [Forest.ids, List.append_nil] at this
      rw [q] at this
      exact g5 this
    have hfit : Fits h false (.cons i j c G .nil) t := by
      refine fits_of (fun e h1 => ht.linkedIn e (hed e h1)) (fun u hu hlu => ?_) (fun e h1 hle => ?_) (fun e h1 hle => ?_)
      · have : u ∈ F.ids := g7 u (by simpa [Forest.ids] using hu)
        exact ⟨ht.full_of (.inr this) hlu, ht.conj.full_of (.inr this) hlu⟩
      · exact ⟨ht.dims e (mem_bonds.2 ⟨hed e h1, hle⟩), ht.conj.dims e (mem_bonds.2 ⟨hed e h1, hle⟩)⟩
      · simp only [Bool.false_eq_true, if_false]
        rw [hleaf e (hed e h1) hle]
        exact (conj_hdim (mem_tensors.1 (ht.src_mem (hed e h1))).2 _).symm
    have := envs_none (ua := false) ht.links.wf (F := .cons i j c G .nil) (a := t) ⟨g3, g1, trivial⟩ hfit
      (fun e h1 hle => by simpa using hleaf e (hed e h1) hle) (fun e h1 hle => by
        refine ⟨hc e (mem_bonds.2 ⟨hed e h1, hle⟩) (htgt e h1), fun A hA => ?_⟩
        rw [braNet_array hle]
        unfold braArray
        rw [hA]
        rfl)
    cases this with
    | cons h1 _ =>
      refine h1.2.2 v hv w ?_
      rw [conj_hdim (mem_tensors.1 hmt).2]
      exact hw

/-- An array whose mean fields are identities, except on axis `k`. -/
theorem fields_one {C : Nd R} (hC : C.Wf) {k : ℕ} (hk : k < C.ndim) {E : ℕ → ℕ → ℕ → R}
    (hE : ∀ i < C.ndim, i ≠ k → ∀ v w, v < C.shape.getD i 1 → w < C.shape.getD i 1 → E i v w = if v = w then 1 else 0)
    {p : List ℕ} {z : ℕ} (hp : Valid (C.shape.eraseIdx k) p) (hz : z < C.shape.getD k 1) :
    (sumIdx C.shape fun v => C.get v * ((List.range C.ndim).map fun i => E i (v.getD i 0) ((p.insertIdx k z).getD i 0)).prod) =
      ∑ c ∈ Finset.range (C.shape.getD k 1), C.get (p.insertIdx k c) * E k c z := by
  set n := C.shape.getD k 1 with hn
  set M : Nd R := Nd.ofFn [n, n] fun x => E k (x.getD 0 0) (x.getD 1 0) with hM
  have hMw : M.Wf := Nd.ofFn_wf _ _
  have hMs : M.shape = [n, n] := rfl
  have hMg : ∀ v < n, ∀ w < n, M.get [v, w] = E k v w := fun v hv w hw => by
    rw [hM, Nd.get_ofFn _ (by simp [valid_cons_cons, hv, hw])]
    rfl
  obtain ⟨T, t1, t2, t3, t4⟩ := fold_full hC (E := E) (env := (List.range C.ndim).map fun i => (i, if i = k then some M else none)) (by
    rw [List.forall₂_map_right_iff, List.forall₂_same]
    intro i hi
    refine ⟨rfl, ?_⟩
    by_cases q : i = k
    · rw [if_pos q, q]
      exact ⟨hMw, hMs, hMg⟩
    · rw [if_neg q]
      exact fun v hv w hw => hE i (List.mem_range.1 hi) q v w hv hw)
  obtain ⟨c, c1, c2, c3, c4⟩ := Tensor.product_matrix C M hk rfl hMs (j := 0) (by omega)
  have hfold : ((List.range C.ndim).map fun i => (i, if i = k then some M else none)).foldlM
      (fun a p => Tensor.partialProduct a p.1 p.2) C = .ok c := by
    rw [range_split hk, List.map_append, List.map_cons, List.foldlM_append, fold_none, ok_bind, List.foldlM_cons, if_pos rfl, c1,
      ok_bind, fold_none]
    · simp only [List.all_map, List.all_eq_true, Function.comp_apply]
      intro i hi
      have := List.mem_range'_1.1 hi
      rw [if_neg (by omega)]
      rfl
    · simp only [List.all_map, List.all_eq_true, Function.comp_apply]
      intro i hi
      have := List.mem_range.1 hi
      rw [if_neg (by omega)]
      rfl
  rw [hfold] at t1
  cases t1
  have hval : Valid C.shape (p.insertIdx k z) := ML.valid_insert hk rfl hp hz
  rw [← t4 _ hval, c4 p z hp hz]
  refine Finset.sum_congr rfl fun v hv => ?_
  simp only [if_true]
  rw [hMg v (Finset.mem_range.1 hv) z hz]

/-- An array whose mean fields are identities. -/
theorem fields_id {C : Nd R} (hC : C.Wf) {E : ℕ → ℕ → ℕ → R}
    (hE : ∀ i < C.ndim, ∀ v w, v < C.shape.getD i 1 → w < C.shape.getD i 1 → E i v w = if v = w then 1 else 0)
    {w : List ℕ} (hw : Valid C.shape w) :
    (sumIdx C.shape fun v => C.get v * ((List.range C.ndim).map fun i => E i (v.getD i 0) (w.getD i 0)).prod) = C.get w := by
  obtain ⟨T, t1, t2, t3, t4⟩ := fold_full hC (E := E) (env := (List.range C.ndim).map fun i => (i, none)) (by
    rw [List.forall₂_map_right_iff, List.forall₂_same]
    intro i hi
    exact ⟨rfl, fun v hv w hw => hE i (List.mem_range.1 hi) v w hv hw⟩)
  rw [fold_none (by simp [List.all_map, Function.comp_def])] at t1
  cases t1
  exact (t4 w hw).symm

/-- The mean field at an axis does not depend on the array of the tensor itself. -/
theorem IsField.setArray {h : Heap R} {r : ℕ} {F : Forest} (ht : h.IsTTN r F) {t i : ℕ} (hm : t ∈ h.tensors r F) {A C : Nd R}
    (hA : h.array t = some A) (hC : C.Wf) (hs : C.shape = A.shape) {E : ℕ → ℕ → R} (hE : IsField h t i E) :
    IsField (h.setArray t (some C)) t i E := by
  have ek := Alike.setArray h hA hC hs
  exact hE.transfer ht (ek.ttn ht) hm (fun u i => by rw [acc_def, ek.access, ← acc_def]) ek.leaf
    fun u _ q => by rw [array_setArray, if_neg q]

/-- The overlap of two states that differ in tensor `t` only, with the mean fields of the identity. -/
theorem overlap_fields {h : Heap R} {r : ℕ} {F : Forest} (ht : h.IsTTN r F) {t : ℕ} (hm : t ∈ h.tensors r F)
    (hleaf : ∀ e ∈ F.edges r, h.isLeaf e.2.2.1 = true → h.array e.2.2.1 = none) {A B C : Nd R} (hA : h.Full t A)
    (hB : B.Wf) (hBs : B.shape = A.shape) (hC : C.Wf) (hCs : C.shape = A.shape) {E : ℕ → ℕ → ℕ → R}
    (hE : ∀ i < A.ndim, IsField h t i (E i)) :
    sumLeaves (h.leafList r F) (fun x => (h.setArray t (some C)).treeAmp r F x * star ((h.setArray t (some B)).treeAmp r F x))
      (fun _ => 0) = sumIdx A.shape (fun w => (sumIdx A.shape fun v =>
        C.get v * ((List.range A.ndim).map fun k => E k (v.getD k 0) (w.getD k 0)).prod) * star (B.get w)) := by
  have ek := Alike.setArray h hA.array hC hCs
  set k := h.setArray t (some C) with hk
  have hkt := ek.ttn ht
  have hCk : k.Full t C := ⟨by rw [ek.leaf]; exact hA.leaf, by rw [hk, array_setArray, if_pos rfl], hC, by rw [hCs]; exact hA.pos,
    fun i => by rw [acc_def, ek.access, ← acc_def, hA.acc]; unfold Nd.ndim; rw [hCs]⟩
  have hnd : C.ndim = A.ndim := by unfold Nd.ndim; rw [hCs]
  have hmk : t ∈ k.tensors r F := by unfold tensors at hm ⊢; simp only [ek.leaf]; exact hm
  have hll : k.leafList r F = h.leafList r F := by
    unfold leafList
    simp only [ek.leaf]
    refine List.map_congr_left fun x hx => ?_
    obtain ⟨A', hA'⟩ := ht.full _ (ht.src_mem (List.mem_filter.1 hx).1)
    obtain ⟨B', b1, b2, b3⟩ := ek.arr _ A' hA'.leaf hA'.array hA'.wf
    unfold hdim
    simp only
    rw [b1, hA'.array]
    simp only [b3]
  have hmain := effective_any hkt hmk hCk (E := E) (fun i hi => (hE i (by rw [← hnd]; exact hi)).setArray ht hm hA.array hC hCs) hB
    (hBs.trans hCs.symm)
  rw [hCs, hnd] at hmain
  rw [hmain, hll]
  refine sumLeaves_congr' (leafList_nodup ht) fun x hx1 hx2 => ?_
  have e2 := sumLeaves_delta (leafList_nodup ht) (fun y => k.treeAmp r F x * star ((h.setArray t (some B)).treeAmp r F y)) x
    (fun _ => 0) hx2 (fun l hl => (hx1 l hl).symm)
  beta_reduce at e2
  beta_reduce
  rw [← e2]
  refine sumLeaves_congr fun y => ?_
  have a1 : (k.setArray t (some B)).treeAmp r F y = (h.setArray t (some B)).treeAmp r F y := by
    refine treeAmp_congr (fun u => ?_) (fun u i => ?_) (fun u => ?_) r F y
    · rw [array_setArray, array_setArray, array_setArray]; split <;> rfl
    · unfold Heap.acc; rw [node_setArray, node_setArray, node_setArray]; split <;> rfl
    · unfold Heap.isLeaf; rw [node_setArray, node_setArray, node_setArray]; split <;> rfl
  rw [a1]
  have a2 : (((h.leafList r F).map Prod.fst).map fun l => opEntry (k.array l) (x l) (y l)) =
      ((h.leafList r F).map Prod.fst).map fun l => if x l = y l then 1 else 0 := by
    refine List.map_congr_left fun l hl => ?_
    obtain ⟨p, hp, rfl⟩ := List.mem_map.1 hl
    obtain ⟨e, he, rfl⟩ := List.mem_map.1 hp
    obtain ⟨he1, he2⟩ := List.mem_filter.1 he
    simp only
    rw [hk, array_setArray, if_neg (by rintro q; rw [q, hA.leaf] at he2; cases he2), hleaf e he1 (by simpa using he2)]
    rfl
  rw [a2]
  ring

/-- At the root of a canonical network. -/
theorem overlap_root {h : Heap R} {r : ℕ} {F : Forest} (ht : h.IsTTN r F) (hc : h.CanonicalTree r F)
    (hleaf : ∀ e ∈ F.edges r, h.isLeaf e.2.2.1 = true → h.array e.2.2.1 = none) {A B C : Nd R} (hA : h.Full r A)
    (hB : B.Wf) (hBs : B.shape = A.shape) (hC : C.Wf) (hCs : C.shape = A.shape) :
    sumLeaves (h.leafList r F) (fun x => (h.setArray r (some C)).treeAmp r F x * star ((h.setArray r (some B)).treeAmp r F x))
      (fun _ => 0) = sumIdx A.shape (fun w => C.get w * star (B.get w)) := by
  have hm : r ∈ h.tensors r F := mem_tensors.2 ⟨.inl rfl, ht.leaf⟩
  have hex : ∀ i, ∃ E, i < A.ndim → IsField h r i E := fun i => by
    by_cases q : i < A.ndim
    · obtain ⟨E, hE⟩ := ht.exists_field hm ((hA.acc i).2 q)
      exact ⟨E, fun _ => hE⟩
    · exact ⟨fun _ _ => 0, fun q' => absurd q' q⟩
  choose E hE using hex
  rw [overlap_fields ht hm hleaf hA hB hBs hC hCs hE]
  refine sumIdx_congr fun w hw => ?_
  congr 1
  have hnd : C.ndim = A.ndim := by unfold Nd.ndim; rw [hCs]
  have := fields_id hC (E := E) (w := w) (fun i hi v w hv hw => ?_) (by rw [hCs]; exact hw)
  · rw [hCs, hnd] at this; exact this
  · rw [hnd] at hi
    rw [hCs, ← hA.hdim_eq] at hv hw
    obtain ⟨⟨c, j⟩, hcj⟩ := Option.ne_none_iff_exists'.1 ((hA.acc i).2 hi)
    refine field_delta ht (t := r) hleaf (fun e he _ => hc e he) (i := i) (c := c) (j := j) ?_ (hE i hi) hv hw
    refine heads_edges ?_
    rw [← ht.tree.heads, mem_children ht.links.wf (by simp [ht.leaf])]
    exact ⟨hcj, by simp, .inl rfl⟩

/-- At another tensor of a canonical network: `ρ` is the mean field of the identity towards the root. -/
theorem overlap_axis {h : Heap R} {r : ℕ} {F : Forest} (ht : h.IsTTN r F) (hc : h.CanonicalTree r F)
    (hleaf : ∀ e ∈ F.edges r, h.isLeaf e.2.2.1 = true → h.array e.2.2.1 = none) {a i t k : ℕ} (he : (a, i, t, k) ∈ h.bonds r F)
    {A B C : Nd R} (hA : h.Full t A) (hB : B.Wf) (hBs : B.shape = A.shape) (hC : C.Wf) (hCs : C.shape = A.shape)
    {ρ : ℕ → ℕ → R} (hρ : IsField h t k ρ) :
    sumLeaves (h.leafList r F) (fun x => (h.setArray t (some C)).treeAmp r F x * star ((h.setArray t (some B)).treeAmp r F x))
      (fun _ => 0) = sumIdx (A.shape.eraseIdx k) (fun p => ∑ z ∈ Finset.range (A.shape.getD k 1),
        (∑ c ∈ Finset.range (A.shape.getD k 1), C.get (p.insertIdx k c) * ρ c z) * star (B.get (p.insertIdx k z))) := by
  obtain ⟨he1, he2⟩ := mem_bonds.1 he
  have hm : t ∈ h.tensors r F := mem_tensors.2 ⟨.inr (edges_mem he1).2, he2⟩
  obtain ⟨hlink, p2, p3, -⟩ := edges_props ht.links.wf ht.links.sym ht.tree ht.leaf
  have hacc : h.acc a i = some (t, k) := hlink _ he1
  have hback : h.acc t k = some (a, i) := ht.links.sym _ _ _ _ hacc
  have hkA : k < A.ndim := (hA.acc k).1 (by rw [hback]; simp)
  have hex : ∀ i, ∃ E, i < A.ndim → IsField h t i E ∧ (i = k → E = ρ) := fun i => by
    by_cases q : i < A.ndim
    · by_cases q' : i = k
      · exact ⟨ρ, fun _ => ⟨by rw [q']; exact hρ, fun _ => rfl⟩⟩
      · obtain ⟨E, hE⟩ := ht.exists_field hm ((hA.acc i).2 q)
        exact ⟨E, fun _ => ⟨hE, fun q => absurd q q'⟩⟩
    · exact ⟨fun _ _ => 0, fun q' => absurd q' q⟩
  choose E hE using hex
  rw [overlap_fields ht hm hleaf hA hB hBs hC hCs fun i hi => (hE i hi).1]
  have hnd : C.ndim = A.ndim := by unfold Nd.ndim; rw [hCs]
  have hsplit : A.shape = (A.shape.eraseIdx k).insertIdx k (A.shape.getD k 1) := by
    rw [List.getD_eq_getElem A.shape 1 hkA, List.insertIdx_eraseIdx_getElem hkA]
  conv_lhs => rw [hsplit]
  rw [sumIdx_insertIdx _ _ _ (by rw [List.length_eraseIdx_of_lt hkA]; unfold Nd.ndim at hkA; omega)]
  rw [← hsplit]
  rw [sumIdx_sum]
  refine Finset.sum_congr rfl fun z hz => sumIdx_congr fun p hp => ?_
  have hz' := Finset.mem_range.1 hz
  congr 1
  have := fields_one hC (k := k) (by rw [hnd]; exact hkA) (E := E) (p := p) (z := z) (fun i' hi hik v w hv hw => ?_)
    (by rw [hCs]; exact hp) (by rw [hCs]; exact hz')
  · rw [hCs, hnd, (hE k hkA).2 rfl] at this; exact this
  · rw [hnd] at hi
    rw [hCs, ← hA.hdim_eq] at hv hw
    obtain ⟨⟨c, j⟩, hcj⟩ := Option.ne_none_iff_exists'.1 ((hA.acc i').2 hi)
    rcases p3 t i' c j ((ht.mem_linked t).1 (mem_tensors.1 hm).1) hcj with q | q
    · have hne : ∀ e ∈ h.bonds r F, e.2.2.1 ≠ t → h.Canonical e.2.2.1 e.2.2.2 := fun e he _ => hc e he
      exact field_delta ht (t := t) hleaf hne q (hE i' hi).1 hv hw
    · exfalso
      have huniq := List.inj_on_of_nodup_map p2 he1 q rfl
      exact hik (by have := (Prod.mk.inj (Prod.mk.inj (Prod.mk.inj huniq).2).2).2; exact this.symm)

end Heap
