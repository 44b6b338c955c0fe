import Verif.Lemmas.Eom

/-!
The mean fields and the dense matrix element: the array with its mean fields applied is the derivative of the matrix element
with respect to the conjugate array.
-/

open scoped BigOperators
open Py

namespace TreeSum

variable {R : Type} [CommRing R]

theorem sumOver_dim {κ : Type} [DecidableEq κ] {d d' : κ → ℕ} {L : List κ} (h : ∀ p ∈ L, d p = d' p) (g : (κ → ℕ) → R)
    (σ : κ → ℕ) : sumOver d L g σ = sumOver d' L g σ := by
  induction L generalizing σ with
  | nil => rfl
  | cons p L ih =>
    simp only [sumOver]
    rw [h p (by simp)]
    exact Finset.sum_congr rfl fun v _ => ih (fun q hq => h q (by simp [hq])) _

/-- Only the objects in the branches matter. -/
theorem envs_congr {lf : ℕ → Bool} {d₁ d₂ d₁' d₂' : ℕ × ℕ → ℕ} {e₁ e₂ e₁' e₂' : ℕ → Heap.Assign → R} {m₁ m₂ : ℕ → ℕ → ℕ → R}
    {F : Forest} (h : ∀ t ∈ F.ids, (lf t = true → m₁ t = m₂ t) ∧ (lf t = false → (∀ k, d₁ (t, k) = d₂ (t, k)) ∧
      (∀ k, d₁' (t, k) = d₂' (t, k)) ∧ e₁ t = e₂ t ∧ e₁' t = e₂' t)) (a : ℕ) (σ τ : Heap.Assign) :
    envs lf d₁ d₁' e₁ e₁' m₁ F a σ τ = envs lf d₂ d₂' e₂ e₂' m₂ F a σ τ := by
  induction F generalizing a σ τ with
  | nil => rfl
  | cons i j id sub rest ih1 ih2 =>
    simp only [Forest.ids, List.cons_append, List.mem_cons, List.mem_append] at h
    have h0 := h id (.inl rfl)
    simp only [envs]
    rw [ih2 fun t ht => h t (.inr (.inr ht))]
    congr 1
    cases hl : lf id with
    | true => simp only [if_true]; rw [h0.1 hl]
    | false =>
      obtain ⟨q1, q2, q3, q4⟩ := h0.2 hl
      simp only [Bool.false_eq_true, if_false]
      rw [sumOver_dim (d' := d₂) fun p hp => by obtain ⟨p1, p2⟩ := p; rw [show p1 = id from halfs_fst hp]; exact q1 p2]
      refine sumOver_congr fun σ' _ _ => ?_
      rw [sumOver_dim (d' := d₂') fun p hp => by obtain ⟨p1, p2⟩ := p; rw [show p1 = id from halfs_fst hp]; exact q2 p2]
      refine sumOver_congr fun τ' _ _ => ?_
      rw [ih1 fun t ht => h t (.inr (.inl ht)), q3, q4]

theorem envMat_congr {lf : ℕ → Bool} {d₁ d₂ d₁' d₂' : ℕ × ℕ → ℕ} {e₁ e₂ e₁' e₂' : ℕ → Heap.Assign → R} {m₁ m₂ : ℕ → ℕ → ℕ → R}
    {F : Forest} {id : ℕ} (h : ∀ t ∈ id :: F.ids, (lf t = true → m₁ t = m₂ t) ∧ (lf t = false → (∀ k, d₁ (t, k) = d₂ (t, k)) ∧
      (∀ k, d₁' (t, k) = d₂' (t, k)) ∧ e₁ t = e₂ t ∧ e₁' t = e₂' t)) (j v w : ℕ) :
    envMat lf d₁ d₁' e₁ e₁' m₁ F id j v w = envMat lf d₂ d₂' e₂ e₂' m₂ F id j v w := by
  have h0 := h id (by simp)
  unfold envMat
  cases hl : lf id with
  | true => simp only [if_true]; rw [h0.1 hl]
  | false =>
    obtain ⟨q1, q2, q3, q4⟩ := h0.2 hl
    simp only [Bool.false_eq_true, if_false]
    rw [sumOver_dim (d' := d₂) fun p hp => by obtain ⟨p1, p2⟩ := p; rw [show p1 = id from halfs_fst hp]; exact q1 p2]
    refine sumOver_congr fun σ' _ _ => ?_
    rw [sumOver_dim (d' := d₂') fun p hp => by obtain ⟨p1, p2⟩ := p; rw [show p1 = id from halfs_fst hp]; exact q2 p2]
    refine sumOver_congr fun τ' _ _ => ?_
    rw [envs_congr fun t ht => h t (by simp [ht]), q3, q4]

end TreeSum

namespace Heap

variable {R : Type} [CommRing R] [StarRing R]

open TreeSum

/-- The heap whose `aux` are the operators of the leaves, the conjugates of the arrays, and `B` at tensor `r`. -/
private def withAux (h : Heap R) (r : ℕ) (B : Nd R) : Heap R :=
  { h with
    node := fun t =>
      { h.node t with
        aux := if (h.node t).isLeaf then (h.node t).array
          else (if t = r then some (B.conj) else ((h.node t).array).map Nd.conj) } }

omit [CommRing R] [StarRing R] in
theorem node_setArray (h : Heap R) (r : ℕ) (B : Option (Nd R)) (t : ℕ) :
    (h.setArray r B).node t = if t = r then { h.node t with array := B } else h.node t := by
  unfold setArray
  rw [node_upd]

/-- The array with all mean fields applied, contracted with the conjugate of any array `B` of the same shape, is the matrix
element between the state and the state in which `B` has replaced the array. -/
theorem effective {h : Heap R} {r : ℕ} {F : Forest} (ht : h.IsTTN r F) {A : Nd R} (hA : h.Full r A) {E : ℕ → ℕ → ℕ → R}
    (hE : ∀ i < A.ndim, IsField h r i (E i)) {B : Nd R} (hB : B.Wf) (hBs : B.shape = A.shape) :
    sumIdx A.shape (fun w => (sumIdx A.shape fun v =>
        A.get v * ((List.range A.ndim).map fun k => E k (v.getD k 0) (w.getD k 0)).prod) * star (B.get w)) =
      sumLeaves (h.leafList r F) (fun x => sumLeaves (h.leafList r F) (fun y => h.treeAmp r F x *
        (((h.leafList r F).map Prod.fst).map fun l => opEntry (h.array l) (x l) (y l)).prod *
          star ((h.setArray r (some B)).treeAmp r F y)) (fun _ => 0)) (fun _ => 0) := by
  set hx := h.withAux r B with hhx
  have hxt : hx.IsTTN r F := ht.congr' (fun _ => rfl) rfl (fun _ => rfl) (fun _ => rfl) fun c A _ hc hw => ⟨A, hc, hw, rfl⟩
  have barr : ∀ t, h.isLeaf t = false → (hx.braNet true).array t = if t = r then some B.conj else (h.array t).map Nd.conj := by
    intro t hl
    have hl' : (h.node t).isLeaf = false := hl
    show (if (h.node t).isLeaf then (h.node t).array else if true then (hx.node t).aux else _) = _
    rw [hl']
    simp only [Bool.false_eq_true, if_false, if_true]
    show (if (h.node t).isLeaf then (h.node t).array else if t = r then some B.conj else ((h.node t).array).map Nd.conj) = _
    rw [hl']
    rfl
  have hxb : (hx.braNet true).IsTTN r F := by
    refine ht.congr' (fun _ => rfl) rfl (fun _ => rfl) (fun _ => rfl) fun c C hl hc hw => ?_
    rw [barr c hl]
    split
    · rename_i q
      subst q
      rw [hA.array] at hc
      cases hc
      exact ⟨B.conj, rfl, by unfold Nd.conj; unfold Nd.Wf at hB ⊢; simpa using hB, hBs⟩
    · rw [hc]
      exact ⟨C.conj, rfl, by unfold Nd.conj; unfold Nd.Wf at hw ⊢; simpa using hw, rfl⟩
  have hAx : hx.Full r A := ⟨hA.leaf, hA.array, hA.wf, hA.pos, hA.acc⟩
  have hBx : (hx.braNet true).Full r B.conj :=
    ⟨hA.leaf, by rw [barr r hA.leaf, if_pos rfl], by unfold Nd.conj; unfold Nd.Wf at hB ⊢; simpa using hB,
      fun d hd => hA.pos d (by rw [← hBs]; exact hd), fun k => by
        have : B.conj.ndim = A.ndim := by unfold Nd.ndim; rw [← hBs]; rfl
        rw [this]; exact hA.acc k⟩
  have hdimB : ∀ t, h.isLeaf t = false → ∀ k, (hx.braNet true).hdim (t, k) = h.hdim (t, k) := by
    intro t hl k
    unfold hdim
    simp only [barr t hl]
    by_cases q : t = r
    · subst q
      rw [if_pos rfl, hA.array]
      show B.shape.getD k 1 = _
      rw [hBs]
    · rw [if_neg q]
      cases h.array t <;> rfl
  have hsrc : ∀ e ∈ F.edges r, h.isLeaf e.1 = false := fun e he =>
    Forest.edges_src_leaf ht.leaf ht.tree.leafEnd (k := e.2.1) (y := e.2.2.1) (l := e.2.2.2) he
  -- the matrix element on the right-hand side
  have hrhs : hx.denseElement true r F = sumLeaves (h.leafList r F) (fun x => sumLeaves (h.leafList r F) (fun y =>
      h.treeAmp r F x * (((h.leafList r F).map Prod.fst).map fun l => opEntry (h.array l) (x l) (y l)).prod *
          star ((h.setArray r (some B)).treeAmp r F y)) (fun _ => 0)) (fun _ => 0) := by
    have l1 : hx.leafList r F = h.leafList r F := rfl
    have l2 : (hx.braNet true).leafList r F = h.leafList r F := by
      unfold leafList
      refine List.map_congr_left fun e he => ?_
      rw [hdimB _ (hsrc e (List.mem_filter.1 he).1)]
    unfold denseElement sumLL
    rw [l1, l2]
    refine sumLeaves_congr fun x => sumLeaves_congr fun y => ?_
    rw [leafList_fst]
    beta_reduce
    have a1 : hx.treeAmp r F x = h.treeAmp r F x := treeAmp_congr (h := h) (h' := hx) (fun _ => rfl) (fun _ _ => rfl) (fun _ => rfl) r F x
    have hB1 : (h.setArray r (some B)).IsTTN r F := by
      refine ht.congr' ?_ rfl ?_ ?_ ?_
      · intro c; unfold Heap.access; rw [node_setArray]; split <;> rfl
      · intro c; unfold Heap.isLeaf; rw [node_setArray]; split <;> rfl
      · intro c; rw [node_setArray]; split <;> rfl
      · intro c C hl hc hw
        unfold Heap.array
        rw [node_setArray]
        split
        · rename_i q; subst q
          rw [hA.array] at hc
          cases hc
          exact ⟨B, rfl, hB, hBs⟩
        · exact ⟨C, hc, hw, rfl⟩
    have a2 : (hx.braNet true).treeAmp r F y = star ((h.setArray r (some B)).treeAmp r F y) := by
      rw [← braNet_amp hB1]
      refine treeAmp_congr_on hB1.conj (fun t hm => ?_) (fun t k => ?_) (fun t => ?_) y
      · have hl : (h.setArray r (some B)).isLeaf t = false := (mem_tensors.1 hm).2
        have hl' : h.isLeaf t = false := by
          rw [← hl]; unfold Heap.isLeaf; rw [node_setArray]; split <;> rfl
        rw [barr t hl', braNet_array hl]
        unfold braArray Heap.array
        rw [node_setArray]
        split <;> simp
      · show h.acc t k = (h.setArray r (some B)).acc t k
        unfold Heap.acc; rw [node_setArray]; split <;> rfl
      · show h.isLeaf t = (h.setArray r (some B)).isLeaf t
        unfold Heap.isLeaf; rw [node_setArray]; split <;> rfl
    rw [a1, a2]
    congr 2
    have a3 : leavesOf hx.isLeaf F = leavesOf h.isLeaf F := rfl
    rw [a3]
    refine congrArg List.prod (List.map_congr_left fun l hl => ?_)
    have hlf : (h.node l).isLeaf = true := (List.mem_filter.1 hl).2
    simp only [if_true]
    show opEntry (if (h.node l).isLeaf then (h.node l).array else _) _ _ = _
    rw [hlf]
    rfl
  rw [← hrhs, denseElement_eq hxt hxb, traceOver_eq hAx hBx]
  -- the fields
  have hent : ∀ t, h.isLeaf t = false → t ≠ r → (fun σ => (hx.braNet true).entry σ t) = fun σ => (h.braNet false).entry σ t := by
    intro t hl hr
    funext σ
    unfold entry
    rw [barr t hl, if_neg hr, braNet_array hl]
    rfl
  have hfield : ∀ (F' : Forest), F'.RepIn h → (∀ x ∈ F'.heads, h.acc r x.1 = some (x.2.1, x.2.2)) → (∀ u ∈ F'.ids, u ≠ r) →
      ∀ u w : ℕ → ℕ, ((hx.envList true F').map fun p => p.2 (u p.1) (w p.1)).prod =
        (F'.heads.map fun x => E x.1 (u x.1) (w x.1)).prod := by
    intro F'
    induction F' with
    | nil => intros; rfl
    | cons i j id sub rest _ ih =>
      intro hrep hacc hids u w
      obtain ⟨r1, r2, r3⟩ := hrep
      simp only [Forest.ids, List.cons_append, List.mem_cons, List.mem_append] at hids
      simp only [envList, Forest.heads, List.map_cons, List.prod_cons]
      rw [ih r3 (fun x hx' => hacc x (by simp [Forest.heads, hx'])) fun v hv => hids v (.inr (.inr hv))]
      congr 1
      have hai : h.acc r i = some (id, j) := hacc (i, id, j) (by simp [Forest.heads])
      obtain ⟨c, l, c1, c2⟩ := hE i ((hA.acc i).1 (by rw [hai]; simp))
      rw [hai] at c1
      obtain ⟨rfl, rfl⟩ := Prod.mk.inj (Option.some.inj c1)
      rcases c2 with ⟨c2, c3⟩ | ⟨c2, G, c3, c4⟩
      · rw [c3]
        unfold trueEnv envMat
        have : hx.isLeaf id = true := c2
        have hlf : (h.node id).isLeaf = true := c2
        rw [if_pos this]
        simp only [if_true]
        show opEntry (if (h.node id).isLeaf then (h.node id).array else _) _ _ = _
        rw [hlf]
        rfl
      · have hnet : id = r ∨ id ∈ F.ids :=
          (ht.mem_linked id).2 (Relation.ReflTransGen.single ⟨i, j, hai⟩)
        have hmc : id ∈ h.tensors r F := mem_tensors.2 ⟨hnet, c2⟩
        have hback : h.acc id j = some (r, i) := ht.links.sym _ _ _ _ hai
        have hGs : G = sub := forest_unique c3.rep r2 (c3.heads.symm.trans r1)
        subst hGs
        obtain ⟨F', f1, -⟩ := ht.reroot hmc
        obtain ⟨G1, g1, -⟩ := f1.branch (k := j) (by rw [hback]; simp)
        have hG1 : G1 = G := forest_unique g1.tree.rep c3.rep (g1.tree.heads.symm.trans c3.heads)
        subst hG1
        obtain ⟨G2, g2, -⟩ := f1.conj.branch (k := j) (by rw [braNet_acc, hback]; simp)
        have hG2 : G1 = G2 := forest_unique (h := h.braNet false) (g1.tree.congr (h' := h.braNet false) ht.links.wf
          f1.conj.links.wf (fun _ _ => rfl) (fun _ _ => rfl)).rep g2.tree.rep (by
            rw [← g2.tree.heads, ← g1.tree.heads]; rfl)
        subst hG2
        rw [c4, branchEnv_eq g1 g2]
        refine envMat_congr (fun t hm => ⟨fun hl => ?_, fun hl => ⟨fun k => rfl, fun k => ?_, rfl, ?_⟩⟩) j _ _
        · have hlf : (h.node t).isLeaf = true := hl
          funext v w
          simp only [if_true, Bool.false_eq_true, if_false]
          show opEntry (if (h.node t).isLeaf then (h.node t).array else _) _ _ = _
          rw [hlf]
          rfl
        · rw [hdimB t hl, conj_hdim (h := h) hl]
        · refine hent t hl ?_
          rcases List.mem_cons.1 hm with rfl | hm
          · exact hids _ (.inl rfl)
          · exact hids _ (.inr (.inl hm))
  have hheads : (F.heads.map fun x => x.1) = List.range A.ndim := by
    rw [← ht.tree.heads]; exact hA.keys_none ht.links.wf
  have hK : (hx.envList true F).map Prod.fst = List.range A.ndim := by rw [envList_fst, hheads]
  have hf := hfield F ht.tree.rep (fun x hx' => ht.tree.acc_of_mem_heads ht.links.wf hx')
    (fun u hu q => (List.nodup_cons.1 ht.tree.nodup).1 (q ▸ hu))
  unfold traceOver
  rw [hK]
  simp only [hf]
  have h3 : ∀ C : Nd R, C.shape = (List.range C.ndim).map fun k => C.shape.getD k 1 := by
    intro C
    refine List.ext_getElem (by simp) fun k k1 k2 => ?_
    simp [k1]
  have hnd : B.conj.ndim = A.ndim := by unfold Nd.ndim; rw [← hBs]; rfl
  have hsB : B.conj.shape = A.shape := hBs
  rw [hnd, hsB]
  have e0 : ∀ g : List ℕ → R, sumIdx A.shape g = sumOver (fun k => A.shape.getD k 1) (List.range A.ndim)
      (fun u => g ((List.range A.ndim).map u)) (fun _ => 0) := by
    intro g
    rw [← sumIdx_eq_sumOver (fun k => A.shape.getD k 1) List.nodup_range g (fun _ => 0), ← h3]
  rw [sumOver_swap, e0]
  refine sumOver_congr fun w _ _ => ?_
  rw [e0, ← sumOver_mul_right]
  refine sumOver_congr fun u _ _ => ?_
  rw [conj_get]
  congr 2
  rw [← hheads, List.map_map]
  refine congrArg List.prod (List.map_congr_left fun x hx' => ?_)
  have hlt : x.1 < (F.heads.map fun x => x.1).length := by
    have : x.1 ∈ F.heads.map fun x => x.1 := List.mem_map.2 ⟨x, hx', rfl⟩
    rw [hheads] at this
    rw [hheads]
    simpa using this
  have hget : ∀ u : ℕ → ℕ, ((F.heads.map fun x => x.1).map u).getD x.1 0 = u x.1 := by
    intro u
    rw [hheads] at hlt ⊢
    simp only [List.length_range] at hlt
    simp [hlt]
  simp only [Function.comp_apply, hget]

end Heap
