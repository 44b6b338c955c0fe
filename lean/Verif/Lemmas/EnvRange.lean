import Verif.Lemmas.Full7

/-! The states that the variations of a tensor span depend only on the other side of a link, if the branch on this side is complete. For C134. -/

open scoped BigOperators
open Py

namespace Heap

open TreeSum ML SplitProp

section

variable {R : Type} [Field R] [StarRing R]

theorem psi_congr {lf lf' : ℕ → Bool} {d d' : ℕ × ℕ → ℕ} {ent ent' : ℕ → Assign → R} {F : Forest} (h1 : ∀ t ∈ F.ids, lf t = lf' t)
    (h2 : ∀ t ∈ F.ids, ∀ k, d (t, k) = d' (t, k)) (h3 : ∀ t ∈ F.ids, ∀ σ, ent t σ = ent' t σ) (x : ℕ → ℕ) (a : ℕ) (σ : Assign) :
    psi lf d ent x F a σ = psi lf' d' ent' x F a σ := by
  induction F generalizing a σ with
  | nil => rfl
  | cons i j id sub rest ih1 ih2 =>
    simp only [Forest.ids, List.cons_append, List.mem_cons, List.mem_append] at h1 h2 h3
    simp only [psi]
    rw [ih2 (fun t q => h1 t (.inr (.inr q))) (fun t q => h2 t (.inr (.inr q))) (fun t q => h3 t (.inr (.inr q))), h1 id (.inl rfl)]
    congr 1
    by_cases hl : lf' id = true
    · rw [if_pos hl, if_pos hl]
    · rw [if_neg hl, if_neg hl]
      rw [sumOver_dim (d' := d') fun p hp => by
        have := halfs_fst hp
        obtain ⟨u, k⟩ := p
        simp only at this
        subst this
        exact h2 _ (.inl rfl) k]
      refine sumOver_congr fun τ _ _ => ?_
      rw [h3 id (.inl rfl), ih1 (fun t q => h1 t (.inr (.inl q))) (fun t q => h2 t (.inr (.inl q))) (fun t q => h3 t (.inr (.inl q)))]

theorem psi_leaves (lf : ℕ → Bool) (d : ℕ × ℕ → ℕ) (ent : ℕ → Assign → R) {F : Forest} {x y : ℕ → ℕ} (h : ∀ t ∈ F.ids, lf t = true → x t = y t) (a : ℕ) (σ : Assign) :
    psi lf d ent x F a σ = psi lf d ent y F a σ := by
  induction F generalizing a σ with
  | nil => rfl
  | cons i j id sub rest ih1 ih2 =>
    simp only [Forest.ids, List.cons_append, List.mem_cons, List.mem_append] at h
    simp only [psi]
    rw [ih2 fun t q => h t (.inr (.inr q))]
    congr 1
    by_cases hl : lf id = true
    · rw [if_pos hl, if_pos hl, h id (.inl rfl) hl]
    · rw [if_neg hl, if_neg hl]
      exact sumOver_congr fun τ _ _ => by rw [ih1 fun t q => h t (.inr (.inl q))]

theorem rem_absent {i : ℕ} {F : Forest} (h : ∀ x ∈ F.heads, x.1 ≠ i) : F.rem i = F := by
  induction F with
  | nil => rfl
  | cons i' j' id' sub' rest _ ih =>
    rw [Forest.rem, if_neg (h (i', id', j') (by simp [Forest.heads])), ih fun x q => h x (by simp [Forest.heads, q])]

/-- The amplitude is a product over the branches. -/
theorem psi_split (lf : ℕ → Bool) (d : ℕ × ℕ → ℕ) (ent : ℕ → Assign → R) (x : ℕ → ℕ) {F : Forest} {p j id : ℕ} {sub : Forest} (hF : F.Has p j id sub)
    (hs : F.heads.Pairwise fun x y => x.1 < y.1) (a : ℕ) (σ : Assign) :
    psi lf d ent x F a σ = psi lf d ent x (.cons p j id sub .nil) a σ * psi lf d ent x (F.rem p) a σ := by
  induction F with
  | nil => exact hF.elim
  | cons i' j' id' sub' rest _ ih =>
    simp only [Forest.heads, List.pairwise_cons] at hs
    rcases hF with ⟨rfl, rfl, rfl, rfl⟩ | hF
    · rw [Forest.rem, if_pos rfl, rem_absent fun y q => by have := hs.1 y q; omega]
      simp only [psi, mul_one]
    · have := hs.1 _ hF.mem_heads
      simp only at this
      rw [Forest.rem, if_neg (by omega)]
      have e := ih hF hs.2
      simp only [psi, mul_one] at e ⊢
      rw [e]
      ring

/-- The amplitude, with the array of the root apart. -/
theorem amp_root {h : Heap R} {r : ℕ} {F : Forest} (ht : h.IsTTN r F) {A Y : Nd R} (hA : h.Full r A) (hY : Y.Wf) (hYs : Y.shape = A.shape)
    {x : ℕ → ℕ} (hx : ∀ p ∈ h.leafList r F, x p.1 < p.2) :
    (h.setArray r (some Y)).treeAmp r F x = sumIdx A.shape fun idx => Y.get idx *
      psi h.isLeaf h.hdim (fun t σ => h.entry σ t) x F r fun q => idx.getD q.2 0 := by
  have hg := ht.setArray hA.array hY hYs
  have hlf : ∀ c, (h.setArray r (some Y)).isLeaf c = h.isLeaf c := fun c => by
    unfold Heap.isLeaf; rw [node_setArray]; split <;> rfl
  have hd : (h.setArray r (some Y)).hdim = h.hdim := funext fun p => hdim_setArray' hA.array hYs p
  have hL : (h.setArray r (some Y)).leafList r F = h.leafList r F := by
    unfold leafList
    simp only [hlf, hd]
  have hnot : r ∉ F.ids := (List.nodup_cons.1 ht.tree.nodup).1
  have hhalf : halfs r F = (List.range A.ndim).map fun k => (r, k) := by
    unfold halfs
    rw [← hA.keys_none ht.links.wf, ← ht.tree.heads, List.map_map]
    rfl
  have hnY : Y.ndim = A.ndim := by unfold Nd.ndim; rw [hYs]
  rw [hg.amp_eq (by rw [hL]; exact hx) fun _ => 0, hd, hhalf]
  have e1 : ∀ τ : Assign, (h.setArray r (some Y)).entry τ r * psi (h.setArray r (some Y)).isLeaf h.hdim (fun t σ => (h.setArray r (some Y)).entry σ t) x F r τ =
      (fun u : ℕ → ℕ => Y.get ((List.range A.ndim).map u) * psi h.isLeaf h.hdim (fun t σ => h.entry σ t) x F r fun q => u q.2) fun k => τ (r, k) := by
    intro τ
    dsimp only
    have a1 : (h.setArray r (some Y)).entry τ r = Y.get ((List.range A.ndim).map fun k => τ (r, k)) := by
      unfold entry
      rw [array_setArray, if_pos rfl]
      simp only [hnY]
    rw [a1]
    congr 1
    rw [psi_congr (lf' := h.isLeaf) (d' := h.hdim) (ent' := fun t σ => h.entry σ t) (fun t _ => hlf t) (fun _ _ _ => rfl) fun t q σ => by
      have : t ≠ r := fun e => hnot (e ▸ q)
      unfold entry
      rw [array_setArray, if_neg this]]
    refine psi_dep _ _ _ _ _ _ _ _ fun p hp => ?_
    have := halfs_fst hp
    obtain ⟨u, k⟩ := p
    simp only at this
    subst this
    rfl
  have e1' := funext e1
  rw [e1', sumOver_axes h.hdim r (List.range A.ndim) (fun u : ℕ → ℕ => Y.get ((List.range A.ndim).map u) * psi h.isLeaf h.hdim (fun t σ => h.entry σ t) x F r fun q => u q.2)]
  have hsh : A.shape = (List.range A.ndim).map fun k => h.hdim (r, k) := by
    refine List.ext_getElem (by simp [Nd.ndim]) fun k q1 q2 => ?_
    rw [List.getElem_map, List.getElem_range, hdim_full hA.array, List.getD_eq_getElem _ _ q1]
  conv_rhs => rw [hsh]
  rw [sumIdx_eq_sumOver (fun k => h.hdim (r, k)) List.nodup_range _ fun _ => 0]
  refine sumOver_congr fun τ _ _ => ?_
  congr 1
  refine psi_dep _ _ _ _ _ _ _ _ fun p hp => ?_
  rw [hhalf] at hp
  obtain ⟨k, hk, rfl⟩ := List.mem_map.1 hp
  rw [List.getD_eq_getElem _ _ (by simpa using hk)]
  simp

theorem amp_unit {h : Heap R} {r : ℕ} {F : Forest} (ht : h.IsTTN r F) {A : Nd R} (hA : h.Full r A) {k : ℕ} (hk : k < A.shape.prod)
    {x : ℕ → ℕ} (hx : ∀ p ∈ h.leafList r F, x p.1 < p.2) :
    (h.setArray r (some (unitNd A.shape k))).treeAmp r F x =
      psi h.isLeaf h.hdim (fun t σ => h.entry σ t) x F r fun q => (unravel A.shape k).getD q.2 0 := by
  rw [amp_root ht hA (unitNd_wf _ _) rfl hx, sumIdx_eq_sum_range, Finset.sum_eq_single k]
  · rw [unitNd_get _ _ (valid_unravel hk), ravel_unravel hk, if_pos rfl, one_mul]
  · intro m hm hmk
    have hm := Finset.mem_range.1 hm
    rw [unitNd_get _ _ (valid_unravel hm), ravel_unravel hm, if_neg hmk, zero_mul]
  · intro q; exact absurd (Finset.mem_range.2 hk) q

end

theorem leafPoint_at {L : List (ℕ × ℕ)} (hL : (L.map Prod.fst).Nodup) (x y : ℕ → ℕ) : ∀ l ∈ L.map Prod.fst, leafPoint L (L.map fun p => x p.1) y l = x l := by
  induction L generalizing y with
  | nil => simp
  | cons p L ih =>
    obtain ⟨l, n⟩ := p
    rw [List.map_cons, List.nodup_cons] at hL
    intro m hm
    simp only [List.map_cons, leafPoint]
    rcases List.mem_cons.1 hm with rfl | hm
    · rw [leafPoint_notMem hL.1]; simp [Nd.upd]
    · exact ih hL.2 _ m hm

/-- Two systems of the right number of vectors in the span of the same vectors. -/
theorem same_span {m n : ℕ} {ι : Type} [Fintype ι] [DecidableEq ι] (hc : Fintype.card ι = n) (M : Matrix (Fin m) ι ℂ) (K K' : Matrix ι (Fin n) ℂ)
    (h : (M * K).conjTranspose * (M * K) = 1) : ∃ U : Matrix (Fin n) (Fin n) ℂ, M * K' = (M * K) * U := by
  have e : Fin n ≃ ι := (Fintype.equivFinOfCardEq hc).symm
  have h1 : ((M * K).conjTranspose * M) * K = 1 := by rw [Matrix.mul_assoc]; exact h
  have h2 := (Matrix.mul_eq_one_comm_of_equiv e).1 h1
  refine ⟨((M * K).conjTranspose * M) * K', ?_⟩
  rw [Matrix.mul_assoc M K, ← Matrix.mul_assoc K, h2, Matrix.one_mul]

theorem leafList_rem {h : Heap ℂ} {t : ℕ} {F : Forest} {p j id : ℕ} {sub : Forest} (hF : F.Has p j id sub) (hs : F.heads.Pairwise fun x y => x.1 < y.1) :
    ∀ q ∈ h.leafList t (F.rem p), q ∈ h.leafList t F := by
  intro q hq
  unfold leafList at hq ⊢
  obtain ⟨e, he, rfl⟩ := List.mem_map.1 hq
  obtain ⟨e1, e2⟩ := List.mem_filter.1 he
  exact List.mem_map.2 ⟨e, List.mem_filter.2 ⟨(Forest.edges_rem hF hs t).mem_iff.2 (by simp [e1]), e2⟩, rfl⟩

/-- The functions of the leaves that span the variations of `t`. -/
noncomputable def spanM (h : Heap ℂ) (t p j id : ℕ) (sub : Forest) (L : List (ℕ × ℕ)) (P : ℕ) {m : ℕ} (X : Fin m → ℕ → ℕ) :
    Matrix (Fin m) (Fin (L.map Prod.snd).prod × Fin P) ℂ :=
  fun i ye => if ravel (L.map Prod.snd) (L.map fun q => X i q.1) = ye.1 then
    psi h.isLeaf h.hdim (fun t σ => h.entry σ t) (X i) (.cons p j id sub .nil) t (fun _ => ye.2) else 0

/-- And the coefficients. -/
noncomputable def coefK (h : Heap ℂ) (t p : ℕ) (G : Forest) (L : List (ℕ × ℕ)) (P : ℕ) (shape : List ℕ) :
    Matrix (Fin (L.map Prod.snd).prod × Fin P) (Fin shape.prod) ℂ :=
  fun ye k => if (unravel shape k).getD p 0 = ye.2 then
    psi h.isLeaf h.hdim (fun t σ => h.entry σ t) (leafPoint L (unravel (L.map Prod.snd) ye.1) fun _ => 0) G t (fun q => (unravel shape k).getD q.2 0) else 0

theorem frame_span {h : Heap ℂ} {t : ℕ} {F : Forest} (ht : h.IsTTN t F) {A : Nd ℂ} (hA : h.Full t A) {p j id : ℕ} {sub : Forest} (hF : F.Has p j id sub)
    {m : ℕ} {X : Fin m → ℕ → ℕ} (hX : ∀ i, ∀ q ∈ h.leafList t F, X i q.1 < q.2) {P : ℕ} (hP : h.hdim (t, p) = P) (i : Fin m) (k : Fin A.shape.prod) :
    (h.setArray t (some (unitNd A.shape k))).treeAmp t F (X i) =
      (spanM h t p j id sub (h.leafList t (F.rem p)) P X * coefK h t p (F.rem p) (h.leafList t (F.rem p)) P A.shape) i k := by
  rw [amp_unit ht hA k.2 (hX i), psi_split _ _ _ _ hF ht.heads_sorted, Matrix.mul_apply]
  set L := h.leafList t (F.rem p) with hL
  have hsub := leafList_rem (h := h) (t := t) hF ht.heads_sorted
  have hv : Valid (L.map Prod.snd) (L.map fun q => X i q.1) := by
    unfold Valid
    rw [List.forall₂_map_left_iff, List.forall₂_map_right_iff, List.forall₂_same]
    exact fun q hq => hX i q (hsub q hq)
  have hp : p < A.shape.length := (hA.acc p).1 (by
    rw [ht.tree.acc_of_mem_heads ht.links.wf hF.mem_heads]; simp)
  have he : (unravel A.shape k).getD p 0 < P := by
    have hvk := valid_unravel k.2
    rw [← hP, hdim_full hA.array, List.getD_eq_getElem _ _ (by rw [length_unravel]; exact hp), List.getD_eq_getElem _ _ hp]
    exact List.forall₂_iff_get.1 hvk |>.2 p _ _
  have hnd : (L.map Prod.fst).Nodup := by
    rw [hL, leafList_fst]
    refine List.Nodup.filter _ ?_
    have := (List.nodup_cons.1 ht.tree.nodup).2
    exact ((Forest.ids_rem hF ht.heads_sorted).nodup_iff.1 this).of_append_right
  rw [Fintype.sum_eq_single (⟨⟨ravel (L.map Prod.snd) (L.map fun q => X i q.1), ravel_lt hv⟩, ⟨_, he⟩⟩ : Fin (L.map Prod.snd).prod × Fin P)]
  · unfold spanM coefK
    rw [if_pos rfl, if_pos rfl]
    dsimp only
    rw [unravel_ravel hv]
    refine congrArg₂ (· * ·) ?_ ?_
    · refine psi_dep _ _ _ _ _ _ _ _ fun q hq => ?_
      simp only [halfs_cons, halfs_nil, List.mem_singleton] at hq
      rw [hq]
    · refine psi_leaves _ _ _ (fun c hc hl => ?_) _ _
      refine (leafPoint_at hnd (X i) _ c ?_).symm
      rw [hL, leafList_fst]
      exact List.mem_filter.2 ⟨hc, hl⟩
  · rintro ⟨y, e⟩ hne
    unfold spanM coefK
    by_cases h1 : ravel (L.map Prod.snd) (L.map fun q => X i q.1) = y
    · by_cases h2 : (unravel A.shape k).getD p 0 = e
      · exact absurd (Prod.ext (Fin.ext h1.symm) (Fin.ext h2.symm)) hne
      · simp only [if_neg h2, mul_zero]
    · simp only [if_neg h1, zero_mul]

/-- Below a tensor whose branch is complete there are as many configurations of the leaves as indices of the links. -/
theorem leafCount {h : Heap ℂ} (hw : h.Wf) (F : Forest) (a : ℕ) (hrep : F.RepIn h) (hs : F.heads.Pairwise fun x y => x.1 < y.1)
    (hh : ∀ i id j, (i, id, j) ∈ F.heads → h.acc a i = some (id, j)) (hsym : h.Mutual)
    (hc : ∀ e ∈ F.edges a, h.isLeaf e.2.2.1 = false → EdgeOk h e) (hle : F.LeafEnd h) :
    ((h.leafList a F).map Prod.snd).prod = (F.heads.map fun x => h.hdim (a, x.1)).prod := by
  induction F generalizing a with
  | nil => rfl
  | cons i j id sub rest ih1 ih2 =>
    obtain ⟨r1, r2, r3⟩ := hrep
    simp only [Forest.heads, List.pairwise_cons] at hs
    have hb := hh i id j (by simp [Forest.heads])
    have e2 := ih2 a r3 hs.2 (fun i' id' j' q => hh i' id' j' (by simp [Forest.heads, q])) (fun e he => hc e (by simp [Forest.edges, he])) hle.2.2
    have hsplit : h.leafList a (.cons i j id sub rest) = (if h.isLeaf id then [(id, h.hdim (a, i))] else []) ++ h.leafList id sub ++ h.leafList a rest := by
      unfold leafList
      simp only [Forest.edges, List.cons_append, List.filter_cons, List.filter_append]
      by_cases hl : h.isLeaf id = true <;> simp [hl]
    rw [hsplit]
    simp only [List.map_append, List.prod_append, Forest.heads, List.map_cons, List.prod_cons, e2]
    congr 1
    by_cases hl : h.isLeaf id = true
    · have : sub = .nil := by
        have := hle.1 hl
        exact this
      subst this
      simp [hl, leafList, Forest.edges]
    · have hl' : h.isLeaf id = false := by simpa using hl
      obtain ⟨A, B, -, hB, -, c4, c5⟩ := hc (a, i, id, j) (by simp [Forest.edges]) hl'
      dsimp only at hB c4 c5
      have e1 := ih1 id r2 (by rw [← r1]; exact pairwise_children hw _ _ _) (Sweep.heads_sub hw r1) (fun e he => hc e (by simp [Forest.edges, he])) hle.2.1
      have hkeys : sub.heads.map (fun x => x.1) = (List.range B.ndim).eraseIdx j := by
        rw [← r1]
        exact hB.keys_some hw ((hB.acc j).1 (by rw [hsym _ _ _ _ hb]; simp))
      have hjn : j < B.shape.length := (hB.acc j).1 (by rw [hsym _ _ _ _ hb]; simp)
      have hlist : (sub.heads.map fun x => h.hdim (id, x.1)) = B.shape.eraseIdx j := by
        have : (sub.heads.map fun x => h.hdim (id, x.1)) = (sub.heads.map (fun x => x.1)).map fun k => h.hdim (id, k) := by rw [List.map_map]; rfl
        rw [this, hkeys, ← List.eraseIdx_map]
        congr 1
        refine List.ext_getElem (by simp [Nd.ndim]) fun k q1 q2 => ?_
        rw [List.getElem_map, List.getElem_range, hdim_full hB.array, List.getD_eq_getElem _ _ q2]
      rw [e1, hlist, ← c4, c5, hdim_full hB.array]
      simp [hl']

/-- The variations of `t` span the same states as before if the tensors beyond its link `p` are as before. -/
theorem frame_range {h h' : Heap ℂ} {t : ℕ} {F : Forest} (ht : h.IsTTN t F) (ht' : h'.IsTTN t F) {A A' : Nd ℂ} (hA : h.Full t A) (hA' : h'.Full t A')
    {shape : List ℕ} (hAs : A.shape = shape) (hAs' : A'.shape = shape) {p j id : ℕ} {sub : Forest} (hF : F.Has p j id sub)
    (hlf : ∀ c ∈ t :: F.ids, h'.isLeaf c = h.isLeaf c) (hd : ∀ c ∈ t :: F.ids, ∀ k, h'.hdim (c, k) = h.hdim (c, k)) (harr : ∀ c ∈ id :: sub.ids, h'.array c = h.array c)
    (hcount : ((h.leafList t (F.rem p)).map Prod.snd).prod = (shape.eraseIdx p).prod)
    {m : ℕ} {X : Fin m → ℕ → ℕ} (hX : ∀ i, ∀ q ∈ h.leafList t F, X i q.1 < q.2)
    (B B' : Matrix (Fin m) (Fin shape.prod) ℂ) (hB : ∀ i k, B i k = (h.setArray t (some (unitNd shape k))).treeAmp t F (X i))
    (hB' : ∀ i k, B' i k = (h'.setArray t (some (unitNd shape k))).treeAmp t F (X i)) (ho : B.conjTranspose * B = 1) :
    ∃ U : Matrix (Fin shape.prod) (Fin shape.prod) ℂ, B' = B * U := by
  subst hAs
  have hLG : ∀ G : Forest, (∀ c ∈ G.ids, c ∈ F.ids) → h'.leafList t G = h.leafList t G := by
    intro G hG
    unfold leafList
    have hm : ∀ e ∈ G.edges t, e.1 ∈ t :: F.ids ∧ e.2.2.1 ∈ t :: F.ids := fun e he => by
      obtain ⟨q1, q2⟩ := edges_mem he
      refine ⟨?_, List.mem_cons_of_mem _ (hG _ q2)⟩
      rcases q1 with q1 | q1
      · rw [q1]; exact List.mem_cons_self
      · exact List.mem_cons_of_mem _ (hG _ q1)
    rw [List.filter_congr fun e he => hlf _ (hm e he).2]
    exact List.map_congr_left fun e he => by rw [hd _ (hm e (List.mem_filter.1 he).1).1]
  have hrem : ∀ c ∈ (F.rem p).ids, c ∈ F.ids := fun c hc =>
    (Forest.ids_rem hF ht.heads_sorted).mem_iff.2 (by simp [hc])
  have hbr : ∀ c ∈ id :: sub.ids, c ∈ F.ids := fun c hc =>
    (Forest.ids_rem hF ht.heads_sorted).mem_iff.2 (List.mem_append.2 (.inl hc))
  have hp : p < A.shape.length := (hA.acc p).1 (by
    rw [ht.tree.acc_of_mem_heads ht.links.wf hF.mem_heads]; simp)
  have e1 : B = spanM h t p j id sub (h.leafList t (F.rem p)) (h.hdim (t, p)) X * coefK h t p (F.rem p) (h.leafList t (F.rem p)) (h.hdim (t, p)) A.shape := by
    ext i k
    rw [hB]
    exact frame_span ht hA hF hX rfl i k
  have hX' : ∀ i, ∀ q ∈ h'.leafList t F, X i q.1 < q.2 := by rw [hLG F fun _ q => q]; exact hX
  have e2 : B' = spanM h t p j id sub (h.leafList t (F.rem p)) (h.hdim (t, p)) X * coefK h' t p (F.rem p) (h.leafList t (F.rem p)) (h.hdim (t, p)) A.shape := by
    ext i k
    rw [hB', ← hLG _ hrem]
    have hsp : spanM h t p j id sub (h'.leafList t (F.rem p)) (h.hdim (t, p)) X = spanM h' t p j id sub (h'.leafList t (F.rem p)) (h.hdim (t, p)) X := by
      ext i ye
      unfold spanM
      split
      · refine psi_congr (fun c hc => ?_) (fun c hc k => ?_) (fun c hc σ => ?_) _ _ _
        · simp only [Forest.ids, List.append_nil] at hc
          exact (hlf c (List.mem_cons_of_mem _ (hbr c hc))).symm
        · simp only [Forest.ids, List.append_nil] at hc
          exact (hd c (List.mem_cons_of_mem _ (hbr c hc)) k).symm
        · simp only [Forest.ids, List.append_nil] at hc
          unfold entry
          rw [harr c hc]
      · rfl
    rw [hsp]
    have key : ∀ (sh : List ℕ) (_ : A'.shape = sh) (k : Fin sh.prod), (h'.setArray t (some (unitNd sh k))).treeAmp t F (X i) =
        (spanM h' t p j id sub (h'.leafList t (F.rem p)) (h.hdim (t, p)) X * coefK h' t p (F.rem p) (h'.leafList t (F.rem p)) (h.hdim (t, p)) sh) i k := by
      rintro _ rfl k
      exact frame_span (h := h') ht' hA' hF hX' (hd t List.mem_cons_self p) i k
    exact key A.shape hAs' k
  rw [e1] at ho ⊢
  rw [e2]
  refine same_span ?_ _ _ _ ho
  rw [Fintype.card_prod, Fintype.card_fin, Fintype.card_fin, hcount, hdim_full hA.array, prod_eraseIdx hp, mul_comm]

end Heap
