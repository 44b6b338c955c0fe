import Verif.Lemmas.Env2

/-!
The methods built on `partial_env`: setting `aux`, conjugation of a network.
-/

open scoped BigOperators
open Py

namespace Heap

variable {R : Type} [CommRing R]

open TreeSum

theorem foldl_setAux (v : Heap R → ℕ → Option (Nd R)) (hv : ∀ h a x l, v (setAux h a x) l = v h l) (ls : List ℕ)
    (h : Heap R) : (ls.foldl (fun h l => h.setAux l (v h l)) h).next = h.next ∧
      ∀ t, (ls.foldl (fun h l => h.setAux l (v h l)) h).node t =
        if t ∈ ls then { h.node t with aux := v h t } else h.node t := by
  induction ls generalizing h with
  | nil => simp
  | cons l ls ih =>
    obtain ⟨h1, h2⟩ := ih (h.setAux l (v h l))
    refine ⟨h1, fun t => ?_⟩
    rw [List.foldl_cons, h2]
    simp only [hv, List.mem_cons]
    unfold setAux Heap.upd
    by_cases h3 : t = l
    · subst h3; by_cases h4 : t ∈ ls <;> simp [h4]
    · by_cases h4 : t ∈ ls <;> simp [h3, h4]

theorem treeAmp_congr {h h' : Heap R} (ha : ∀ t, h'.array t = h.array t) (hc : ∀ t k, h'.acc t k = h.acc t k)
    (hl : ∀ t, h'.isLeaf t = h.isLeaf t) (r : ℕ) (F : Forest) (x : ℕ → ℕ) :
    h'.treeAmp r F x = h.treeAmp r F x := by
  have e1 : h'.hdim = h.hdim := funext fun p => by unfold hdim; rw [ha]
  have e2 : h'.entry = h.entry := funext fun σ => funext fun t => by unfold entry; rw [ha]
  have e3 : h'.leafAssign x = h.leafAssign x := funext fun p => by unfold leafAssign; rw [hc]
  have e4 : h'.isLeaf = h.isLeaf := funext hl
  unfold treeAmp amp tensors bonds
  rw [sumBonds_eq, sumBonds_eq, e1, e2, e3, e4]

/-- Only the arrays of the tensors of the tree matter. -/
theorem treeAmp_congr_on {h h' : Heap R} {r : ℕ} {F : Forest} (ht : h.IsTTN r F)
    (ha : ∀ t ∈ h.tensors r F, h'.array t = h.array t) (hc : ∀ t k, h'.acc t k = h.acc t k)
    (hl : ∀ t, h'.isLeaf t = h.isLeaf t) (x : ℕ → ℕ) :
    h'.treeAmp r F x = h.treeAmp r F x := by
  have e3 : h'.leafAssign x = h.leafAssign x := funext fun p => by unfold leafAssign; rw [hc]
  have e4 : h'.tensors r F = h.tensors r F := by unfold tensors; simp only [hl]
  have e5 : h'.bonds r F = h.bonds r F := by unfold bonds; simp only [hl]
  unfold treeAmp amp
  rw [e3, e4, e5]
  have key : ∀ E, (∀ e ∈ E, e ∈ h.bonds r F) → ∀ σ, sumBonds h' E (fun σ => ((h.tensors r F).map (h'.entry σ)).prod) σ =
      sumBonds h E (fun σ => ((h.tensors r F).map (h.entry σ)).prod) σ := by
    intro E
    induction E with
    | nil =>
      intro _ σ
      simp only [sumBonds]
      exact congrArg List.prod (List.map_congr_left fun t ht' => by unfold entry; rw [ha t ht'])
    | cons e E ih =>
      intro hE σ
      simp only [sumBonds]
      have : h'.hdim (e.1, e.2.1) = h.hdim (e.1, e.2.1) := by
        unfold hdim
        simp only
        rw [ha _ (ht.isNet.isLink e (hE e (by simp))).2.1]
      rw [this]
      exact Finset.sum_congr rfl fun v _ => ih (fun e' he' => hE e' (by simp [he'])) _
  exact key _ (fun _ h => h) _

variable [StarRing R]

theorem star_sum {ι : Type} (s : Finset ι) (f : ι → R) : star (∑ i ∈ s, f i) = ∑ i ∈ s, star (f i) :=
  map_sum (starAddEquiv : R ≃+ R) f s

theorem star_prod (l : List R) : star l.prod = (l.map star).prod := by
  induction l with
  | nil => simp
  | cons a l ih => simp [ih, mul_comm]

/-- The conjugated network. -/
theorem braNet_amp {h : Heap R} {r : ℕ} {F : Forest} (ht : h.IsTTN r F) (x : ℕ → ℕ) :
    (h.braNet false).treeAmp r F x = star (h.treeAmp r F x) := by
  have hdim_eq : ∀ t ∈ h.tensors r F, ∀ k, (h.braNet false).hdim (t, k) = h.hdim (t, k) := by
    intro t ht' k
    have hl := (mem_tensors.1 ht').2
    unfold hdim
    simp only
    rw [braNet_array hl]
    unfold braArray
    cases h.array t <;> rfl
  have hent : ∀ t ∈ h.tensors r F, ∀ σ, (h.braNet false).entry σ t = star (h.entry σ t) := by
    intro t ht' σ
    have hl := (mem_tensors.1 ht').2
    unfold entry
    rw [braNet_array hl]
    unfold braArray
    cases h.array t with
    | none => simp
    | some A =>
      simp only [Bool.false_eq_true, if_false, Option.map_some]
      rw [conj_get]; rfl
  unfold treeAmp amp
  have key : ∀ E, (∀ e ∈ E, e ∈ h.bonds r F) → ∀ σ,
      sumBonds (h.braNet false) E (fun σ => ((h.tensors r F).map ((h.braNet false).entry σ)).prod) σ =
      star (sumBonds h E (fun σ => ((h.tensors r F).map (h.entry σ)).prod) σ) := by
    intro E
    induction E with
    | nil =>
      intro _ σ
      simp only [sumBonds]
      rw [star_prod, List.map_map]
      exact congrArg List.prod (List.map_congr_left fun t ht' => hent t ht' σ)
    | cons e E ih =>
      intro hE σ
      simp only [sumBonds]
      rw [hdim_eq _ (ht.isNet.isLink e (hE e (by simp))).2.1, star_sum]
      exact Finset.sum_congr rfl fun v _ => ih (fun e' he' => hE e' (by simp [he'])) _
  exact key _ (fun _ h => h) _

theorem leaves_tree {h : Heap R} {r : ℕ} {F : Forest} (ht : h.IsTTN r F) (hax : (h.node r).axis = none)
    {fuel : ℕ} (hf : F.depth < fuel) : h.leaves fuel r = .ok (leavesOf h.isLeaf F) := by
  unfold leaves
  rw [hax, visitor_tree ht.tree true hf]
  simp only [Bool.true_or, if_true, List.filter_true]
  unfold leavesOf
  simp [bind, Except.bind, pure, Except.pure, ht.leaf]

/-- After the leaves are given their `aux`. -/
theorem matrix_core {h : Heap R} {r : ℕ} {F : Forest} (ht : h.IsTTN r F) (hb : (h.braNet true).IsTTN r F)
    (v : Heap R → ℕ → Option (Nd R)) (hv : ∀ h a x l, v (setAux h a x) l = v h l)
    (ho : ∀ e ∈ F.edges r, h.isLeaf e.2.2.1 = true →
      OpFits (v h e.2.2.1) (h.hdim (e.1, e.2.1)) ((h.braNet true).hdim (e.1, e.2.1)))
    {fuel : ℕ} (hf : F.depth < fuel) :
    ∃ h', partialEnv fuel ((leavesOf h.isLeaf F).foldl (fun h l => h.setAux l (v h l)) h) r none true =
      .ok (h', some ⟨[], [sumLeaves (h.leafList r F) (fun x => sumLeaves ((h.braNet true).leafList r F) (fun y =>
        h.treeAmp r F x * ((leavesOf h.isLeaf F).map fun l => opEntry (v h l) (x l) (y l)).prod *
          (h.braNet true).treeAmp r F y) (fun _ => 0)) (fun _ => 0)]⟩) := by
  obtain ⟨k1, k2⟩ := foldl_setAux v hv (leavesOf h.isLeaf F) h
  set h1 := (leavesOf h.isLeaf F).foldl (fun h l => h.setAux l (v h l)) h with hh1
  have q1 : ∀ t, h1.array t = h.array t := fun t => by unfold Heap.array; rw [k2]; split <;> rfl
  have q2 : ∀ t, h1.access t = h.access t := fun t => by unfold Heap.access; rw [k2]; split <;> rfl
  have q3 : ∀ t, h1.isLeaf t = h.isLeaf t := fun t => by unfold Heap.isLeaf; rw [k2]; split <;> rfl
  have q4 : ∀ t, (h1.node t).name = (h.node t).name := fun t => by rw [k2]; split <;> rfl
  have q5 : ∀ t, h.isLeaf t = false → (h1.node t).aux = (h.node t).aux := fun t hl => by
    rw [k2, if_neg]
    intro q
    unfold leavesOf at q
    have := (List.mem_filter.1 q).2
    rw [hl] at this; cases this
  have q6 : ∀ t, (h1.braNet true).array t = (h.braNet true).array t := fun t => by
    cases hl : h.isLeaf t with
    | false =>
      rw [braNet_array hl, braNet_array (by rw [q3]; exact hl)]
      unfold braArray; simp only [if_true]; exact q5 t hl
    | true =>
      have e1 : (h.node t).isLeaf = true := hl
      have e2 : (h1.node t).isLeaf = true := by rw [← hl]; exact q3 t
      have e3 : (h1.node t).array = (h.node t).array := q1 t
      unfold Heap.array braNet
      simp only [e1, e2, if_true, e3]
  have ht1 : h1.IsTTN r F := ht.congr q2 k1 q3 q4 fun c A hA hw => ⟨A, by rw [q1]; exact hA, hw, rfl⟩
  have hb1 : (h1.braNet true).IsTTN r F := hb.congr q2 k1 q3 q4 fun c A hA hw => ⟨A, by rw [q6]; exact hA, hw, rfl⟩
  have hd1 : h1.hdim = h.hdim := funext fun p => by unfold hdim; rw [q1]
  have hd2 : (h1.braNet true).hdim = (h.braNet true).hdim := funext fun p => by unfold hdim; rw [q6]
  have hlf : h1.isLeaf = h.isLeaf := funext q3
  have q7 : ∀ l ∈ leavesOf h.isLeaf F, (h1.node l).aux = v h l := fun l hl => by rw [k2, if_pos hl]
  obtain ⟨h', g1, -, -⟩ := partialEnv_root (P := fun _ _ => True) (fuel := fuel) ht1 (fun _ _ => trivial) hb1 (fun e he hl => by
    rw [hd1, hd2]
    rw [q3] at hl
    have hm : e.2.2.1 ∈ leavesOf h.isLeaf F := List.mem_filter.2 ⟨(edges_mem he).2, hl⟩
    simp only [if_true]
    rw [q7 _ hm]
    exact ho e he hl) (SameCore.rfl' h1) (fun q => by cases q) (fun q => by cases q) hf
  refine ⟨h', ?_⟩
  rw [g1]
  congr 5
  unfold denseElement sumLL
  have e1 : h1.leafList r F = h.leafList r F := by unfold leafList; rw [hlf, hd1]
  have e2 : (h1.braNet true).leafList r F = (h.braNet true).leafList r F := by
    unfold leafList
    rw [hd2]
    have : (h1.braNet true).isLeaf = (h.braNet true).isLeaf := hlf
    rw [this]
  rw [e1, e2]
  refine sumLeaves_congr fun x => sumLeaves_congr fun y => ?_
  beta_reduce
  rw [treeAmp_congr q1 (fun t k => by rw [acc_def, q2, ← acc_def]) q3,
    treeAmp_congr (h := h.braNet true) (h' := h1.braNet true) q6
      (fun t k => by rw [braNet_acc, braNet_acc, acc_def, q2, ← acc_def]) q3, hlf]
  congr 2
  refine congrArg List.prod (List.map_congr_left fun l hl => ?_)
  simp only [if_true]
  rw [q7 l hl]

theorem leafList_fst {h : Heap R} {r : ℕ} {F : Forest} :
    (h.leafList r F).map Prod.fst = leavesOf h.isLeaf F := by
  unfold leafList leavesOf
  rw [← edges_targets F r, List.filter_map, List.map_map]
  rfl

theorem leafList_nodup {h : Heap R} {r : ℕ} {F : Forest} (ht : h.IsTTN r F) :
    ((h.leafList r F).map Prod.fst).Nodup := by
  rw [leafList_fst]
  exact (List.nodup_cons.1 ht.tree.nodup).2.filter _

/-- All leaf operators are identities. -/
theorem inner_core {h : Heap R} {r : ℕ} {F : Forest} (ht : h.IsTTN r F) (hb : (h.braNet true).IsTTN r F)
    (hd : (h.braNet true).leafList r F = h.leafList r F) {fuel : ℕ} (hf : F.depth < fuel) :
    ∃ h', partialEnv fuel ((leavesOf h.isLeaf F).foldl (fun h l => h.setAux l none) h) r none true =
      .ok (h', some ⟨[], [sumLeaves (h.leafList r F) (fun x =>
        h.treeAmp r F x * (h.braNet true).treeAmp r F x) (fun _ => 0)]⟩) := by
  have hdims : ∀ e ∈ F.edges r, h.isLeaf e.2.2.1 = true →
      h.hdim (e.1, e.2.1) = (h.braNet true).hdim (e.1, e.2.1) := by
    intro e he hl
    have hlf : (h.braNet true).isLeaf = h.isLeaf := rfl
    unfold leafList at hd
    rw [hlf, List.map_eq_map_iff] at hd
    have := hd e (List.mem_filter.2 ⟨he, hl⟩)
    simpa using this.symm
  obtain ⟨h', e⟩ := matrix_core (fuel := fuel) ht hb (fun _ _ => none) (fun _ _ _ _ => rfl)
    (fun e he hl => hdims e he hl) hf
  refine ⟨h', ?_⟩
  rw [e]
  congr 5
  rw [hd]
  refine sumLeaves_congr' (leafList_nodup ht) fun x hx1 hx2 => ?_
  have e2 := sumLeaves_delta (leafList_nodup ht) (fun y => h.treeAmp r F x * (h.braNet true).treeAmp r F y) x
    (fun _ => 0) hx2 (fun l hl => (hx1 l hl).symm)
  rw [← e2]
  refine sumLeaves_congr fun y => ?_
  rw [leafList_fst]
  simp only [opEntry]
  ring

/-- After `aux` has been set to the conjugate array everywhere. -/
theorem conjAux_tree {h : Heap R} {r : ℕ} {F : Forest} (ht : h.IsTTN r F) (hax : (h.node r).axis = none)
    {fuel : ℕ} (hf : F.depth < fuel) : ∃ h1, h.conjAux fuel r = .ok h1 ∧ h1.IsTTN r F ∧ (h1.braNet true).IsTTN r F ∧
      (h1.node r).axis = none ∧ (∀ t, h1.array t = h.array t) ∧ h1.isLeaf = h.isLeaf ∧ h1.hdim = h.hdim ∧
      h1.leafList r F = h.leafList r F ∧ (∀ x, h1.treeAmp r F x = h.treeAmp r F x) ∧
      (h1.braNet true).leafList r F = h.leafList r F ∧
      (∀ e ∈ F.edges r, (h1.braNet true).hdim (e.1, e.2.1) = h.hdim (e.1, e.2.1)) ∧
      ∀ x, (h1.braNet true).treeAmp r F x = star (h.treeAmp r F x) := by
  have hvis := visitor_tree ht.tree false hf
  have hlist : ((if false || !(h.isLeaf r) then [r] else []) ++ F.ids.filter fun t => false || !(h.isLeaf t)) =
      h.tensors r F := by
    unfold tensors; rw [List.filter_cons]; simp [ht.leaf]
  rw [hlist] at hvis
  obtain ⟨k1, k2⟩ := foldl_setAux (fun h u => (h.array u).map Nd.conj) (fun h a x l => by
    unfold Heap.array setAux Heap.upd; simp only; split <;> rfl) (h.tensors r F) h
  unfold conjAux
  rw [hax, hvis]
  refine ⟨_, rfl, ?_⟩
  set h1 := (h.tensors r F).foldl (fun h u => h.setAux u ((h.array u).map Nd.conj)) h with hh1
  have q1 : ∀ t, h1.array t = h.array t := fun t => by unfold Heap.array; rw [k2]; split <;> rfl
  have q2 : ∀ t, h1.access t = h.access t := fun t => by unfold Heap.access; rw [k2]; split <;> rfl
  have q3 : ∀ t, h1.isLeaf t = h.isLeaf t := fun t => by unfold Heap.isLeaf; rw [k2]; split <;> rfl
  have q4 : ∀ t, (h1.node t).name = (h.node t).name := fun t => by rw [k2]; split <;> rfl
  have q5 : ∀ t, (h1.node t).axis = (h.node t).axis := fun t => by rw [k2]; split <;> rfl
  have q6 : ∀ t ∈ h.tensors r F, (h1.braNet true).array t = (h.braNet false).array t := fun t hm => by
    have hl := (mem_tensors.1 hm).2
    rw [braNet_array hl, braNet_array (by rw [q3]; exact hl)]
    unfold braArray
    simp only [if_true, Bool.false_eq_true, if_false]
    rw [k2, if_pos hm]
  have hacc : ∀ t k, h1.acc t k = h.acc t k := fun t k => by rw [acc_def, q2, ← acc_def]
  have hlf : h1.isLeaf = h.isLeaf := funext q3
  have hd1 : h1.hdim = h.hdim := funext fun p => by unfold hdim; rw [q1]
  have ht1 : h1.IsTTN r F := ht.congr q2 k1 q3 q4 fun c A hA hw => ⟨A, by rw [q1]; exact hA, hw, rfl⟩
  have hb0 : (h.braNet false).IsTTN r F := by
    refine ht.congr (fun _ => rfl) rfl (fun _ => rfl) (fun _ => rfl) fun c A hA hw => ?_
    cases hl : h.isLeaf c with
    | false =>
      refine ⟨A.conj, ?_, ?_, rfl⟩
      · rw [braNet_array hl]; unfold braArray; rw [hA]; rfl
      · unfold Nd.conj; unfold Nd.Wf at hw ⊢; simpa using hw
    | true =>
      refine ⟨A, ?_, hw, rfl⟩
      have : (h.node c).isLeaf = true := hl
      have hA' : (h.node c).array = some A := hA
      unfold Heap.array braNet
      simp [this, hA']
  have hconj : ∀ t ∈ h.tensors r F, ∀ k, (h1.braNet true).hdim (t, k) = h.hdim (t, k) := by
    intro t hm k
    unfold hdim
    simp only
    rw [q6 t hm, braNet_array (mem_tensors.1 hm).2]
    unfold braArray
    cases h.array t <;> rfl
  have hsrc : ∀ e ∈ F.edges r, e.1 ∈ h.tensors r F := by
    intro e he
    exact mem_tensors.2 ⟨(edges_mem he).1, Forest.edges_src_leaf ht.leaf ht.tree.leafEnd (k := e.2.1) (y := e.2.2.1) (l := e.2.2.2) he⟩
  have hb1 : (h1.braNet true).IsTTN r F := by
    have hl' : (h1.braNet true).LinkInv := ht1.links.congr' (fun _ => rfl) rfl
    have et : (h1.braNet true).tensors r F = h.tensors r F := by unfold tensors; simp only [braNet_isLeaf, q3]
    have eb : (h1.braNet true).bonds r F = h.bonds r F := by unfold bonds; simp only [braNet_isLeaf, q3]
    refine ⟨hl', ht1.tree.congr ht1.links.wf hl'.wf (fun _ _ => rfl) (fun _ _ => rfl), ht1.leaf, ht1.lt, ?_, ?_, ?_⟩
    · rw [et]
      intro t hm
      obtain ⟨B, hB⟩ := hb0.full t hm
      exact ⟨B, by rw [braNet_isLeaf, q3]; exact hB.leaf, by rw [q6 t hm]; exact hB.array, hB.wf, hB.pos,
        fun k => by rw [braNet_acc, hacc]; exact hB.acc k⟩
    · rw [eb]
      intro e he
      obtain ⟨-, m1, m2⟩ := ht.isNet.isLink e he
      rw [hconj _ m1, hconj _ m2]; exact ht.dims e he
    · rw [et]
      intro t hm
      show ∃ nm, (h1.node t).name = some nm
      rw [q4]; exact ht.names t hm
  refine ⟨ht1, hb1, by rw [q5]; exact hax, q1, hlf, hd1, ?_, fun x => treeAmp_congr q1 hacc q3 r F x, ?_,
    fun e he => hconj _ (hsrc e he) _, fun x => ?_⟩
  · unfold leafList; rw [hlf, hd1]
  · unfold leafList
    have : (h1.braNet true).isLeaf = h.isLeaf := hlf
    rw [this]
    refine List.map_congr_left fun e he => ?_
    rw [hconj _ (hsrc e (List.mem_filter.1 he).1)]
  · rw [← braNet_amp ht]
    exact treeAmp_congr_on hb0 q6 (fun t k => by rw [braNet_acc, braNet_acc, hacc]) q3 x

end Heap
