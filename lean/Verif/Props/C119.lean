import Verif.Props.C111

/-!
C119: the lists a `Network` (a `Tree`) gives of its objects: `vertices`, `edges`, `directed_edges`, `leaves`, `nonleaves`, `subleaves`. C113: what
`partial_env` does on a network that `Network.__init__` accepts.
-/

open Py Heap

namespace Network

variable {R : Type}

/-- Specification: a network of tensors that is a tree seen from `r`, and `r` is a tensor with `axis=None`. -/
structure TreeAt (h : Heap R) (r : ℕ) (F : Forest) : Prop where
  wf : h.Wf
  sym : h.Mutual
  tree : IsTree h r none F
  leaf : h.isLeaf r = false
  axis : (h.node r).axis = none

theorem HasRoot.treeAt {h : Heap R} {r : ℕ} {F : Forest} (hr : HasRoot h r F) : TreeAt h r F := ⟨hr.wf, hr.sym, hr.tree, hr.leaf, hr.axis⟩

/-- `vertices` has every object linked to the root once, the root first; `leaves` has the leaves among them, `nonleaves` the others. -/
theorem C119_vertices {h : Heap R} {r : ℕ} {F : Forest} (ht : TreeAt h r F) (wfn : Dict ℕ (Cell R)) {fuel : ℕ} (hf : F.depth < fuel) :
    ∃ vs ls ns, vertices h fuel ⟨r, wfn⟩ = .ok vs ∧ leaves h fuel ⟨r, wfn⟩ = .ok ls ∧ nonleaves h fuel ⟨r, wfn⟩ = .ok ns ∧
      vs.Nodup ∧ vs.head? = some r ∧ ls.Sublist vs ∧ ns.Sublist vs ∧ (∀ x, x ∈ vs ↔ Linked h r x) ∧
      (∀ x, x ∈ ls ↔ Linked h r x ∧ h.isLeaf x = true) ∧ ∀ x, x ∈ ns ↔ Linked h r x ∧ h.isLeaf x = false := by
  obtain ⟨l, h1, h2, h3, h4, -⟩ := C04_visitor h ht.wf ht.sym r F ht.tree ht.leaf fuel hf
  have hv : vertices h fuel ⟨r, wfn⟩ = .ok l := by
    unfold vertices
    dsimp only
    rw [ht.axis]
    exact h1
  refine ⟨l, l.filter fun t => h.isLeaf t, l.filter fun t => !(h.isLeaf t), hv, ?_, ?_, h2, h4, List.filter_sublist, List.filter_sublist, h3, ?_, ?_⟩
  · unfold leaves; rw [hv]; rfl
  · unfold nonleaves; rw [hv]; rfl
  · intro x; rw [List.mem_filter, h3]
  · intro x; rw [List.mem_filter, h3]; simp

/-- `edges` has every link of the network exactly once, in one of its two directions. -/
theorem C119_edges {h : Heap R} {r : ℕ} {F : Forest} (ht : TreeAt h r F) (wfn : Dict ℕ (Cell R)) {fuel : ℕ} (hf : F.depth < fuel) :
    ∃ es, edges h fuel ⟨r, wfn⟩ = .ok es ∧ es.Nodup ∧ (∀ x k y j, (x, k, y, j) ∈ es → h.acc x k = some (y, j) ∧ (y, j, x, k) ∉ es) ∧
      ∀ x k y j, Linked h r x → h.acc x k = some (y, j) → ((x, k, y, j) ∈ es ∨ (y, j, x, k) ∈ es) := by
  obtain ⟨l, h1, h2, h3, h4, h5, -⟩ := C06_linkage_visitor h ht.wf ht.sym r F ht.tree ht.leaf fuel hf
  refine ⟨l, ?_, h3.of_map _, fun x k y j hx => ⟨h2 _ hx, h5 x k y j hx⟩, h4⟩
  unfold edges
  dsimp only
  rw [ht.axis]
  exact h1

/-- `directed_edges` should have every link in both directions. It has the links of `edges` and the reverses of the links of the root only. -/
theorem C119_directed_partial {h : Heap R} {r : ℕ} {F : Forest} (ht : TreeAt h r F) (wfn : Dict ℕ (Cell R)) {fuel : ℕ} (hf : F.depth < fuel) :
    ∃ es ds, edges h fuel ⟨r, wfn⟩ = .ok es ∧ directedEdges h fuel ⟨r, wfn⟩ = .ok ds ∧ ds.Nodup ∧
      ∀ x k y j, (x, k, y, j) ∈ ds ↔ (x, k, y, j) ∈ es ∨ (y = r ∧ h.acc r j = some (x, k)) := by
  obtain ⟨l, h1, h2, h3, h4, h5, -⟩ := C06_linkage_visitor h ht.wf ht.sym r F ht.tree ht.leaf fuel hf
  obtain ⟨l', w, w1, w2, w3⟩ := C06_directed h r F ht.tree true fuel hf
  rw [h1] at w1
  cases w1
  have hc : ∀ i c j, (i, c, j) ∈ h.children r none true ↔ h.acc r i = some (c, j) := by
    intro i c j
    rw [mem_children ht.wf (by rw [ht.leaf]; simp)]
    simp
  have hcn : (h.children r none true).Nodup := by
    exact (pairwise_children ht.wf r none true).imp fun q e => by rw [e] at q; exact lt_irrefl _ q
  have hin : ∀ i c j, h.acc r i = some (c, j) → (r, i, c, j) ∈ l := by
    intro i c j q
    rcases h4 r i c j .refl q with q' | q'
    · exact q'
    · -- nothing leads to the root
      have hv := C06_linkage_visitor h ht.wf ht.sym r F ht.tree ht.leaf fuel hf
      obtain ⟨l2, g1, -, -, -, -, g6, -⟩ := hv
      rw [h1] at g1
      cases g1
      obtain ⟨vs, v1, v2, -⟩ := C04_visitor h ht.wf ht.sym r F ht.tree ht.leaf fuel hf
      rw [g6] at v1
      cases v1
      exact absurd (List.mem_map.2 ⟨_, q', rfl⟩) (List.nodup_cons.1 v2).1
  refine ⟨l, w, ?_, ?_, ?_, ?_⟩
  · unfold edges
    dsimp only
    rw [ht.axis]
    exact h1
  · unfold directedEdges
    dsimp only
    rw [ht.axis]
    exact w2
  · refine w3.nodup_iff.2 (List.nodup_append.2 ⟨h3.of_map _, ?_, ?_⟩)
    · refine hcn.map ?_
      rintro ⟨a, b, c⟩ ⟨a', b', c'⟩ q
      simp only [Prod.mk.injEq] at q
      obtain ⟨q1, q2, -, q3⟩ := q
      subst q1 q2 q3
      rfl
    · rintro ⟨x, k, y, j⟩ hx e he rfl
      obtain ⟨⟨i, c, m⟩, q1, q2⟩ := List.mem_map.1 he
      simp only [Prod.mk.injEq] at q2
      obtain ⟨rfl, rfl, rfl, rfl⟩ := q2
      exact h5 _ _ _ _ (hin _ _ _ ((hc _ _ _).1 q1)) hx
  · intro x k y j
    rw [w3.mem_iff, List.mem_append]
    refine or_congr Iff.rfl ⟨fun q => ?_, fun q => ?_⟩
    · obtain ⟨⟨i, c, m⟩, q1, q2⟩ := List.mem_map.1 q
      simp only [Prod.mk.injEq] at q2
      obtain ⟨rfl, rfl, rfl, rfl⟩ := q2
      exact ⟨rfl, (hc _ _ _).1 q1⟩
    · obtain ⟨rfl, q⟩ := q
      exact List.mem_map.2 ⟨(j, x, k), (hc _ _ _).2 q, rfl⟩

/-- `subleaves` has, for every leaf in the order of `leaves`, the tensor linked to axis 0 of the leaf. -/
theorem C119_subleaves {h : Heap R} {r : ℕ} {F : Forest} (ht : TreeAt h r F) (wfn : Dict ℕ (Cell R)) {fuel : ℕ} (hf : F.depth < fuel)
    (h0 : ∀ x, Linked h r x → h.isLeaf x = true → (h.acc x 0).isSome) :
    ∃ ls ss, leaves h fuel ⟨r, wfn⟩ = .ok ls ∧ subleaves h fuel ⟨r, wfn⟩ = .ok ss ∧
      List.Forall₂ (fun l s => ∃ k, h.acc l 0 = some (s, k)) ls ss := by
  obtain ⟨vs, ls, ns, -, l1, -, -, -, -, -, -, l2, -⟩ := C119_vertices ht wfn hf
  have key : ∀ ls : List ℕ, (∀ x ∈ ls, (h.acc x 0).isSome) → ∃ ss, (ls.mapM fun t => do
      let (p, _) ← slot h t (some 0)
      pure p : Res (List ℕ)) = .ok ss ∧ List.Forall₂ (fun l s => ∃ k, h.acc l 0 = some (s, k)) ls ss := by
    intro ls
    induction ls with
    | nil => exact fun _ => ⟨[], rfl, .nil⟩
    | cons x ls ih =>
      intro q
      obtain ⟨ss, s1, s2⟩ := ih fun y hy => q y (List.mem_cons_of_mem _ hy)
      obtain ⟨⟨p, k⟩, e⟩ := Option.isSome_iff_exists.1 (q x (by simp))
      refine ⟨p :: ss, ?_, .cons ⟨k, e⟩ s2⟩
      have e' : slot h x (some 0) = .ok (p, k) := by
        unfold slot Dict.get!
        dsimp only
        have : Dict.get? (h.access x) 0 = some (p, k) := e
        rw [this]
      rw [List.mapM_cons, e', ok_bind]
      simp only [pure_bind, s1, ok_bind]
      rfl
  obtain ⟨ss, s1, s2⟩ := key ls fun x hx => h0 x ((l2 x).1 hx).1 ((l2 x).1 hx).2
  refine ⟨ls, ss, l1, ?_, s2⟩
  unfold subleaves
  rw [l1, ok_bind]
  exact s1

/-- A leaf linked by another axis makes `subleaves` fail. -/
theorem C119_subleaves_error {h : Heap R} {r : ℕ} {F : Forest} (ht : TreeAt h r F) (wfn : Dict ℕ (Cell R)) {fuel : ℕ} (hf : F.depth < fuel)
    {x : ℕ} (hx : Linked h r x) (hl : h.isLeaf x = true) (h0 : h.acc x 0 = none) : subleaves h fuel ⟨r, wfn⟩ = .error .keyError := by
  obtain ⟨vs, ls, ns, -, l1, -, -, -, -, -, -, l2, -⟩ := C119_vertices ht wfn hf
  have hm := (l2 x).2 ⟨hx, hl⟩
  unfold subleaves
  rw [l1, ok_bind]
  clear l1 l2
  induction ls with
  | nil => cases hm
  | cons y ls ih =>
    rw [List.mapM_cons]
    cases e : h.acc y 0 with
    | none =>
      have e' : slot h y (some 0) = .error .keyError := by
        unfold slot Dict.get!
        dsimp only
        have : Dict.get? (h.access y) 0 = none := e
        rw [this]
      rw [e', error_bind, error_bind]
    | some p =>
      have e' : slot h y (some 0) = .ok p := by
        unfold slot Dict.get!
        dsimp only
        have : Dict.get? (h.access y) 0 = some p := e
        rw [this]
      rw [e', ok_bind]
      have hm' : x ∈ ls := (List.mem_cons.1 hm).resolve_left fun q => by rw [q, e] at h0; cases h0
      have := ih hm'
      simp only [pure_bind, this, error_bind]

/-- **Violated**: in a chain of three tensors `directed_edges` lacks the link from the last tensor to the middle one, which is not a link of the root. -/
theorem C119_directed_violated : exChain.acc 2 0 = some (1, 1) ∧ Linked exChain 0 2 ∧
    ∃ ds, directedEdges exChain 4 ⟨0, []⟩ = .ok ds ∧ (2, 0, 1, 1) ∉ ds := by
  refine ⟨by decide, (exChain_mem 2).2 (by decide), [(0, 0, 1, 0), (1, 1, 2, 0), (1, 0, 0, 0)], ?_, by decide⟩
  rfl

/-- On every network that `Network.__init__` accepts from a tensor, the only objects without `axis` being the root, `partial_env` raises `KeyError`: it
looks for the link of the root at axis `None`. -/
theorem C113_partial_env_error [CommRing R] {h : Heap R} {r : ℕ} {F : Forest} (hr : HasRoot h r F) (hax : ∀ x, h.isLeaf x = true → (h.node x).axis = none)
    (wfn : Dict ℕ (Cell R)) {fuel : ℕ} (hf : F.depth < fuel) (operator : Option (ℕ → Res (Option (Nd R)))) (conjWfn : Option (ℕ → Res (Nd R))) :
    partialEnv h fuel ⟨r, wfn⟩ operator conjWfn = .error .keyError := by
  have hno : ∀ x, Linked h r x → h.isLeaf x = false := by
    intro x hx
    cases hl : h.isLeaf x with
    | false => rfl
    | true =>
      have := hr.only x hx (hax x hl)
      rw [this, hr.leaf] at hl
      cases hl
  obtain ⟨ls, ss, l1, l2, l3⟩ := C119_subleaves hr.treeAt wfn hf fun x hx hl => by rw [hno x hx] at hl; cases hl
  obtain ⟨-, ls', -, -, l1', -, -, -, -, -, -, l4, -⟩ := C119_vertices hr.treeAt wfn hf
  rw [l1] at l1'
  cases l1'
  have hnil : ls = [] := by
    cases ls with
    | nil => rfl
    | cons a ls =>
      have := (l4 a).1 (by simp)
      rw [hno a this.1] at this
      cases this.2
  subst hnil
  cases l3
  obtain ⟨f, rfl⟩ : ∃ f, fuel = f + 1 := ⟨fuel - 1, by omega⟩
  unfold partialEnv
  rw [l2, ok_bind]
  simp only [List.foldlM_nil, pure_bind]
  rw [singleEnv]
  rfl

/-! ### Examples -/

theorem exTree_treeAt : TreeAt exTree 0 exForest where
  wf := exTree_wf
  sym := exTree_mutual
  tree := by
    refine ⟨by decide, ?_, by decide, ?_⟩
    · exact ⟨by decide, trivial, by decide, ⟨by decide, trivial, by decide, trivial, trivial⟩, trivial⟩
    · exact ⟨fun _ => rfl, trivial, (fun q => by cases q), ⟨fun _ => rfl, trivial, fun _ => rfl, trivial, trivial⟩, trivial⟩
  leaf := rfl
  axis := rfl

/-- A root with a leaf and a tensor, which carries two leaves. -/
example : ∃ ls ss, leaves exTree 3 ⟨0, []⟩ = .ok ls ∧ subleaves exTree 3 ⟨0, []⟩ = .ok ss ∧
    List.Forall₂ (fun l s => ∃ k, exTree.acc l 0 = some (s, k)) ls ss := by
  refine C119_subleaves exTree_treeAt [] (by decide) fun x hx hl => ?_
  have := (exTree_treeAt.tree.mem_iff_linked exTree_wf exTree_mutual rfl x).2 hx
  have : x ∈ [0, 1, 2, 3, 4] := this
  simp only [List.mem_cons, List.not_mem_nil, or_false] at this
  rcases this with rfl | rfl | rfl | rfl | rfl <;> first | rfl | cases hl

example : leaves exTree 3 ⟨0, []⟩ = .ok [1, 3, 4] ∧ subleaves exTree 3 ⟨0, []⟩ = .ok [0, 2, 2] ∧ nonleaves exTree 3 ⟨0, []⟩ = .ok [0, 2] ∧
    edges exTree 3 ⟨0, []⟩ = .ok [(0, 0, 1, 0), (0, 1, 2, 0), (2, 1, 3, 0), (2, 2, 4, 0)] := by
  refine ⟨rfl, rfl, rfl, rfl⟩

example : partialEnv exChain 4 ⟨0, []⟩ none none = .error .keyError :=
  C113_partial_env_error exChain_root (fun x => by
    intro hl
    have : ∀ x, exChain.isLeaf x = true → x = x + 1 := by
      intro x
      match x with
      | 0 | 1 | 2 => intro q; cases q
      | _ + 3 => intro q; cases q
    exact absurd (this x hl) (by omega)) [] (by decide) none none

end Network
