import Verif.Lemmas.SumTerms
import Verif.Lemmas.MidNet

/-!
Mean fields on links away from the root, when some tensors are changed, replaced or relinked.
-/

open scoped BigOperators
open Py

namespace TreeSum

variable {R : Type} [CommRing R]

theorem envs_leaf {lf lf' : ℕ → Bool} {d d' : ℕ × ℕ → ℕ} {e e' : ℕ → Heap.Assign → R} {m : ℕ → ℕ → ℕ → R} {F : Forest}
    (h : ∀ t ∈ F.ids, lf t = lf' t) (a : ℕ) (σ τ : Heap.Assign) : envs lf d d' e e' m F a σ τ = envs lf' d d' e e' m F a σ τ := by
  induction F generalizing a σ τ with
  | nil => rfl
  | cons i j id sub rest ih1 ih2 =>
    simp only [Forest.ids, List.cons_append, List.mem_cons, List.mem_append] at h
    simp only [envs]
    rw [ih2 fun t ht => h t (.inr (.inr ht)), h id (.inl rfl)]
    simp only [ih1 fun t ht => h t (.inr (.inl ht))]

theorem envMat_leaf {lf lf' : ℕ → Bool} {d d' : ℕ × ℕ → ℕ} {e e' : ℕ → Heap.Assign → R} {m : ℕ → ℕ → ℕ → R} {F : Forest} {id : ℕ}
    (h : ∀ t ∈ id :: F.ids, lf t = lf' t) (j v w : ℕ) : envMat lf d d' e e' m F id j v w = envMat lf' d d' e e' m F id j v w := by
  unfold envMat
  rw [h id (by simp)]
  simp only [envs_leaf (lf := lf) (lf' := lf') (F := F) fun t ht => h t (by simp [ht])]

end TreeSum

namespace Heap

open TreeSum

variable {R : Type} [CommRing R]

/-- The children of a tensor below an edge are its edges. -/
theorem IsTTN.child_iff {h : Heap R} {r : ℕ} {F : Forest} (ht : h.IsTTN r F) {a i u j : ℕ} (he : (a, i, u, j) ∈ F.edges r) {k c l : ℕ} :
    (k, c, l) ∈ h.children u (some j) ↔ (u, k, c, l) ∈ F.edges r := by
  obtain ⟨p1, p2, p3, p4⟩ := edges_props ht.links.wf ht.links.sym ht.tree ht.leaf
  have hback : h.acc u j = some (a, i) := (ht.isLink_edge he).2
  rw [mem_children ht.links.wf (by simp)]
  constructor
  · rintro ⟨q1, q2, -⟩
    have hlk : Linked h r u := (ht.mem_linked u).1 (.inr (TreeSum.edges_mem he).2)
    rcases p3 u k c l hlk q1 with q | q
    · exact q
    · exfalso
      have := List.inj_on_of_nodup_map p2 q he rfl
      simp only [Prod.mk.injEq] at this
      exact q2 (by simp [this.2.2.2])
  · intro q
    refine ⟨p1 _ q, ?_, .inl rfl⟩
    rintro e
    cases e
    have := p1 _ q
    simp only at this
    rw [hback] at this
    cases this
    exact p4 _ _ _ _ he q

/-- All objects of a tree have a property that its edges hand down. -/
theorem ids_of_edges {P : ℕ → Prop} {G : Forest} {c : ℕ} (hc : P c) (h : ∀ d ∈ G.edges c, P d.1 → P d.2.2.1) : ∀ u ∈ c :: G.ids, P u := by
  induction G generalizing c with
  | nil => intro u hu; simp only [Forest.ids, List.mem_singleton] at hu; exact hu ▸ hc
  | cons i j id sub rest ih1 ih2 =>
    intro u hu
    simp only [Forest.ids, List.cons_append, List.mem_cons, List.mem_append] at hu
    have h0 : P id := h (c, i, id, j) (by simp [Forest.edges]) hc
    rcases hu with rfl | rfl | hu | hu
    · exact hc
    · exact h0
    · exact ih1 h0 (fun d hd => h d (by simp [Forest.edges, hd])) u (by simp [hu])
    · exact ih2 hc (fun d hd => h d (by simp [Forest.edges, hd])) u (by simp [hu])

/-- A branch whose edges are also edges of another tree is a branch there. -/
theorem rep_keep {h k : Heap R} {r r' : ℕ} {F F' : Forest} (ht : h.IsTTN r F) (hkt : k.IsTTN r' F') {S : ℕ → Prop}
    (K1 : ∀ d ∈ F'.edges r', ¬ S d.1 → d ∈ F.edges r) (K4 : ∀ d ∈ F.edges r, ¬ S d.1 → d ∈ F'.edges r')
    (Kl : ∀ u, ¬ S u → k.isLeaf u = h.isLeaf u) :
    ∀ (G : Forest) (c : ℕ), G.RepIn h → G.LeafEnd h → (∀ d ∈ G.edges c, d ∈ F.edges r) → (∀ d ∈ G.edges c, d ∈ F'.edges r') →
      (∀ u ∈ G.ids, ¬ S u) → G.RepIn k ∧ G.LeafEnd k := by
  have child : ∀ a i u j, (a, i, u, j) ∈ F.edges r → (a, i, u, j) ∈ F'.edges r' → ¬ S u → k.children u (some j) = h.children u (some j) := by
    intro a i u j h1 h2 hu
    refine sorted_ext (pairwise_children hkt.links.wf u _ true) (pairwise_children ht.links.wf u _ true) ?_
    rintro ⟨x, c, l⟩
    rw [hkt.child_iff h2, ht.child_iff h1]
    exact ⟨fun q => K1 _ q hu, fun q => K4 _ q hu⟩
  intro G
  induction G with
  | nil => intro c _ _ _ _ _; exact ⟨trivial, trivial⟩
  | cons i j id sub rest ih1 ih2 =>
    intro c hr hl e1 e2 hS
    obtain ⟨r1, r2, r3⟩ := hr
    obtain ⟨l1, l2, l3⟩ := hl
    have hid : ¬ S id := hS id (by simp [Forest.ids])
    have hsub : ∀ d ∈ sub.edges id, d ∈ F.edges r := fun d hd => e1 d (by simp [Forest.edges, hd])
    obtain ⟨a1, a2⟩ := ih1 id r2 l2 hsub (fun d hd => e2 d (by simp [Forest.edges, hd])) fun u hu => hS u (by simp [Forest.ids, hu])
    obtain ⟨b1, b2⟩ := ih2 c r3 l3 (fun d hd => e1 d (by simp [Forest.edges, hd])) (fun d hd => e2 d (by simp [Forest.edges, hd]))
      fun u hu => hS u (by simp [Forest.ids, hu])
    refine ⟨⟨?_, a1, b1⟩, ?_, a2, b2⟩
    · rw [child c i id j (e1 _ (by simp [Forest.edges])) (e2 _ (by simp [Forest.edges])) hid]
      exact r1
    · intro q
      rw [Kl id hid] at q
      exact l1 q

variable [StarRing R]

/-- Outside a set `S` of objects the tree is the same, and no edge from outside `S` leads to `S`; then a mean field at a link
away from the root that leads outside `S` is the same. -/
theorem field_keep {h k : Heap R} {r r' : ℕ} {F F' : Forest} (ht : h.IsTTN r F) (hkt : k.IsTTN r' F') {S : ℕ → Prop}
    (K1 : ∀ d ∈ F'.edges r', ¬ S d.1 → d ∈ F.edges r) (K4 : ∀ d ∈ F.edges r, ¬ S d.1 → d ∈ F'.edges r')
    (K2 : ∀ d ∈ F.edges r, ¬ S d.1 → ¬ S d.2.2.1)
    (Kl : ∀ u, ¬ S u → k.isLeaf u = h.isLeaf u) (Ka : ∀ u ∈ F.ids, ¬ S u → k.array u = h.array u) {a i c j : ℕ}
    (he : (a, i, c, j) ∈ F.edges r) (he' : (a, i, c, j) ∈ F'.edges r') (hc : ¬ S c) {E : ℕ → ℕ → R} (hE : IsField h a i E) :
    IsField k a i E := by
  obtain ⟨c', j', e1, e2⟩ := hE
  obtain ⟨a1, a2⟩ := ht.isLink_edge he
  obtain ⟨b1, b2⟩ := hkt.isLink_edge he'
  simp only at a1 a2 b1 b2
  rw [a1] at e1
  obtain ⟨rfl, rfl⟩ := Prod.mk.inj (Option.some.inj e1)
  have hcids := (TreeSum.edges_mem he).2
  simp only at hcids
  refine ⟨c, j, b1, ?_⟩
  rcases e2 with ⟨hl, rfl⟩ | ⟨hl, G, hG, rfl⟩
  · exact .inl ⟨by rw [Kl c hc]; exact hl, by rw [Ka c hcids hc]⟩
  · obtain ⟨G', g1, g2, g3, g4, g5, g6, g7, g8⟩ := subforest ht.tree.rep ht.tree.leafEnd ht.tree.nodup he
    have hGG : G = G' := forest_unique hG.rep g1 (hG.heads.symm.trans g3)
    subst hGG
    have hS : ∀ u ∈ c :: G.ids, ¬ S u := ids_of_edges (P := fun u => ¬ S u) hc fun d hd => K2 d (g4 d hd)
    have hGe : ∀ d ∈ G.edges c, d ∈ F'.edges r' := by
      intro d hd
      refine K4 d (g4 d hd) (hS _ ?_)
      rcases (TreeSum.edges_mem hd).1 with q | q
      · simp [q]
      · simp [q]
    obtain ⟨x1, x2⟩ := rep_keep ht hkt K1 K4 Kl G c g1 g2 g4 hGe fun u hu => hS u (by simp [hu])
    have hch : k.children c (some j) = h.children c (some j) := by
      refine sorted_ext (pairwise_children hkt.links.wf c _ true) (pairwise_children ht.links.wf c _ true) ?_
      rintro ⟨x, c', l⟩
      rw [hkt.child_iff he', ht.child_iff he]
      exact ⟨fun q => K1 _ q hc, fun q => K4 _ q hc⟩
    have hlk : k.isLeaf c = false := by rw [Kl c hc]; exact hl
    have hGk : IsTree k c (some j) G := ⟨hch.trans hG.heads, x1, hG.nodup, x2⟩
    refine .inr ⟨hlk, G, hGk, ?_⟩
    rw [ht.field_env (mem_tensors.2 ⟨.inr hcids, hl⟩) (by rw [a2]; simp) hG,
      hkt.field_env (mem_tensors.2 ⟨.inr (TreeSum.edges_mem he').2, hlk⟩) (by rw [b2]; simp) hGk]
    funext v w
    unfold trueEnv
    rw [envMat_leaf (lf' := k.isLeaf) fun u hu => (Kl u (hS u hu)).symm]
    refine envMat_congr (fun u hu => ?_) j v w
    have h1 : k.array u = h.array u := Ka u (g7 u hu) (hS u hu)
    have h2 : k.isLeaf u = h.isLeaf u := Kl u (hS u hu)
    refine ⟨fun _ => by simp only [Bool.false_eq_true, if_false, h1], fun hlu => ⟨fun i => ?_, fun i => ?_, ?_, ?_⟩⟩
    · unfold hdim; simp only [h1]
    · rw [conj_hdim hlu, conj_hdim (h := h) (by rw [← h2]; exact hlu)]
      unfold hdim; simp only [h1]
    · funext σ; unfold entry; rw [h1]
    · funext σ
      unfold entry
      rw [braNet_array hlu, braNet_array (h := h) (by rw [← h2]; exact hlu)]
      unfold braArray
      simp only [Bool.false_eq_true, if_false, h1]

end Heap
