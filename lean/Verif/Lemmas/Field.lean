import Verif.Lemmas.Eom3

/-!
Mean fields: what they depend on.
-/

open scoped BigOperators
open Py

namespace Heap

variable {R : Type} [CommRing R]

open TreeSum

theorem heads_edges {F : Forest} {p i c j : ℕ} (h : (i, c, j) ∈ F.heads) : (p, i, c, j) ∈ F.edges p := by
  induction F with
  | nil => cases h
  | cons i' j' id sub rest ih1 ih2 =>
    simp only [Forest.heads, List.mem_cons] at h
    simp only [Forest.edges, List.cons_append, List.mem_cons, List.mem_append]
    rcases h with h | h
    · left
      simp only [Prod.mk.injEq] at h ⊢
      tauto
    · exact .inr (.inr (ih2 h))

/-- The tree below an edge. -/
theorem subforest {h : Heap R} {F : Forest} {p a i t k : ℕ} (hr : F.RepIn h) (hl : F.LeafEnd h) (hn : (p :: F.ids).Nodup)
    (he : (a, i, t, k) ∈ F.edges p) :
    ∃ G : Forest, G.RepIn h ∧ G.LeafEnd h ∧ h.children t (some k) = G.heads ∧ (∀ e ∈ G.edges t, e ∈ F.edges p) ∧
      (a ∉ t :: G.ids) ∧ (t :: G.ids).Nodup ∧ (∀ u ∈ t :: G.ids, u ∈ F.ids) ∧ (h.isLeaf t = true → G = .nil) := by
  induction F generalizing p with
  | nil => cases he
  | cons i' j id sub rest ih1 ih2 =>
    obtain ⟨r1, r2, r3⟩ := hr
    obtain ⟨l1, l2, l3⟩ := hl
    simp only [Forest.edges, List.cons_append, List.mem_cons, List.mem_append] at he
    simp only [Forest.ids, List.cons_append, List.nodup_cons, List.mem_cons, List.mem_append, not_or,
      List.nodup_append] at hn
    obtain ⟨⟨m1, m2, m3⟩, ⟨m4, m5⟩, m6, m7, m8⟩ := hn
    rcases he with q | he | he
    · obtain ⟨rfl, rfl, rfl, rfl⟩ : a = p ∧ i = i' ∧ t = id ∧ k = j := by simpa using q
      refine ⟨sub, r2, l2, r1, fun e h1 => by simp [Forest.edges, h1], by simp [m1, m2], by simp [m4, m6], ?_, l1⟩
      intro u hu
      simp only [List.mem_cons] at hu
      simp only [Forest.ids, List.cons_append, List.mem_cons, List.mem_append]
      tauto
    · obtain ⟨G, g1, g2, g3, g4, g5, g6, g7, g8⟩ := ih1 (p := id) r2 l2 (by simp [m4, m6]) he
      refine ⟨G, g1, g2, g3, fun e h1 => by simp [Forest.edges, g4 e h1], g5, g6, ?_, g8⟩
      intro u hu
      simp only [Forest.ids, List.cons_append, List.mem_cons, List.mem_append]
      exact .inr (.inl (g7 u hu))
    · obtain ⟨G, g1, g2, g3, g4, g5, g6, g7, g8⟩ := ih2 (p := p) r3 l3 (by simp [m3, m7]) he
      refine ⟨G, g1, g2, g3, fun e h1 => by simp [Forest.edges, g4 e h1], g5, g6, ?_, g8⟩
      intro u hu
      simp only [Forest.ids, List.cons_append, List.mem_cons, List.mem_append]
      exact .inr (.inr (g7 u hu))

variable [StarRing R]

/-- The contraction of the branch beyond an axis, evaluated recursively. -/
theorem IsTTN.field_env {h : Heap R} {r : ℕ} {F : Forest} (ht : h.IsTTN r F) {c j : ℕ} (hm : c ∈ h.tensors r F)
    (hj : h.acc c j ≠ none) {G : Forest} (hG : IsTree h c (some j) G) : h.branchEnv c j G = h.trueEnv false G c j := by
  obtain ⟨F', f1, -⟩ := ht.reroot hm
  obtain ⟨G1, g1, -⟩ := f1.branch (k := j) hj
  have hG1 : G1 = G := forest_unique g1.tree.rep hG.rep (g1.tree.heads.symm.trans hG.heads)
  subst hG1
  obtain ⟨G2, g2, -⟩ := f1.conj.branch (k := j) (by rw [braNet_acc]; exact hj)
  have hG2 : G1 = G2 := forest_unique (h := h.braNet false) (g1.tree.congr (h' := h.braNet false) ht.links.wf
    f1.conj.links.wf (fun _ _ => rfl) (fun _ _ => rfl)).rep g2.tree.rep (by
      rw [← g2.tree.heads, ← g1.tree.heads]; rfl)
  subst hG2
  funext v w
  exact branchEnv_eq g1 g2 v w

/-- There is a mean field at every axis. -/
theorem IsTTN.exists_field {h : Heap R} {r : ℕ} {F : Forest} (ht : h.IsTTN r F) {t i : ℕ} (hm : t ∈ h.tensors r F)
    (hi : h.acc t i ≠ none) : ∃ E, IsField h t i E := by
  obtain ⟨⟨c, j⟩, hcj⟩ := Option.ne_none_iff_exists'.1 hi
  cases hl : h.isLeaf c with
  | true => exact ⟨_, c, j, hcj, .inl ⟨hl, rfl⟩⟩
  | false =>
    have hnet : c = r ∨ c ∈ F.ids :=
      (ht.mem_linked c).2 (((ht.mem_linked t).1 (mem_tensors.1 hm).1).trans (Relation.ReflTransGen.single ⟨i, j, hcj⟩))
    obtain ⟨F', f1, -⟩ := ht.reroot (mem_tensors.2 ⟨hnet, hl⟩)
    obtain ⟨G1, g1, -⟩ := f1.branch (k := j) (by rw [ht.links.sym _ _ _ _ hcj]; simp)
    exact ⟨_, c, j, hcj, .inr ⟨hl, G1, g1.tree, rfl⟩⟩

/-- The mean field at an axis of `t` depends on the arrays of the other tensors and leaves of the network only. -/
theorem IsField.transfer {h k : Heap R} {r : ℕ} {F : Forest} (ht : h.IsTTN r F) (hkt : k.IsTTN r F) {t i : ℕ} (hm : t ∈ h.tensors r F)
    (kacc : ∀ u i, k.acc u i = h.acc u i) (kleaf : ∀ u, k.isLeaf u = h.isLeaf u)
    (karr : ∀ u ∈ r :: F.ids, u ≠ t → k.array u = h.array u) {E : ℕ → ℕ → R} (hE : IsField h t i E) : IsField k t i E := by
  obtain ⟨c, j, e1, e2⟩ := hE
  obtain ⟨F', f1, f2⟩ := ht.reroot hm
  have hhead : (i, c, j) ∈ F'.heads := by
    rw [← f1.tree.heads, mem_children ht.links.wf (by simp [f1.leaf])]
    exact ⟨e1, by simp, .inl rfl⟩
  have hct : c ≠ t := by
    intro q
    subst q
    exact (List.nodup_cons.1 f1.tree.nodup).1 (Forest.mem_heads_ids hhead)
  have hnet : c = r ∨ c ∈ F.ids :=
    (ht.mem_linked c).2 (((ht.mem_linked t).1 (mem_tensors.1 hm).1).trans (Relation.ReflTransGen.single ⟨i, j, e1⟩))
  refine ⟨c, j, by rw [kacc]; exact e1, ?_⟩
  rcases e2 with ⟨hl, rfl⟩ | ⟨hl, G, hG, rfl⟩
  · exact .inl ⟨by rw [kleaf]; exact hl, by rw [karr c (by simpa using hnet) hct]⟩
  · have hGk : IsTree k c (some j) G := hG.congr ht.links.wf hkt.links.wf kacc fun c _ => kleaf c
    refine .inr ⟨by rw [kleaf]; exact hl, G, hGk, ?_⟩
    have hmc : c ∈ h.tensors r F := mem_tensors.2 ⟨hnet, hl⟩
    have hmk : c ∈ k.tensors r F := mem_tensors.2 ⟨hnet, by rw [kleaf]; exact hl⟩
    have hback : h.acc c j = some (t, i) := ht.links.sym _ _ _ _ e1
    rw [ht.field_env hmc (by rw [hback]; simp) hG, hkt.field_env hmk (by rw [kacc, hback]; simp) hGk]
    obtain ⟨G', g1, g2, g3, g4, g5, g6, g7, g8⟩ := subforest f1.tree.rep f1.tree.leafEnd f1.tree.nodup (heads_edges hhead)
    have hGG : G = G' := forest_unique hG.rep g1 (hG.heads.symm.trans g3)
    subst hGG
    funext v w
    have hlf : k.isLeaf = h.isLeaf := funext kleaf
    unfold trueEnv
    rw [hlf]
    refine envMat_congr (fun u hu => ?_) j v w
    have hut : u ≠ t := fun q => g5 (q ▸ hu)
    have h1 : k.array u = h.array u := karr u (f2.mem_iff.1 (List.mem_cons_of_mem _ (g7 u hu))) hut
    refine ⟨fun _ => by simp only [Bool.false_eq_true, if_false, h1], fun hlu => ⟨fun i => ?_, fun i => ?_, ?_, ?_⟩⟩
    · unfold hdim; simp only [h1]
    · rw [conj_hdim hlu, conj_hdim (h := k) (by rw [kleaf]; exact hlu)]
      unfold hdim; simp only [h1]
    · funext σ; unfold entry; rw [h1]
    · funext σ
      unfold entry
      rw [braNet_array hlu, braNet_array (h := k) (by rw [kleaf]; exact hlu)]
      unfold braArray
      simp only [Bool.false_eq_true, if_false, h1]

/-- There is only one mean field at an axis. -/
theorem IsField.unique {h : Heap R} {t i : ℕ} {E E' : ℕ → ℕ → R} (hE : IsField h t i E) (hE' : IsField h t i E') : E = E' := by
  obtain ⟨c, j, e1, e2⟩ := hE
  obtain ⟨c', j', e1', e2'⟩ := hE'
  rw [e1] at e1'
  obtain ⟨rfl, rfl⟩ := Prod.mk.inj (Option.some.inj e1')
  rcases e2 with ⟨hl, rfl⟩ | ⟨hl, G, hG, rfl⟩
  · rcases e2' with ⟨-, rfl⟩ | ⟨hl', -⟩
    · rfl
    · rw [hl] at hl'; cases hl'
  · rcases e2' with ⟨hl', -⟩ | ⟨-, G', hG', rfl⟩
    · rw [hl] at hl'; cases hl'
    · rw [forest_unique hG.rep hG'.rep (hG.heads.symm.trans hG'.heads)]

end Heap
