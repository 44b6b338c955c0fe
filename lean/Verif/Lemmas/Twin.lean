import Verif.Model.Angle
import Verif.Spec.Twin
import Verif.Lemmas.MultiLayer
import Verif.Props.C04
import Verif.Props.C14

/-!
Two tree networks of the same form.
-/

open scoped BigOperators
open Py

namespace Heap

variable {R : Type} [CommRing R]

theorem relabel_ids (φ : ℕ → ℕ) (F : Forest) : (F.relabel φ).ids = F.ids.map φ := by
  induction F with
  | nil => rfl
  | cons i j id sub rest ih1 ih2 => simp [Forest.relabel, Forest.ids, ih1, ih2]

/-- An edge with other objects. -/
def relabelEdge (φ : ℕ → ℕ) (e : ℕ × ℕ × ℕ × ℕ) : ℕ × ℕ × ℕ × ℕ := (φ e.1, e.2.1, φ e.2.2.1, e.2.2.2)

theorem relabel_edges (φ : ℕ → ℕ) (F : Forest) (a : ℕ) : (F.relabel φ).edges (φ a) = (F.edges a).map (relabelEdge φ) := by
  induction F generalizing a with
  | nil => rfl
  | cons i j id sub rest ih1 ih2 => simp [Forest.relabel, Forest.edges, ih1, ih2, relabelEdge]

theorem relabel_depth (φ : ℕ → ℕ) (F : Forest) : (F.relabel φ).depth = F.depth := by
  induction F with
  | nil => rfl
  | cons i j id sub rest ih1 ih2 => simp [Forest.relabel, Forest.depth, ih1, ih2]

namespace Twin

variable {h : Heap R} {r1 r2 : ℕ} {F1 F2 : Forest} {φ : ℕ → ℕ}

theorem ids (tw : Twin h r1 F1 r2 F2 φ) : r2 :: F2.ids = (r1 :: F1.ids).map φ := by
  rw [tw.root, tw.forest, relabel_ids, List.map_cons]

theorem inj (tw : Twin h r1 F1 r2 F2 φ) : ∀ x ∈ r1 :: F1.ids, ∀ y ∈ r1 :: F1.ids, φ x = φ y → x = y := by
  have := tw.two.tree.nodup
  rw [tw.ids] at this
  exact fun x hx y hy e => List.inj_on_of_nodup_map this hx hy e

theorem edges (tw : Twin h r1 F1 r2 F2 φ) : F2.edges r2 = (F1.edges r1).map (relabelEdge φ) := by
  rw [tw.root, tw.forest, relabel_edges]

theorem tensors (tw : Twin h r1 F1 r2 F2 φ) : h.tensors r2 F2 = (h.tensors r1 F1).map φ := by
  unfold Heap.tensors
  rw [tw.ids, List.filter_map]
  congr 1
  exact List.filter_congr fun t ht => by simp [tw.leaf t ht]

theorem edge_mem (tw : Twin h r1 F1 r2 F2 φ) {e : ℕ × ℕ × ℕ × ℕ} (he : e ∈ F1.edges r1) : e.1 ∈ r1 :: F1.ids ∧ e.2.2.1 ∈ r1 :: F1.ids := by
  obtain ⟨h1, h2⟩ := TreeSum.edges_mem he
  exact ⟨List.mem_cons.2 h1, List.mem_cons_of_mem _ h2⟩

theorem bonds (tw : Twin h r1 F1 r2 F2 φ) : h.bonds r2 F2 = (h.bonds r1 F1).map (relabelEdge φ) := by
  unfold Heap.bonds
  rw [tw.edges, List.filter_map]
  congr 1
  exact List.filter_congr fun e he => by simp [relabelEdge, tw.leaf _ (tw.edge_mem he).2]

theorem acc (tw : Twin h r1 F1 r2 F2 φ) {t : ℕ} (ht : t ∈ r1 :: F1.ids) {k y l : ℕ} (e : h.acc t k = some (y, l)) :
    h.acc (φ t) k = some (φ y, l) ∧ y ∈ r1 :: F1.ids := by
  obtain ⟨p1, p2, p3, p4⟩ := edges_props tw.one.links.wf tw.one.links.sym tw.one.tree tw.one.leaf
  obtain ⟨q1, q2, q3, q4⟩ := edges_props tw.two.links.wf tw.two.links.sym tw.two.tree tw.two.leaf
  have hl := (tw.one.tree.mem_iff_linked tw.one.links.wf tw.one.links.sym tw.one.leaf t).1 ht
  rcases p3 t k y l hl e with m | m
  · have : relabelEdge φ (t, k, y, l) ∈ F2.edges r2 := by rw [tw.edges]; exact List.mem_map_of_mem m
    exact ⟨q1 _ this, (tw.edge_mem m).2⟩
  · have : relabelEdge φ (y, l, t, k) ∈ F2.edges r2 := by rw [tw.edges]; exact List.mem_map_of_mem m
    exact ⟨tw.two.links.sym _ _ _ _ (q1 _ this), (tw.edge_mem m).1⟩

theorem acc_none (tw : Twin h r1 F1 r2 F2 φ) {t : ℕ} (ht : t ∈ r1 :: F1.ids) {k : ℕ} (e : h.acc t k = none) : h.acc (φ t) k = none := by
  obtain ⟨p1, p2, p3, p4⟩ := edges_props tw.one.links.wf tw.one.links.sym tw.one.tree tw.one.leaf
  obtain ⟨q1, q2, q3, q4⟩ := edges_props tw.two.links.wf tw.two.links.sym tw.two.tree tw.two.leaf
  cases e2 : h.acc (φ t) k with
  | none => rfl
  | some y =>
    obtain ⟨y, l⟩ := y
    have hm : φ t ∈ r2 :: F2.ids := by rw [tw.ids]; exact List.mem_map_of_mem ht
    have hl := (tw.two.tree.mem_iff_linked tw.two.links.wf tw.two.links.sym tw.two.leaf (φ t)).1 hm
    rcases q3 (φ t) k y l hl e2 with m | m
    · rw [tw.edges] at m
      obtain ⟨⟨a, i, b, j⟩, m1, m2⟩ := List.mem_map.1 m
      simp only [relabelEdge, Prod.mk.injEq] at m2
      obtain ⟨m3, rfl, -, -⟩ := m2
      obtain rfl := tw.inj _ (tw.edge_mem m1).1 _ ht m3
      have := p1 _ m1
      rw [e] at this
      cases this
    · rw [tw.edges] at m
      obtain ⟨⟨a, i, b, j⟩, m1, m2⟩ := List.mem_map.1 m
      simp only [relabelEdge, Prod.mk.injEq] at m2
      obtain ⟨-, -, m3, rfl⟩ := m2
      obtain rfl := tw.inj _ (tw.edge_mem m1).2 _ ht m3
      have := tw.one.links.sym _ _ _ _ (p1 _ m1)
      rw [e] at this
      cases this

/-- The leaves of the second network, from those of the first. -/
theorem leafList [StarRing R] (tw : Twin h r1 F1 r2 F2 φ) : h.leafList r2 F2 = (h.leafList r1 F1).map fun p => (φ p.1, p.2) := by
  have hlen : (h.leafList r2 F2).map Prod.fst = ((h.leafList r1 F1).map fun p => (φ p.1, p.2)).map Prod.fst := by
    rw [leafList_fst, List.map_map]
    have : (Prod.fst ∘ fun p : ℕ × ℕ => (φ p.1, p.2)) = φ ∘ Prod.fst := rfl
    rw [this, ← List.map_map, leafList_fst]
    unfold TreeSum.leavesOf
    rw [show F2.ids = F1.ids.map φ by rw [tw.forest, relabel_ids], List.filter_map]
    congr 1
    exact List.filter_congr fun t ht => by simp [tw.leaf t (List.mem_cons_of_mem _ ht)]
  have hsnd : (h.leafList r2 F2).map Prod.snd = ((h.leafList r1 F1).map fun p => (φ p.1, p.2)).map Prod.snd := by
    rw [← tw.dims, List.map_map]; rfl
  have key : ∀ L L' : List (ℕ × ℕ), L.map Prod.fst = L'.map Prod.fst → L.map Prod.snd = L'.map Prod.snd → L = L' := by
    intro L
    induction L with
    | nil => intro L' e _; cases L' with
      | nil => rfl
      | cons => cases e
    | cons p L ih =>
      intro L' e1 e2
      cases L' with
      | nil => cases e1
      | cons q L' =>
        simp only [List.map_cons, List.cons.injEq] at e1 e2
        rw [ih L' e1.2 e2.2, Prod.ext e1.1 e2.1]
  exact key _ _ hlen hsnd

/-- The point given by a list of indices. -/
theorem leafPoint_relabel {S : List ℕ} (hinj : ∀ x ∈ S, ∀ y ∈ S, φ x = φ y → x = y) : ∀ (L : List (ℕ × ℕ)) (idx : List ℕ) (x1 x2 : ℕ → ℕ),
    (∀ p ∈ L, p.1 ∈ S) → (∀ y ∈ S, x1 y = x2 (φ y)) → ∀ y ∈ S,
      leafPoint L idx x1 y = leafPoint (L.map fun p => (φ p.1, p.2)) idx x2 (φ y) := by
  intro L
  induction L with
  | nil => intro idx x1 x2 _ hx y hy; cases idx <;> exact hx y hy
  | cons p L ih =>
    obtain ⟨l, d⟩ := p
    intro idx x1 x2 hL hx y hy
    cases idx with
    | nil => exact hx y hy
    | cons i is =>
      refine ih is _ _ (fun p hp => hL p (List.mem_cons_of_mem _ hp)) (fun z hz => ?_) y hy
      unfold Nd.upd
      have hl : l ∈ S := hL (l, d) (by simp)
      by_cases e : z = l
      · subst e; simp
      · rw [if_neg e, if_neg (fun q => e (hinj _ hz _ hl q)), hx z hz]

end Twin

/-- Contractions of two networks of the same form, the arrays of the first being the conjugates of those of the second. -/
theorem amp_relabel [StarRing R] {h g : Heap R} {S T : List ℕ} {φ : ℕ → ℕ} (hinj : ∀ x ∈ S, ∀ y ∈ S, φ x = φ y → x = y) (hT : ∀ t ∈ T, t ∈ S)
    (hA : ∀ t ∈ T, g.array t = (h.array (φ t)).map Nd.conj) :
    ∀ (E : List (ℕ × ℕ × ℕ × ℕ)), (∀ e ∈ E, e.1 ∈ T ∧ e.2.2.1 ∈ T) → ∀ σ1 σ2 : Assign, (∀ t ∈ T, ∀ k, σ1 (t, k) = σ2 (φ t, k)) →
      sumBonds g E (fun σ => (T.map (g.entry σ)).prod) σ1 =
        star (sumBonds h (E.map (relabelEdge φ)) (fun σ => ((T.map φ).map (h.entry σ)).prod) σ2) := by
  have hdim : ∀ t ∈ T, ∀ k, g.hdim (t, k) = h.hdim (φ t, k) := by
    intro t ht k
    unfold hdim
    simp only
    rw [hA t ht]
    cases h.array (φ t) <;> rfl
  intro E
  induction E with
  | nil =>
    intro _ σ1 σ2 hs
    simp only [List.map_nil, sumBonds]
    have : ∀ l : List ℕ, (∀ t ∈ l, t ∈ T) → (l.map (g.entry σ1)).prod = star ((l.map φ).map (h.entry σ2)).prod := by
      intro l
      induction l with
      | nil => intro _; simp
      | cons t l ih =>
        intro hl
        simp only [List.map_cons, List.prod_cons]
        rw [star_mul, ← ih fun u hu => hl u (List.mem_cons_of_mem _ hu), mul_comm]
        congr 1
        have ht := hl t (by simp)
        unfold entry
        rw [hA t ht]
        cases ha : h.array (φ t) with
        | none => simp
        | some A =>
          simp only [Option.map_some]
          rw [conj_get]
          have : (Nd.conj A).ndim = A.ndim := rfl
          rw [this]
          congr 2
          exact List.map_congr_left fun k _ => hs t ht k
    exact this T fun _ h => h
  | cons e E ih =>
    intro hE σ1 σ2 hs
    simp only [List.map_cons, sumBonds]
    obtain ⟨e1, e2⟩ := hE e (by simp)
    rw [_root_.star_sum]
    have hd : h.hdim ((relabelEdge φ e).1, (relabelEdge φ e).2.1) = g.hdim (e.1, e.2.1) := (hdim e.1 e1 e.2.1).symm
    rw [hd]
    refine Finset.sum_congr rfl fun v _ => ?_
    refine ih (fun e' he' => hE e' (List.mem_cons_of_mem _ he')) _ _ fun t ht k => ?_
    have hne : ∀ (u : ℕ) (i : ℕ), u ∈ T → (((t, k) : ℕ × ℕ) = (u, i) ↔ ((φ t, k) : ℕ × ℕ) = (φ u, i)) := by
      intro u i hu
      simp only [Prod.mk.injEq]
      exact ⟨fun q => ⟨by rw [q.1], q.2⟩, fun q => ⟨hinj _ (hT t ht) _ (hT u hu) q.1, q.2⟩⟩
    unfold setBond Nd.upd relabelEdge
    dsimp only
    simp only [hne _ _ e2, hne _ _ e1]
    split
    · rfl
    · split
      · rfl
      · exact hs t ht k


section
variable [StarRing R] {h : Heap R} {r1 r2 : ℕ} {F1 F2 : Forest} {φ : ℕ → ℕ}

theorem visitor_nonleaf {h : Heap R} {r : ℕ} {F : Forest} (ht : h.IsTTN r F) (hax : (h.node r).axis = none) {fuel : ℕ} (hf : F.depth < fuel) :
    h.visitor fuel r (h.node r).axis false = .ok (h.tensors r F) := by
  rw [hax, visitor_tree ht.tree false hf]
  unfold tensors; rw [List.filter_cons]; simp [ht.leaf]

theorem zipAux_eq (h : Heap R) (φ : ℕ → ℕ) (ts : List ℕ) :
    h.zipAux ts (ts.map φ) = ts.foldl (fun h t => h.setAux t ((h.array (φ t)).map Nd.conj)) h := by
  unfold zipAux
  induction ts generalizing h with
  | nil => rfl
  | cons t ts ih =>
    simp only [List.map_cons, List.zip_cons_cons, List.foldl_cons]
    exact ih _

/-- After `aux` of the first network has been set to the conjugates of the arrays of the second. -/
theorem zipAux_tree (tw : Twin h r1 F1 r2 F2 φ) :
    ∃ h1, h.zipAux (h.tensors r1 F1) (h.tensors r2 F2) = h1 ∧ Sim noAux h1 h ∧ (h1.braNet true).IsTTN r1 F1 ∧
      (h1.braNet true).leafList r1 F1 = h.leafList r1 F1 ∧
      ∀ x1 x2, (∀ y ∈ r1 :: F1.ids, x1 y = x2 (φ y)) → (h1.braNet true).treeAmp r1 F1 x1 = star (h.treeAmp r2 F2 x2) := by
  have ht := tw.one
  rw [tw.tensors, zipAux_eq]
  obtain ⟨k1, k2⟩ := foldl_setAux (fun h u => (h.array (φ u)).map Nd.conj) (fun h a x l => by
    unfold Heap.array setAux Heap.upd; simp only; split <;> rfl) (h.tensors r1 F1) h
  refine ⟨_, rfl, foldl_sim (fun h l => setAux_noAux h l _) _ _, ?_⟩
  set h1 := (h.tensors r1 F1).foldl (fun h u => h.setAux u ((h.array (φ u)).map Nd.conj)) h with hh1
  have sim : Sim noAux h1 h := foldl_sim (fun h l => setAux_noAux h l _) _ _
  have q2 : ∀ t, h1.access t = h.access t := sim.aux.access
  have q3 : ∀ t, h1.isLeaf t = h.isLeaf t := sim.aux.isLeaf
  have q4 : ∀ t, (h1.node t).name = (h.node t).name := sim.aux.name
  have q6 : ∀ t ∈ h.tensors r1 F1, (h1.braNet true).array t = (h.array (φ t)).map Nd.conj := fun t hm => by
    have hl := (mem_tensors.1 hm).2
    rw [braNet_array (by rw [q3]; exact hl)]
    unfold braArray
    simp only [if_true]
    rw [k2, if_pos hm]
  have hacc : ∀ t k, h1.acc t k = h.acc t k := sim.aux.acc
  have ht1 : h1.IsTTN r1 F1 := Sim2.ttn (Sim.symm sim.aux) ht
  have hT : ∀ t ∈ h.tensors r1 F1, t ∈ r1 :: F1.ids := fun t hm => (List.mem_filter.1 hm).1
  have hconj : ∀ t ∈ h.tensors r1 F1, ∀ k, (h1.braNet true).hdim (t, k) = h.hdim (φ t, k) := by
    intro t hm k
    unfold hdim
    simp only
    rw [q6 t hm]
    cases h.array (φ t) <;> rfl
  have hsrc : ∀ e ∈ F1.edges r1, e.1 ∈ h.tensors r1 F1 := by
    intro e he
    exact mem_tensors.2 ⟨(TreeSum.edges_mem he).1, Forest.edges_src_leaf ht.leaf ht.tree.leafEnd (k := e.2.1) (y := e.2.2.1) (l := e.2.2.2) he⟩
  have et : (h1.braNet true).tensors r1 F1 = h.tensors r1 F1 := by unfold tensors; simp only [braNet_isLeaf, q3]
  have eb : (h1.braNet true).bonds r1 F1 = h.bonds r1 F1 := by unfold bonds; simp only [braNet_isLeaf, q3]
  have hφ : ∀ t ∈ h.tensors r1 F1, φ t ∈ h.tensors r2 F2 := fun t hm => by rw [tw.tensors]; exact List.mem_map_of_mem hm
  refine ⟨?_, ?_, fun x1 x2 hx => ?_⟩
  · have hl' : (h1.braNet true).LinkInv := ht1.links.congr' (fun _ => rfl) rfl
    refine ⟨hl', ht1.tree.congr ht1.links.wf hl'.wf (fun _ _ => rfl) (fun _ _ => rfl), ht1.leaf, ht1.lt, ?_, ?_, ?_⟩
    · rw [et]
      intro t hm
      obtain ⟨B, hB⟩ := tw.two.full (φ t) (hφ t hm)
      refine ⟨B.conj, by rw [braNet_isLeaf, q3]; exact (mem_tensors.1 hm).2, by rw [q6 t hm, hB.array]; rfl, ?_, hB.pos, fun k => ?_⟩
      · have := hB.wf
        unfold Nd.conj; unfold Nd.Wf at this ⊢; simpa using this
      · rw [braNet_acc, hacc]
        refine Iff.trans ?_ (hB.acc k)
        cases e : h.acc t k with
        | none => simp [tw.acc_none (hT t hm) e]
        | some y => simp [(tw.acc (hT t hm) (y := y.1) (l := y.2) e).1]
    · rw [eb]
      intro e he
      obtain ⟨-, m1, m2⟩ := ht.isNet.isLink e he
      rw [hconj _ m1, hconj _ m2]
      refine tw.two.dims (relabelEdge φ e) ?_
      rw [tw.bonds]
      exact List.mem_map_of_mem he
    · rw [et]
      intro t hm
      show ∃ nm, (h1.node t).name = some nm
      rw [q4]; exact ht.names t hm
  · have e2 : (h1.braNet true).leafList r1 F1 = ((F1.edges r1).filter fun e => h.isLeaf e.2.2.1).map
        fun e => (e.2.2.1, h.hdim (φ e.1, e.2.1)) := by
      unfold leafList
      have : (h1.braNet true).isLeaf = h.isLeaf := funext q3
      rw [this]
      refine List.map_congr_left fun e he => ?_
      rw [hconj _ (hsrc e (List.mem_filter.1 he).1)]
    have e3 := tw.dims
    rw [e2]
    unfold leafList at e3 ⊢
    rw [tw.edges, List.filter_map, List.map_map, List.map_map, List.map_map] at e3
    have e4 : (F1.edges r1).filter ((fun e => h.isLeaf e.2.2.1) ∘ relabelEdge φ) = (F1.edges r1).filter fun e => h.isLeaf e.2.2.1 :=
      List.filter_congr fun e he => by simp [relabelEdge, tw.leaf _ (tw.edge_mem he).2]
    rw [e4] at e3
    refine List.map_congr_left fun e he => ?_
    have := (List.map_eq_map_iff.1 e3) e he
    simp only [Function.comp, relabelEdge] at this
    rw [this]
  · unfold treeAmp amp
    rw [et, eb, tw.tensors, tw.bonds]
    refine amp_relabel tw.inj hT q6 _ (fun e he => ?_) _ _ fun t hm k => ?_
    · obtain ⟨-, m1, m2⟩ := ht.isNet.isLink e he
      exact ⟨m1, m2⟩
    · unfold leafAssign
      simp only
      rw [braNet_acc, hacc]
      cases e : h.acc t k with
      | none => rw [tw.acc_none (hT t hm) e]
      | some y =>
        obtain ⟨y, l⟩ := y
        obtain ⟨a1, a2⟩ := tw.acc (hT t hm) e
        rw [a1]
        exact hx y a2

/-- `global_inner_product` changes caches and `aux` only. -/
theorem globalInnerProduct_sim {fuel : ℕ} {h h' : Heap R} {r : ℕ} {v : Option (Nd R)} (e : globalInnerProduct fuel h r = .ok (h', v)) :
    Sim noAux h' h := by
  unfold globalInnerProduct at e
  obtain ⟨ls, -, e⟩ := bind_eq_ok.1 e
  exact (partialEnv_core _ _ _ _ _ e).noAux.trans (foldl_sim (fun h l => setAux_noAux h l none) _ _)

/-- `global_square` changes caches and `aux` only. -/
theorem globalSquare_sim {fuel : ℕ} {h h' : Heap R} {r : ℕ} {v : Option (Nd R)} (e : globalSquare fuel h r = .ok (h', v)) :
    Sim noAux h' h := by
  unfold globalSquare at e
  obtain ⟨h1, e1, e⟩ := bind_eq_ok.1 e
  refine (globalInnerProduct_sim e).trans ?_
  unfold conjAux at e1
  obtain ⟨ts, -, e1⟩ := bind_eq_ok.1 e1
  cases e1
  exact foldl_sim (fun h l => setAux_noAux h l _) _ _

end

end Heap
