import Verif.Lemmas.FormEnv
import Verif.Spec.SplitProp

/-!
The force on the root, from mean fields that are right on all links away from the root.
-/

open scoped BigOperators
open Py

namespace Heap

variable {R : Type} [CommRing R] [StarRing R]

/-- The links of a tree, at the end away from the root. -/
def Down (r : ℕ) (F : Forest) (t k : ℕ) : Prop := ∃ e ∈ F.edges r, e.2.2 = (t, k)

/-- The branch below an edge lies in the tree. -/
theorem IsTTN.down {h : Heap R} {r : ℕ} {F : Forest} (ht : h.IsTTN r F) {a i c j : ℕ} (he : (a, i, c, j) ∈ F.edges r) {G : Forest}
    (hG : IsTree h c (some j) G) : ∀ e ∈ G.edges c, e ∈ F.edges r := by
  obtain ⟨G', g1, -, g3, g4, -⟩ := subforest ht.tree.rep ht.tree.leafEnd ht.tree.nodup he
  have : G = G' := forest_unique hG.rep g1 (hG.heads.symm.trans g3)
  subst this
  exact g4

omit [StarRing R] in
theorem IsTTN.edge_of_acc {h : Heap R} {r : ℕ} {F : Forest} (ht : h.IsTTN r F) {i c j : ℕ} (hb : h.acc r i = some (c, j)) :
    (r, i, c, j) ∈ F.edges r := by
  refine heads_edges ?_
  rw [← ht.tree.heads, mem_children ht.links.wf (by simp [ht.leaf])]
  exact ⟨hb, by simp, .inl rfl⟩

/-- A mean field at the root, as computed by `partial_env(i, proper=True)`. -/
theorem field_root {h0 h : Heap R} {r : ℕ} {F : Forest} (ht : h0.IsTTN r F) (ho : h0.OpsFit r F) {i : ℕ} (hk : h0.acc r i ≠ none)
    (hc : SameCore h h0) (hs : Sound (Down r F) h0 h false) {fuel : ℕ} (hf : F.ids.length < fuel) :
    ∃ h' ans E, partialEnvProper fuel h r i false = .ok (h', ans) ∧ SameCore h' h0 ∧ Sound (Down r F) h0 h' false ∧
      IsField h0 r i E ∧ Means ans (h0.hdim (r, i)) E := by
  obtain ⟨⟨c, j⟩, hcj⟩ := Option.ne_none_iff_exists'.1 hk
  have hedge := ht.edge_of_acc hcj
  have hm : r ∈ h0.tensors r F := mem_tensors.2 ⟨.inl rfl, ht.leaf⟩
  have hpe : partialEnvProper fuel h r i false = partialEnv fuel h c (some j) false := by
    unfold partialEnvProper
    rw [hc.isLeaf, ht.leaf]
    simp only [Bool.false_eq_true, if_false]
    have : (h.access r).get! i = .ok (c, j) := by
      rw [hc.access]
      unfold Dict.get!
      have h1 : Dict.get? (h0.access r) i = some (c, j) := hcj
      rw [h1]
    rw [this]
    rfl
  cases hl : h0.isLeaf c with
  | true =>
    have hfit : OpFits (h0.array c) (h0.hdim (r, i)) (h0.hdim (r, i)) := ho _ hedge hl
    refine ⟨h, h0.array c, opEntry (h0.array c), ?_, hc, hs, ⟨c, j, hcj, .inl ⟨hl, rfl⟩⟩, means_opEntry hfit⟩
    rw [hpe]
    obtain ⟨f, rfl⟩ : ∃ f, fuel = f + 1 := ⟨fuel - 1, by omega⟩
    rw [partialEnv_succ, hc.isLeaf, hl, if_pos rfl, hc.array]
    simp
  | false =>
    have hmc : c ∈ h0.tensors r F := mem_tensors.2 ⟨.inr (TreeSum.edges_mem hedge).2, hl⟩
    have hback : h0.acc c j = some (r, i) := ht.links.sym _ _ _ _ hcj
    obtain ⟨h', ans, G, e1, e2, e3, e4, e5⟩ := call_ok ht ho hmc (by rw [hback]; simp) ⟨_, hedge, rfl⟩
      (fun G hG e he => ⟨e, ht.down hedge hG e he, rfl⟩) hc hs hf
    refine ⟨h', ans, h0.branchEnv c j G, hpe.trans e1, e2, e3, ⟨c, j, hcj, .inr ⟨hl, G, e4, rfl⟩⟩, ?_⟩
    rw [ht.link_dims hm hmc hcj]
    exact e5

end Heap

namespace ML

open Heap

variable {T R : Type} [Zero T] [Field R] [StarRing R]

/-- Only mean fields of term `n` at the root were added, and they are right. -/
def EnvStep (n r : ℕ) (h0 : Heap R) (env env' : Dict (ℕ × ℕ × ℕ) (Option (Nd R))) : Prop :=
  ∀ k v, env'.get? k = some v → env.get? k = some v ∨ ∃ i, k = (n, r, i) ∧ FieldIs h0 r i v

theorem EnvStep.rfl' (n r : ℕ) (h0 : Heap R) (env : Dict (ℕ × ℕ × ℕ) (Option (Nd R))) : EnvStep n r h0 env env := fun _ _ h => .inl h

theorem EnvStep.trans {n r : ℕ} {h0 : Heap R} {a b c : Dict (ℕ × ℕ × ℕ) (Option (Nd R))} (h : EnvStep n r h0 a b)
    (h' : EnvStep n r h0 b c) : EnvStep n r h0 a c := by
  intro k v hv
  rcases h' k v hv with q | q
  · exact h k v q
  · exact .inr q

theorem meanField_root {h0 : Heap R} {r : ℕ} {F : Forest} (ht : h0.IsTTN r F) (ho : h0.OpsFit r F) {i : ℕ} (hk : h0.acc r i ≠ none)
    {s : Obj T R} (hc : SameCore s.heap h0) (hs : Sound (Down r F) h0 s.heap false) {n : ℕ}
    (he : ∀ v, s.env.get? (n, r, i) = some v → FieldIs h0 r i v) {fuel : ℕ} (hf : F.ids.length < fuel) (cache : Bool) :
    ∃ h' env' ans E, meanField fuel cache n r i s = .ok ({ s with heap := h', env := env' }, ans) ∧ SameCore h' h0 ∧
      Sound (Down r F) h0 h' false ∧ EnvStep n r h0 s.env env' ∧ IsField h0 r i E ∧ Means ans (h0.hdim (r, i)) E := by
  unfold meanField
  cases hq : s.env.get? (n, r, i) with
  | some v =>
    obtain ⟨E, e1, e2⟩ := he v hq
    exact ⟨s.heap, s.env, v, E, rfl, hc, hs, EnvStep.rfl' _ _ _ _, e1, e2⟩
  | none =>
    obtain ⟨h', ans, E, e1, e2, e3, e4, e5⟩ := field_root ht ho hk hc hs hf
    refine ⟨h', if cache then s.env.set (n, r, i) ans else s.env, ans, E, by simp only [e1, ok_bind]; rfl, e2, e3, ?_, e4, e5⟩
    intro k v hv
    cases cache with
    | false => exact .inl hv
    | true =>
      simp only [if_true, Dict.get?_set] at hv
      split at hv
      · rename_i q
        cases hv
        exact .inr ⟨i, q.symm, E, e4, e5⟩
      · exact .inl hv

theorem applyFields_root {h0 : Heap R} {r : ℕ} {F : Forest} (ht : h0.IsTTN r F) (ho : h0.OpsFit r F) {n : ℕ} {fuel : ℕ}
    (hf : F.ids.length < fuel) (cache : Bool) (is : List ℕ) (hk : ∀ i ∈ is, h0.acc r i ≠ none) (s : Obj T R) (hc : SameCore s.heap h0)
    (hs : Sound (Down r F) h0 s.heap false) (he : ∀ i v, h0.acc r i ≠ none → s.env.get? (n, r, i) = some v → FieldIs h0 r i v) (a : Nd R) :
    ∃ (h' : Heap R) (env' : Dict (ℕ × ℕ × ℕ) (Option (Nd R))) (env : List (ℕ × Option (Nd R))),
      (∀ T, env.foldlM (fun a p => Tensor.partialProduct a p.1 p.2) a = .ok T →
        applyFields fuel cache n r is (s, a) = .ok ({ s with heap := h', env := env' }, T)) ∧
      SameCore h' h0 ∧ Sound (Down r F) h0 h' false ∧ EnvStep n r h0 s.env env' ∧
      List.Forall₂ (fun i p => p.1 = i ∧ ∃ E, Means p.2 (h0.hdim (r, i)) E ∧ IsField h0 r i E) is env := by
  induction is generalizing s a with
  | nil => exact ⟨s.heap, s.env, [], fun T h => by cases h; rfl, hc, hs, EnvStep.rfl' _ _ _ _, List.Forall₂.nil⟩
  | cons i is ih =>
    obtain ⟨h1, env1, ans, E, e1, e2, e3, e4, e5, e6⟩ := meanField_root (s := s) ht ho (hk i (by simp)) hc hs
      (fun v => he i v (hk i (by simp))) hf cache
    have he1 : ∀ i v, h0.acc r i ≠ none → env1.get? (n, r, i) = some v → FieldIs h0 r i v := by
      intro j v hj hv
      rcases e4 _ v hv with q | ⟨i', q1, q2⟩
      · exact he j v hj q
      · cases q1; exact q2
    obtain ⟨a', ha'⟩ : ∃ a', ∀ T, Tensor.partialProduct a i ans = .ok T → T = a' := by
      cases Tensor.partialProduct a i ans with
      | error _ => exact ⟨a, fun T h => by cases h⟩
      | ok b => exact ⟨b, fun T h => by cases h; rfl⟩
    obtain ⟨h2, env2, env, g1, g2, g3, g4, g5⟩ := ih (fun j hj => hk j (by simp [hj])) { s with heap := h1, env := env1 } e2 e3 he1 a'
    refine ⟨h2, env2, (i, ans) :: env, ?_, g2, g3, e4.trans g4, List.Forall₂.cons ⟨rfl, E, e6, e5⟩ g5⟩
    intro X hX
    rw [List.foldlM_cons] at hX
    cases hp : Tensor.partialProduct a i ans with
    | error er => rw [hp] at hX; cases hX
    | ok b =>
      obtain rfl := ha' b hp
      rw [hp] at hX
      have := g1 X hX
      unfold applyFields at this ⊢
      rw [List.foldlM_cons]
      simp only [e1, ok_bind, hp]
      exact this

/-- What `_single_eom` returns at the root. -/
theorem singleEom_root {h0 : Heap R} {r : ℕ} {F : Forest} (ht : h0.IsTTN r F) (ho : h0.OpsFit r F) (hax : (h0.node r).axis = none)
    {n : ℕ} {fuel : ℕ} (hf : F.ids.length < fuel) (cache : Bool) {s : Obj T R} (hc : SameCore s.heap h0)
    (hs : Sound (Down r F) h0 s.heap false) (he : ∀ i v, h0.acc r i ≠ none → s.env.get? (n, r, i) = some v → FieldIs h0 r i v) {A : Nd R}
    (hA : h0.Full r A) :
    ∃ h' env' D E, singleEom fuel cache [] r n s = .ok ({ s with heap := h', env := env' }, D) ∧ SameCore h' h0 ∧
      EnvStep n r h0 s.env env' ∧ D.Wf ∧ D.shape = A.shape ∧ (∀ i < A.ndim, IsField h0 r i (E i)) ∧
      ∀ w, Valid A.shape w → D.get w = fieldSum A E w := by
  have hord : s.heap.order r = A.ndim := by
    rw [← hA.order ht.links.wf]
    unfold Heap.order
    rw [hc.isLeaf, hc.access]
  obtain ⟨h', env', env, g1, g2, g3, g4, g5⟩ := applyFields_root ht ho hf cache (List.range A.ndim)
    (fun i hi => (hA.acc i).2 (List.mem_range.1 hi)) s hc hs he A
  obtain ⟨E, hE⟩ := forall₂_choose (γ := ℕ → ℕ → R) (fun _ _ => 0) (P := fun i e E => Means e (h0.hdim (r, i)) E ∧
    IsField h0 r i E) List.nodup_range g5
  have hE1 : List.Forall₂ (fun i p => p.1 = i ∧ Means p.2 (A.shape.getD i 1) (E i)) (List.range A.ndim) env :=
    hE.imp fun i p q => ⟨q.1, by rw [← hA.hdim_eq]; exact q.2.1⟩
  obtain ⟨X, x1, x2, x3, x4⟩ := TreeSum.fold_full hA.wf hE1
  have hfields : ∀ i < A.ndim, IsField h0 r i (E i) := by
    have : ∀ {l : List ℕ} {env : List (ℕ × Option (Nd R))}, List.Forall₂ (fun i p => p.1 = i ∧ Means p.2 (h0.hdim (r, i)) (E i) ∧
        IsField h0 r i (E i)) l env → ∀ i ∈ l, IsField h0 r i (E i) := by
      intro l env q
      induction q with
      | nil => intro i hi; cases hi
      | cons q1 _ ih =>
        intro j hj
        rcases List.mem_cons.1 hj with rfl | hj
        · exact q1.2.2
        · exact ih j hj
    exact fun i hi => this hE i (List.mem_range.2 hi)
  refine ⟨h', env', X, E, ?_, g2, g4, x2, x3, hfields, fun w hw => x4 w hw⟩
  unfold singleEom
  rw [(hc.array r).trans hA.array]
  simp only [hord, g1 X x1, ok_bind, show (h'.node r).axis = none from (g2.axis r).trans hax]
  rfl

end ML
