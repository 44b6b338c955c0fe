import Verif.Lemmas.Autocomplete4
import Verif.Props.C03
import Mathlib.Analysis.Real.Sqrt
import Mathlib.LinearAlgebra.Matrix.Rank
import Mathlib.Data.Real.Star

/-!
C23: `autocomplete` gives every tensor without an array an array of the requested shape, whose slices towards the root are
different unit vectors. If no tensor had an array, the network then represents the product state with every leaf index 0.

`sqrt` stands for `np.sqrt`; all that is assumed of it is `sqrt 1 = 1` and `sqrt 0 = 0`. `rank` stands for
`np.linalg.matrix_rank`; all that is assumed of it is that the identity matrix of size `n` has rank `n`.
-/

open scoped BigOperators
open Py

namespace Heap

variable {R : Type} [Field R] [StarRing R]
variable {h : Heap R} {r : ℕ} {F : Forest} {dims : Dict (ℕ × ℕ × ℕ × ℕ) ℕ} {want : ℕ × ℕ → ℕ}

private theorem forM_all_ok {α : Type} (f : α → Res Unit) (l : List α) (hf : ∀ x ∈ l, f x = .ok ()) : l.forM f = .ok () := by
  induction l with
  | nil => rfl
  | cons x xs ih =>
    change (f x >>= fun _ => xs.forM f) = _
    rw [hf x (by simp), ok_bind]
    exact ih fun y hy => hf y (by simp [hy])

theorem Bare.run {sqrt : R → R} {rank : Nd R → ℕ} (hb : Bare h r F dims want) (s1 : sqrt 1 = 1) (s0 : sqrt 0 = 0)
    (hrank : ∀ n, rank (identity n) = n) {fuel : ℕ} (hf : F.depth < fuel) :
    ∃ h', autocomplete sqrt rank fuel dims h r = .ok h' ∧ Bare.Filled h h' r F want := by
  have hts : (if false || !(h.isLeaf r) then [r] else []) ++ F.ids.filter (fun t => false || !(h.isLeaf t)) = h.tensors r F := by
    unfold Heap.tensors
    simp [hb.leaf]
  have hnd : (h.tensors r F).Nodup := by
    unfold Heap.tensors
    exact hb.tree.nodup.filter _
  obtain ⟨h', p1, p2, p3, p4⟩ := hb.loop_ok s1 s0 hrank (h.tensors r F) hnd (fun t ht => ht) (h := h) fun t _ => rfl
  have hfill : Bare.Filled h h' r F want := by
    refine ⟨⟨p2, fun u => ?_, p3, fun u hu => ?_, fun t ht => ?_⟩, fun t ht => (p4 t ht).2.2⟩
    · by_cases hu : u ∈ h.tensors r F
      · exact (p4 u hu).1
      · rw [p3 u hu]
    · by_cases hm : u ∈ h.tensors r F
      · exact (p4 u hm).2.1 hu
      · exact p3 u hm
    · cases ha : h.array t with
      | none =>
        obtain ⟨A, a1, a2, a3, -⟩ := (p4 t ht).2.2 ha
        exact ⟨A, a1, a2, a3⟩
      | some A =>
        have := (p4 t ht).2.1 (by rw [ha]; simp)
        exact ⟨A, by unfold array at ha ⊢; rw [this]; exact ha, hb.given t ht A ha⟩
  refine ⟨h', ?_, hfill⟩
  unfold autocomplete
  rw [hb.rooted.1, visitor_tree hb.tree false hf, hts, ok_bind, p1, ok_bind, hfill.axis, hb.rooted.1,
    visitor_tree (hfill.tree hb) true hf, ok_bind, forM_all_ok]
  · rfl
  · intro t ht
    rw [C03_check_completness]
    exact hfill.complete hb (by simpa using ht)

/-- `autocomplete` returns normally. It changes no link, axis, name or class, and no array that is already there. The network
that it leaves is complete: every tensor has an array of the requested shape. The slices towards the root of every array
that it made are different unit vectors, so that the tensor is normalised towards the root; and the array that it made for
the root has norm one. -/
theorem C23_autocomplete {sqrt : R → R} {rank : Nd R → ℕ} (hb : Bare h r F dims want) (s1 : sqrt 1 = 1) (s0 : sqrt 0 = 0)
    (hrank : ∀ n, rank (identity n) = n) {fuel : ℕ} (hf : F.depth < fuel) :
    ∃ h', autocomplete sqrt rank fuel dims h r = .ok h' ∧ h'.next = h.next ∧
      (∀ u, h'.access u = h.access u ∧ (h'.node u).axis = (h.node u).axis ∧ (h'.node u).name = (h.node u).name ∧
        h'.isLeaf u = h.isLeaf u) ∧
      (∀ u, h.array u ≠ none → h'.array u = h.array u) ∧ (∀ u, u ∉ h.tensors r F → h'.array u = h.array u) ∧
      h'.IsTTN r F ∧ h'.Rooted r F ∧ (∀ u, u = r ∨ u ∈ F.ids → h'.Complete u true) ∧
      (∀ t ∈ h.tensors r F, ∃ A, h'.array t = some A ∧ A.shape = (List.range (h.order t)).map fun i => want (t, i)) ∧
      (∀ e ∈ h.bonds r F, h.array e.2.2.1 = none →
        h'.Canonical e.2.2.1 e.2.2.2 ∧ ∃ A, h'.array e.2.2.1 = some A ∧ UnitSlices A e.2.2.2) ∧
      (h.array r = none → ∃ A, h'.array r = some A ∧
        ∀ p, Valid A.shape p → A.get p = if ∀ i ∈ p, i = 0 then 1 else 0) := by
  obtain ⟨h', h1, f⟩ := hb.run s1 s0 hrank hf
  refine ⟨h', h1, f.next, fun u => ⟨f.access u, f.axis u, f.name u, f.isLeaf u⟩, fun u hu => ?_, fun u hu => ?_, f.ttn hb,
    f.rooted hb, fun u hu => f.complete hb hu, fun t ht => ?_, fun e he hn => ⟨f.canonical hb he hn, f.unitSlices hb he hn⟩,
    fun hn => ?_⟩
  · unfold array; rw [f.kept u hu]
  · unfold array; rw [f.other u hu]
  · obtain ⟨A, a1, -, a3⟩ := f.fit t ht
    exact ⟨A, a1, a3⟩
  · obtain ⟨A, a1, a2, a3, a4⟩ := f.done r (mem_tensors.2 ⟨.inl rfl, hb.leaf⟩) hn
    rw [hb.rooted.1] at a4
    simp only at a4
    exact ⟨A, a1, fun p hp => by rw [a4 p hp, if_congr (ravel_eq_zero hp) rfl rfl]⟩

/-- If no tensor of the network has an array, then after `autocomplete` the network is in canonical form, and the state that
it represents is the product state in which every leaf has index 0. -/
theorem C23_product_state {sqrt : R → R} {rank : Nd R → ℕ} (hb : Bare h r F dims want) (s1 : sqrt 1 = 1) (s0 : sqrt 0 = 0)
    (hrank : ∀ n, rank (identity n) = n) {fuel : ℕ} (hf : F.depth < fuel) (hnone : ∀ t ∈ h.tensors r F, h.array t = none) :
    ∃ h', autocomplete sqrt rank fuel dims h r = .ok h' ∧ h'.IsTTN r F ∧ h'.CanonicalTree r F ∧
      ∀ x : ℕ → ℕ, (∀ e ∈ F.edges r, h.isLeaf e.2.2.1 = true → x e.2.2.1 < want (e.1, e.2.1)) →
        h'.treeAmp r F x = if ∀ l ∈ F.ids.filter fun t => h.isLeaf t, x l = 0 then 1 else 0 := by
  obtain ⟨h', h1, f⟩ := hb.run s1 s0 hrank hf
  refine ⟨h', h1, f.ttn hb, fun e he => ?_, fun x hx => ?_⟩
  · rw [f.bonds] at he
    have := mem_bonds.1 he
    exact f.canonical hb he (hnone _ (mem_tensors.2 ⟨.inr (Forest.edges_tgt (x := e.1) (k := e.2.1) (l := e.2.2.2) this.1), this.2⟩))
  · refine f.amp hb hnone fun p hp => ?_
    unfold leafList at hp
    obtain ⟨e, he, rfl⟩ := List.mem_map.1 hp
    obtain ⟨e1, e2⟩ := List.mem_filter.1 he
    rw [f.isLeaf] at e2
    have hs := Forest.edges_src (k := e.2.1) (y := e.2.2.1) (l := e.2.2.2) e1
    have hsl := Forest.edges_src_leaf hb.leaf hb.tree.leafEnd (k := e.2.1) (y := e.2.2.1) (l := e.2.2.2) e1
    have hlink := (edges_props hb.links.wf hb.links.sym hb.tree hb.leaf).1 _ e1
    simp only
    rw [f.hdim (mem_tensors.2 ⟨hs, hsl⟩) ((hb.complete _ hs _).1 (by rw [hlink]; simp))]
    exact hx e e1 e2

/-! A network that meets the hypotheses: a root with one leaf and one tensor, which has two leaves. The dimensions of the
leaves are 2, 2 and `d`, and that of the bond is 4. -/

/-- The network, as a program builds it: four `Tensor`s and `Leaf`s without arrays, then the links. -/
def exBare : Heap ℝ :=
  let h := (empty.alloc (Node.tensor (some ['a']) none none)).1
  let h := (h.alloc (Node.tensor (some ['b']) none (some 1))).1
  let h := (h.alloc (Node.leaf (some ['x']))).1
  let h := (h.alloc (Node.leaf (some ['y']))).1
  let h := (h.alloc (Node.leaf (some ['z']))).1
  (((h.link 0 0 1 1).link 0 1 2 0).link 1 0 3 0).link 1 2 4 0

def exBareForest : Forest := .cons 0 1 1 (.cons 0 0 3 .nil (.cons 2 0 4 .nil .nil)) (.cons 1 0 2 .nil .nil)

def exBareDims (d : ℕ) : Dict (ℕ × ℕ × ℕ × ℕ) ℕ := [((0, 0, 1, 1), 4), ((0, 1, 2, 0), 2), ((1, 0, 3, 0), 2), ((1, 2, 4, 0), d)]

def exBareWant (d : ℕ) : ℕ × ℕ → ℕ
  | (0, 0) => 4
  | (0, 1) => 2
  | (1, 0) => 2
  | (1, 1) => 4
  | (1, 2) => d
  | _ => 1

theorem exBare_reachable : Reachable exBare := by
  unfold exBare
  refine .link (.link (.link (.link (.new _ (.new _ (.new _ (.new _ (.new _ .empty rfl) rfl) rfl) rfl) rfl) ?_ ?_ ?_ ?_)
    ?_ ?_ ?_ ?_) ?_ ?_ ?_ ?_) ?_ ?_ ?_ ?_ <;> decide

theorem exBare_ok {d : ℕ} (hd : d = 2 ∨ d = 3) : Bare exBare 0 exBareForest (exBareDims d) (exBareWant d) where
  links := linkInv_of_reachable exBare_reachable
  tree := ⟨by decide, by unfold exBareForest; simp only [Forest.RepIn]; decide, by decide, by unfold exBareForest; simp only [Forest.LeafEnd]; decide⟩
  leaf := rfl
  lt := by decide
  rooted := by unfold Rooted; decide
  names t ht := by
    have : exBare.tensors 0 exBareForest = [0, 1] := by decide
    rw [this] at ht
    simp only [List.mem_cons, List.not_mem_nil, or_false] at ht
    rcases ht with rfl | rfl
    · exact ⟨['a'], rfl⟩
    · exact ⟨['b'], rfl⟩
  complete t ht k := by
    have e : exBareForest.ids = [1, 3, 4, 2] := by decide
    rw [e] at ht
    rw [acc_def, ne_eq, Dict.get?_eq_none_iff, not_not]
    simp only [List.mem_cons, List.not_mem_nil, or_false] at ht
    rcases ht with rfl | rfl | rfl | rfl | rfl
    · change k ∈ [0, 1] ↔ k < 2
      simp; omega
    · change k ∈ [1, 0, 2] ↔ k < 3
      simp; omega
    all_goals
      change k ∈ [0] ↔ k < 1
      simp
  below := by decide
  given t ht A hA := by
    have : ∀ t ∈ exBare.tensors 0 exBareForest, exBare.array t = none := by decide
    rw [this t ht] at hA; cases hA
  asked := by rcases hd with rfl | rfl <;> decide
  ends := by rcases hd with rfl | rfl <;> decide
  fits := by rcases hd with rfl | rfl <;> decide
  ops e he hl M hM := by
    have : ∀ e ∈ exBareForest.edges 0, exBare.array e.2.2.1 = none := by decide
    rw [this e he] at hM; cases hM

/-- The rank of a square matrix given as an array. -/
noncomputable def matrixRank (A : Nd ℝ) : ℕ :=
  (Matrix.of fun i j : Fin (A.shape.getD 0 0) => A.get [i.1, j.1]).rank

theorem matrixRank_identity (n : ℕ) : matrixRank (identity n) = n := by
  have : (Matrix.of fun i j : Fin n => (identity n : Nd ℝ).get [i.1, j.1]) = 1 := by
    ext i j
    rw [Matrix.of_apply, identity, Nd.get_ofFn _ (Heap.valid2 i.2 j.2)]
    simp [Matrix.one_apply, Fin.ext_iff]
  unfold matrixRank
  have h2 : (identity n : Nd ℝ).shape.getD 0 0 = n := rfl
  change (Matrix.of fun i j : Fin n => (identity n : Nd ℝ).get [i.1, j.1]).rank = n
  rw [this, Matrix.rank_one, Fintype.card_fin]

example : ∃ h', autocomplete Real.sqrt matrixRank 5 (exBareDims 3) exBare 0 = .ok h' ∧ h'.IsTTN 0 exBareForest ∧
    h'.CanonicalTree 0 exBareForest ∧ ∀ x : ℕ → ℕ, x 2 < 2 → x 3 < 2 → x 4 < 3 →
      h'.treeAmp 0 exBareForest x = if x 2 = 0 ∧ x 3 = 0 ∧ x 4 = 0 then 1 else 0 := by
  obtain ⟨h', a, b, c, d⟩ := C23_product_state (exBare_ok (.inr rfl)) Real.sqrt_one Real.sqrt_zero matrixRank_identity (fuel := 5) (by decide)
    (by decide)
  refine ⟨h', a, b, c, fun x x2 x3 x4 => ?_⟩
  rw [d x]
  · refine if_congr ?_ rfl rfl
    have : (exBareForest.ids.filter fun t => exBare.isLeaf t) = [3, 4, 2] := by decide
    rw [this]; simp; tauto
  · have : exBareForest.edges 0 = [(0, 0, 1, 1), (1, 0, 3, 0), (1, 2, 4, 0), (0, 1, 2, 0)] := by decide
    rw [this]
    intro e he
    simp only [List.mem_cons, List.not_mem_nil, or_false] at he
    rcases he with rfl | rfl | rfl | rfl
    · intro q; exact absurd q (by decide)
    all_goals intro _; assumption

end Heap
