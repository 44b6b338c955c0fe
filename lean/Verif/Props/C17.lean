import Verif.Lemmas.Contraction
import Verif.Lemmas.Dirac
import Verif.Props.C10

/-!
C17: `contraction` returns the represented state.
-/

open scoped BigOperators
open Py

namespace Heap

variable {R : Type} [CommRing R] [StarRing R]

open TreeSum (leavesOf)

/-- `root.contraction()` terminates (within as many rounds as there are tensors and leaves) and returns an array with
one axis per leaf, in the order of `root.leaves()`, whose entry at the leaf indices `x` is the amplitude of the state. -/
theorem C17_contraction {h : Heap R} {r : ℕ} {F : Forest} (ht : h.IsTTN r F) (hax : (h.node r).axis = none)
    {fuel : ℕ} (hf : F.ids.length < fuel) :
    ∃ h' A ls, h.contraction fuel r = .ok (h', some A) ∧ h.leaves fuel r = .ok ls ∧
      ls = (h.leafList r F).map Prod.fst ∧ A.Wf ∧ A.shape = (h.leafList r F).map Prod.snd ∧
      ∀ x : ℕ → ℕ, (∀ p ∈ h.leafList r F, x p.1 < p.2) → A.get (ls.map x) = h.treeAmp r F x := by
  obtain ⟨h', F', e, k, hl⟩ := contractWhile_ok fuel h F ht hax hf
  obtain ⟨A, a1, a2, a3, a4⟩ := single_state k.ttn hl
  refine ⟨h', A, _, ?_, leaves_tree ht hax (lt_of_le_of_lt (Forest.depth_le F) hf), leafList_fst.symm, a2,
    by rw [a3, k.leaves], fun x hx => ?_⟩
  · unfold contraction
    simp only [Bool.false_eq_true, if_false, e]
    rw [← a1]; rfl
  · rw [← leafList_fst (r := r), ← k.leaves, a4]
    exact (k.amp x (ht.inRange hx)).2

/-- What `root.contraction()` leaves behind is a network with the single tensor `root`, the same leaves in the same order,
and the same state; contracting it again returns the same array. -/
theorem C17_after {h h' : Heap R} {r : ℕ} {F : Forest} (ht : h.IsTTN r F) (hax : (h.node r).axis = none)
    {fuel : ℕ} {A : Option (Nd R)} (hf : F.ids.length < fuel) (e : h.contraction fuel r = .ok (h', A)) :
    ∃ F', h'.IsTTN r F' ∧ h'.tensors r F' = [r] ∧ h'.leafList r F' = h.leafList r F ∧
      (∀ x : ℕ → ℕ, (∀ p ∈ h.leafList r F, x p.1 < p.2) → h'.treeAmp r F' x = h.treeAmp r F x) ∧
      ∀ fuel', h'.contraction (fuel' + 1) r = .ok (h', A) := by
  obtain ⟨h1, F', e1, k, hl⟩ := contractWhile_ok fuel h F ht hax hf
  unfold contraction at e
  simp only [Bool.false_eq_true, if_false, e1, bind, Except.bind, pure, Except.pure] at e
  cases e
  refine ⟨F', k.ttn, ?_, k.leaves, fun x hx => (k.amp x (ht.inRange hx)).2, fun fuel' => ?_⟩
  · have key : ∀ G : Forest, G.LeafEnd h' → (∀ x ∈ G.heads, h'.isLeaf x.2.1 = true) → ∀ c ∈ G.ids, h'.isLeaf c = true := by
      intro G
      induction G with
      | nil => intros; simp_all [Forest.ids]
      | cons i j id sub rest _ ih =>
        intro hle hh c hc
        obtain ⟨a1, -, a3⟩ := hle
        have hid := hh (i, id, j) (by simp [Forest.heads])
        have hs := a1 hid
        subst hs
        simp only [Forest.ids, List.append_nil, List.cons_append, List.nil_append, List.mem_cons] at hc
        rcases hc with rfl | hc
        · exact hid
        · exact ih a3 (fun x hx => hh x (by simp [Forest.heads, hx])) c hc
    unfold tensors
    rw [List.filter_cons_of_pos (by simp [k.ttn.leaf]), List.filter_eq_nil_iff.2]
    intro c hc
    simp [key F' k.ttn.tree.leafEnd hl c hc]
  · have hc : h'.childrenDflt r false = [] := by
      rw [List.eq_nil_iff_forall_not_mem]
      rintro ⟨i, t, j⟩ q
      unfold childrenDflt at q
      rw [k.axis, mem_children k.ttn.links.wf (by simp [k.ttn.leaf])] at q
      have hm : (i, t, j) ∈ F'.heads := by
        rw [← k.ttn.tree.heads, mem_children k.ttn.links.wf (by simp [k.ttn.leaf])]
        exact ⟨q.1, by simp, .inl rfl⟩
      have := hl _ hm
      rcases q.2.2 with w | w
      · cases w
      · simp only at this
        rw [w] at this; cases this
    unfold contraction contractWhile
    simp only [Bool.false_eq_true, if_false, hc, List.isEmpty_nil, if_true]
    rfl

/-- `contraction(dry_run=True)` is not implemented. -/
theorem C17_dry_run (h : Heap R) (fuel r : ℕ) : h.contraction fuel r true = .error .notImplementedError := rfl

/-! ### The hypotheses are satisfiable -/

example : ∃ h' A ls, exTwo.contraction 5 0 = .ok (h', some A) ∧ exTwo.leaves 5 0 = .ok ls ∧
    ls = (exTwo.leafList 0 exTwoForest).map Prod.fst ∧ A.Wf ∧ A.shape = (exTwo.leafList 0 exTwoForest).map Prod.snd ∧
    ∀ x : ℕ → ℕ, (∀ p ∈ exTwo.leafList 0 exTwoForest, x p.1 < p.2) →
      A.get (ls.map x) = exTwo.treeAmp 0 exTwoForest x :=
  C17_contraction exTwo_ttn exTwo_rooted.1 (by decide)

example : exTwo.leafList 0 exTwoForest = [(3, 2), (2, 2)] ∧
    (exTwo.contraction 5 0).toOption.bind (fun p => p.2) = some ⟨[2, 2], [23, 34, 31, 46]⟩ := by decide +kernel

end Heap
