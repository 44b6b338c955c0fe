import Verif.Lemmas.Heap
import Verif.Props.C01

/-!
C03: `check_completness` accepts exactly the complete tensors.
-/

open Py

namespace Heap

variable {R : Type}

/-- Specification: the two ends of a link have equal dimensions; a Leaf without array agrees with
everything. -/
def DimsAgree (h : Heap R) (a i b j : ℕ) : Prop :=
  (h.isLeaf a = true ∧ h.array a = none) ∨ (h.isLeaf b = true ∧ h.array b = none) ∨
    ∃ x y d, h.array a = some x ∧ h.array b = some y ∧ x.shape[i]? = some d ∧ y.shape[j]? = some d

/-- Specification: the linked axes of `a` are exactly `0 .. order - 1`, every link is mutual and,
if asked for, the dimensions agree. -/
def Complete (h : Heap R) (a : ℕ) (strict : Bool) : Prop :=
  (∀ i, h.acc a i ≠ none ↔ i < h.order a) ∧
    ∀ i b j, h.acc a i = some (b, j) →
      h.acc b j = some (a, i) ∧ (strict = true → h.DimsAgree a i b j)

private theorem checkLinkage_iff (h : Heap R) (a i : ℕ) (strict : Bool) :
    h.checkLinkage a i strict = .ok () ↔
      ∃ b j, h.acc a i = some (b, j) ∧ h.acc b j = some (a, i) ∧
        (strict = true → h.DimsAgree a i b j) := by
  unfold checkLinkage Dict.get!
  simp only [acc_def]
  cases h1 : Dict.get? (h.access a) i with
  | none => simp
  | some x =>
    obtain ⟨b, j⟩ := x
    simp only [ok_bind, Option.some.injEq, Prod.mk.injEq]
    cases h2 : Dict.get? (h.access b) j with
    | none =>
      simp only [error_bind, reduceCtorEq, false_iff, not_exists, not_and]
      rintro b' j' ⟨rfl, rfl⟩ h3
      rw [h2] at h3; cases h3
    | some y =>
      have key : ∀ P : ℕ → ℕ → Prop, (∃ b' j', (b = b' ∧ j = j') ∧ P b' j') ↔ P b j := by
        intro P; constructor
        · rintro ⟨_, _, ⟨rfl, rfl⟩, h⟩; exact h
        · intro h; exact ⟨_, _, ⟨rfl, rfl⟩, h⟩
      simp only [ok_bind]
      rw [key (fun b' j' => Dict.get? (h.access b') j' = some (a, i) ∧
        (strict = true → h.DimsAgree a i b' j')), h2]
      by_cases h3 : y = (a, i)
      · subst h3
        cases strict with
        | false => simp
        | true =>
          simp only [decide_true, Bool.and_true, if_true, true_and, forall_true_left]
          unfold DimsAgree shapeAt
          cases hla : h.isLeaf a <;> cases hlb : h.isLeaf b <;> cases ha : h.array a <;>
            cases hb : h.array b <;> simp
          all_goals
            rename_i X Y
            cases hx : X.shape[i]? <;> cases hy : Y.shape[j]? <;> simp [eq_comm]
      · simp [h3]

private theorem forM_ok_iff {α : Type} (f : α → Res Unit) (l : List α) :
    l.forM f = .ok () ↔ ∀ x ∈ l, f x = .ok () := by
  induction l with
  | nil => simp
  | cons x xs ih =>
    simp only [List.forM_cons, List.mem_cons, forall_eq_or_imp, ← ih]
    cases hx : f x with
    | error e => simp [hx]
    | ok u => simp [hx]

/-- `check_completness` returns normally exactly on complete tensors, in both modes (and so
raises on every other tensor). -/
theorem C03_check_completness (h : Heap R) (a : ℕ) (strict : Bool) :
    h.checkCompletness a strict = .ok () ↔ h.Complete a strict := by
  have hk : ∀ i, i ∈ Dict.keys (h.access a) ↔ h.acc a i ≠ none := by
    intro i
    rw [acc_def, ne_eq, Dict.get?_eq_none_iff, not_not]
  have hs : ((∀ i ∈ Dict.keys (h.access a), i < h.order a) ∧
      (∀ i ∈ List.range (h.order a), i ∈ Dict.keys (h.access a))) ↔
      ∀ i, h.acc a i ≠ none ↔ i < h.order a := by
    simp only [hk, List.mem_range]
    exact ⟨fun h i => ⟨h.1 i, h.2 i⟩, fun h => ⟨fun i => (h i).1, fun i => (h i).2⟩⟩
  unfold checkCompletness Complete
  by_cases hc : ∀ i, h.acc a i ≠ none ↔ i < h.order a
  · rw [if_pos (hs.2 hc), forM_ok_iff]
    simp only [hc, implies_true, true_and, List.mem_range, checkLinkage_iff]
    constructor
    · intro h1 i b j hij
      obtain ⟨b', j', h2, h3⟩ := h1 i ((hc i).1 (by rw [hij]; simp))
      rw [hij] at h2; cases h2; exact h3
    · intro h1 i hi
      obtain ⟨⟨b, j⟩, hbj⟩ := Option.ne_none_iff_exists'.1 ((hc i).2 hi)
      exact ⟨b, j, hbj, h1 i b j hbj⟩
  · rw [if_neg (fun h => hc (hs.1 h))]
    simp [hc]

/-- The exception is a `RuntimeError` when the linked axes are not `0 .. order - 1`. -/
theorem C03_raises_incomplete (h : Heap R) (a : ℕ) (strict : Bool)
    (hc : ¬ ∀ i, h.acc a i ≠ none ↔ i < h.order a) :
    h.checkCompletness a strict = .error .runtimeError := by
  unfold checkCompletness
  rw [if_neg]
  · rfl
  · rintro ⟨h1, h2⟩
    refine hc fun i => ?_
    have : i ∈ Dict.keys (h.access a) ↔ h.acc a i ≠ none := by
      rw [acc_def, ne_eq, Dict.get?_eq_none_iff, not_not]
    rw [← this]
    exact ⟨h1 i, fun hi => h2 i (List.mem_range.2 hi)⟩

/-! Instances: two tensors linked at axis 0, with agreeing and disagreeing dimensions. -/

/-- Two tensors with arrays of the given shapes, linked at their axes 0. -/
def exPair (s t : List ℕ) : Heap ℤ :=
  let h := (empty.alloc (Node.tensor none (some (Nd.ofFn s fun _ => 1)) none)).1
  let h := (h.alloc (Node.tensor none (some (Nd.ofFn t fun _ => 1)) none)).1
  h.link 0 0 1 0

example : (exPair [2] [2]).checkCompletness 0 true = .ok () := by rfl
example : (exPair [2] [3]).checkCompletness 0 true = .error .runtimeError := by rfl
example : (exPair [2] [3]).checkCompletness 0 false = .ok () := by rfl
example : ((exPair [2] [2]).link 0 2 1 2).checkCompletness 0 = .error .runtimeError := by rfl

end Heap
