import Verif.Lemmas.Heap

/-!
C01: `link` and `unlink` are inverse and touch nothing else.
-/

open Py

namespace Heap

variable {R : Type}

/-- After `link` on two free, different slots the two slots point at each other, every other
slot and everything else about every tensor is unchanged. -/
theorem C01_link_effect (h : Heap R) (a i b j : ℕ) (hne : (a, i) ≠ (b, j)) :
    (h.link a i b j).acc a i = some (b, j) ∧
    (h.link a i b j).acc b j = some (a, i) ∧
    (∀ c k, (c, k) ≠ (a, i) → (c, k) ≠ (b, j) → (h.link a i b j).acc c k = h.acc c k) ∧
    (∀ c, { (h.link a i b j).node c with access := [] } = { h.node c with access := [] }) ∧
    (h.link a i b j).next = h.next := by
  refine ⟨?_, ?_, ?_, fun c => core_link h a i b j c, rfl⟩
  · rw [acc_link]
    have : ¬ (a = b ∧ i = j) := fun e => hne (by rw [e.1, e.2])
    simp [this]
  · rw [acc_link]; simp
  · intro c k h1 h2
    rw [acc_link]
    have e1 : ¬ (c = b ∧ k = j) := fun e => h2 (by rw [e.1, e.2])
    have e2 : ¬ (c = a ∧ k = i) := fun e => h1 (by rw [e.1, e.2])
    simp [e1, e2]

/-- `unlink` after `link` on free slots gives back the very same heap (including dictionary
order). -/
theorem C01_unlink_link (h : Heap R) (hw : h.Wf) (a i b j : ℕ) (hne : (a, i) ≠ (b, j))
    (ha : h.acc a i = none) (hb : h.acc b j = none) :
    (h.link a i b j).unlink a i b j = .ok h := by
  obtain ⟨h1, h2, -⟩ := C01_link_effect h a i b j hne
  rw [unlink_ok (wf_link hw a i b j) h1 h2 hne]
  have ha' : i ∉ Dict.keys (h.node a).access := (Dict.get?_eq_none_iff _ _).1 ha
  have hb' : j ∉ Dict.keys (h.node b).access := (Dict.get?_eq_none_iff _ _).1 hb
  congr 1
  unfold link upd
  simp only
  cases h with | mk node next =>
  congr 1
  funext c
  by_cases e1 : c = b
  · subst e1
    by_cases e2 : c = a
    · subst e2
      have hij : i ≠ j := fun e => hne (by rw [e])
      have hj2 : j ∉ Dict.keys (Dict.set (node c).access i (c, j)) := by
        rw [Dict.keys_set]; simp [ha']; exact ⟨hb', fun e => hij e.symm⟩
      simp only [if_true]
      rw [Dict.set_of_notMem hj2, Dict.set_of_notMem ha', List.append_assoc,
        Dict.del_append ha']
      simp only [List.cons_append, List.nil_append, Dict.del, if_true]
      rw [Dict.del_append hb']
      simp [Dict.del]
    · simp only [if_true, e2, if_false]
      rw [Dict.set_of_notMem hb', Dict.del_append hb']
      simp [Dict.del]
  · by_cases e2 : c = a
    · subst e2
      simp only [if_true, e1, if_false]
      rw [Dict.set_of_notMem ha', Dict.del_append ha']
      simp [Dict.del]
    · simp [e1, e2]

/-- `unlink` on two slots that are not linked to each other raises, and leaves the heap as it
was. -/
theorem C01_unlink_refuses (h : Heap R) (a i b j : ℕ)
    (hn : ¬ (h.acc a i = some (b, j) ∧ h.acc b j = some (a, i))) :
    (h.unlinkS a i b j).1 = h ∧
      ((h.unlinkS a i b j).2 = .error .keyError ∨ (h.unlinkS a i b j).2 = .error .runtimeError) := by
  obtain ⟨e, he, hc⟩ := unlinkS_not_linked h a i b j hn
  rw [he]
  refine ⟨rfl, ?_⟩
  rcases hc with rfl | rfl <;> simp

/-- Converse direction: on two mutually linked different slots `unlink` succeeds, frees exactly
these two slots and changes nothing else. -/
theorem C01_unlink_effect (h : Heap R) (hw : h.Wf) (a i b j : ℕ) (hne : (a, i) ≠ (b, j))
    (h1 : h.acc a i = some (b, j)) (h2 : h.acc b j = some (a, i)) :
    ∃ h', h.unlinkS a i b j = (h', .ok ()) ∧
      (∀ c k, h'.acc c k = if (c, k) = (a, i) ∨ (c, k) = (b, j) then none else h.acc c k) ∧
      (∀ c, { h'.node c with access := [] } = { h.node c with access := [] }) ∧
      h'.next = h.next := by
  obtain ⟨h', e1, -, e3, e4, e5⟩ := unlink_spec hw h1 h2 hne
  refine ⟨h', ?_, e5, e4, e3⟩
  have := unlinkS_ok hw h1 h2 hne
  rw [this]
  have e6 := unlink_ok hw h1 h2 hne
  rw [e1] at e6
  cases e6; rfl

/-! Instance: two fresh tensors, linked at axes 2 and 0. -/

/-- The heap in which nothing has been created. -/
def empty : Heap R := ⟨fun _ => Node.tensor none none none, 0⟩

theorem wf_empty : (empty : Heap R).Wf := fun _ => Dict.wf_nil

example : (empty (R := ℤ)).Wf ∧ ((0, 2) : ℕ × ℕ) ≠ (1, 0) ∧
    (empty (R := ℤ)).acc 0 2 = none ∧ (empty (R := ℤ)).acc 1 0 = none :=
  ⟨fun _ => Dict.wf_nil, by decide, rfl, rfl⟩

example : (((empty (R := ℤ)).link 0 2 1 0).unlinkS 0 2 1 0).2 = .ok () ∧
    (((empty (R := ℤ)).link 0 2 1 0).unlinkS 0 1 1 0).2 = .error .keyError ∧
    (((empty (R := ℤ)).link 0 2 1 0).unlinkS 0 2 1 1).2 = .error .runtimeError := by
  refine ⟨rfl, rfl, rfl⟩

end Heap
