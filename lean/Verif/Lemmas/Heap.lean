import Verif.Model.Heap
import Verif.Py.Lemmas

open Py

theorem Py.Dict.set_of_notMem {κ ν : Type*} [DecidableEq κ] {d : Dict κ ν} {k : κ}
    (h : k ∉ Dict.keys d) (v : ν) : Dict.set d k v = d ++ [(k, v)] := by
  induction d with
  | nil => rfl
  | cons p d ih =>
    obtain ⟨a, b⟩ := p
    simp [Dict.keys] at h
    have h1 : ¬ a = k := fun e => h.1 e.symm
    simp only [Dict.set, h1, if_false, List.cons_append]
    rw [ih]
    simpa [Dict.keys] using h.2

theorem Py.Dict.del_of_notMem {κ ν : Type*} [DecidableEq κ] {d : Dict κ ν} {k : κ}
    (h : k ∉ Dict.keys d) : Dict.del d k = d := by
  induction d with
  | nil => rfl
  | cons p d ih =>
    obtain ⟨a, b⟩ := p
    simp [Dict.keys] at h
    have h1 : ¬ a = k := fun e => h.1 e.symm
    simp only [Dict.del, h1, if_false]
    rw [ih]
    simpa [Dict.keys] using h.2

theorem Py.Dict.del_append {κ ν : Type*} [DecidableEq κ] {d d' : Dict κ ν} {k : κ}
    (h : k ∉ Dict.keys d) : Dict.del (d ++ d') k = d ++ Dict.del d' k := by
  induction d with
  | nil => rfl
  | cons p d ih =>
    obtain ⟨a, b⟩ := p
    simp [Dict.keys] at h
    have h1 : ¬ a = k := fun e => h.1 e.symm
    simp only [Dict.del, h1, if_false, List.cons_append]
    rw [ih]
    simpa [Dict.keys] using h.2

/-- Everything about an object except its links. -/
def Node.core {R : Type} (n : Node R) : Node R := { n with access := [] }

namespace Heap

variable {R : Type}

/-- Every link dictionary has unique keys. -/
def Wf (h : Heap R) : Prop := ∀ a, Dict.Wf (h.access a)

/-- Every link is mutual. -/
def Mutual (h : Heap R) : Prop := ∀ a i b j, h.acc a i = some (b, j) → h.acc b j = some (a, i)

/-- Objects not yet created have no links. -/
def Fresh (h : Heap R) : Prop := ∀ a, h.next ≤ a → h.access a = []

theorem acc_def (h : Heap R) (a i : ℕ) : h.acc a i = Dict.get? (h.access a) i := rfl

@[simp] theorem access_upd (h : Heap R) (a : ℕ) (f : Node R → Node R) (b : ℕ) :
    (h.upd a f).access b = if b = a then (f (h.node b)).access else h.access b := by
  simp only [access, upd]; split <;> rfl

theorem node_upd (h : Heap R) (a : ℕ) (f : Node R → Node R) (b : ℕ) :
    (h.upd a f).node b = if b = a then f (h.node b) else h.node b := rfl

@[simp] theorem next_upd (h : Heap R) (a : ℕ) (f : Node R → Node R) :
    (h.upd a f).next = h.next := rfl

/-! ### link -/

theorem access_link (h : Heap R) (a i b j c : ℕ) : (h.link a i b j).access c =
    (let d := if c = a then (h.access c).set i (b, j) else h.access c
     if c = b then Dict.set d j (a, i) else d) := by
  simp only [link, access, upd]
  split <;> split <;> rfl

theorem acc_link (h : Heap R) (a i b j c k : ℕ) : (h.link a i b j).acc c k =
    if c = b ∧ k = j then some (a, i) else if c = a ∧ k = i then some (b, j) else h.acc c k := by
  simp only [acc_def, access_link]
  by_cases h1 : c = b
  · by_cases h2 : c = a
    · subst h1; subst h2; simp [Dict.get?_set, eq_comm (a := k)]
    · subst h1; simp [h2, Dict.get?_set, eq_comm (a := k)]
  · by_cases h2 : c = a
    · subst h2; simp [h1, Dict.get?_set, eq_comm (a := k)]
    · simp [h1, h2]

theorem wf_link {h : Heap R} (hw : h.Wf) (a i b j : ℕ) : (h.link a i b j).Wf := by
  intro c
  rw [access_link]
  by_cases h1 : c = b <;> by_cases h2 : c = a <;> simp only [h1, h2, if_true, if_false] <;>
    first
      | exact Dict.wf_set (Dict.wf_set (hw _) _ _) _ _
      | exact Dict.wf_set (hw _) _ _
      | exact hw _
      | (split <;> first
          | exact Dict.wf_set (Dict.wf_set (hw _) _ _) _ _
          | exact Dict.wf_set (hw _) _ _
          | exact hw _)

@[simp] theorem next_link (h : Heap R) (a i b j : ℕ) : (h.link a i b j).next = h.next := rfl

theorem core_link (h : Heap R) (a i b j c : ℕ) :
    ((h.link a i b j).node c).core = (h.node c).core := by
  simp only [link, upd]; split <;> split <;> rfl

/-! ### unlink -/

theorem unlinkS_not_linked (h : Heap R) (a i b j : ℕ)
    (hn : ¬ (h.acc a i = some (b, j) ∧ h.acc b j = some (a, i))) :
    ∃ e, h.unlinkS a i b j = (h, .error e) ∧ (e = .keyError ∨ e = .runtimeError) := by
  unfold unlinkS
  rw [acc_def, acc_def] at hn
  cases h1 : Dict.get? (h.access a) i with
  | none => exact ⟨_, rfl, .inl rfl⟩
  | some x =>
    by_cases h2 : x = (b, j)
    · simp only [h2, if_true]
      cases h3 : Dict.get? (h.access b) j with
      | none => exact ⟨_, rfl, .inl rfl⟩
      | some y =>
        by_cases h4 : y = (a, i)
        · exact absurd ⟨by rw [h1, h2], by rw [h3, h4]⟩ hn
        · simp only [h4, if_false]; exact ⟨_, rfl, .inr rfl⟩
    · simp only [h2, if_false]; exact ⟨_, rfl, .inr rfl⟩

theorem unlinkS_ok {h : Heap R} (hw : h.Wf) {a i b j : ℕ} (h1 : h.acc a i = some (b, j))
    (h2 : h.acc b j = some (a, i)) (hne : (a, i) ≠ (b, j)) :
    h.unlinkS a i b j =
      ((h.upd a fun n => { n with access := n.access.del i }).upd b
        fun n => { n with access := n.access.del j }, .ok ()) := by
  unfold unlinkS
  rw [acc_def] at h1 h2
  simp only [h1, h2, if_true]
  have h3 : Dict.get? ((h.upd a fun n => { n with access := n.access.del i }).access b) j =
      some (a, i) := by
    rw [access_upd]
    by_cases e : b = a
    · subst e
      simp only [if_true]
      have : ¬ i = j := fun e => hne (by rw [e])
      have h4 := Dict.get?_del (hw b) i j
      simp only [this, if_false] at h4
      rw [← h2, ← h4]; rfl
    · simp only [e, if_false]; exact h2
  simp only [h3]

theorem unlink_ok {h : Heap R} (hw : h.Wf) {a i b j : ℕ} (h1 : h.acc a i = some (b, j))
    (h2 : h.acc b j = some (a, i)) (hne : (a, i) ≠ (b, j)) :
    h.unlink a i b j =
      .ok ((h.upd a fun n => { n with access := n.access.del i }).upd b
        fun n => { n with access := n.access.del j }) := by
  unfold unlink; rw [unlinkS_ok hw h1 h2 hne]

/-- Specification of a successful `unlink`. -/
theorem unlink_spec {h : Heap R} (hw : h.Wf) {a i b j : ℕ} (h1 : h.acc a i = some (b, j))
    (h2 : h.acc b j = some (a, i)) (hne : (a, i) ≠ (b, j)) :
    ∃ h', h.unlink a i b j = .ok h' ∧ h'.Wf ∧ h'.next = h.next ∧
      (∀ c, (h'.node c).core = (h.node c).core) ∧
      ∀ c k, h'.acc c k = if (c, k) = (a, i) ∨ (c, k) = (b, j) then none else h.acc c k := by
  refine ⟨_, unlink_ok hw h1 h2 hne, ?_, rfl, ?_, ?_⟩
  · intro c
    simp only [access_upd, node_upd]
    by_cases e1 : c = b <;> by_cases e2 : c = a <;> simp only [e1, e2, if_true, if_false]
    · split
      · exact Dict.wf_del (Dict.wf_del (hw _) _) _
      · exact Dict.wf_del (hw _) _
    · split
      · exact Dict.wf_del (Dict.wf_del (hw _) _) _
      · exact Dict.wf_del (hw _) _
    · split
      · exact Dict.wf_del (Dict.wf_del (hw _) _) _
      · exact Dict.wf_del (hw _) _
    · exact hw _
  · intro c
    simp only [node_upd]
    split <;> split <;> rfl
  · intro c k
    simp only [acc_def, access_upd, node_upd]
    by_cases e1 : c = b
    · subst e1
      by_cases e2 : c = a
      · subst e2
        simp only [if_true]
        change Dict.get? (Dict.del (Dict.del (h.access c) i) j) k = _
        rw [Dict.get?_del (Dict.wf_del (hw _) _)]
        rw [Dict.get?_del (hw _)]
        by_cases e3 : j = k <;> by_cases e4 : i = k <;> simp [e3, e4, eq_comm (a := k)]
      · simp only [if_true, e2, if_false]
        change Dict.get? (Dict.del (h.access c) j) k = _
        rw [Dict.get?_del (hw _)]
        by_cases e3 : j = k <;> simp [e3, e2, eq_comm (a := k)]
    · simp only [e1, if_false]
      by_cases e2 : c = a
      · subst e2
        simp only [if_true]
        change Dict.get? (Dict.del (h.access c) i) k = _
        rw [Dict.get?_del (hw _)]
        by_cases e3 : i = k <;> simp [e3, e1, eq_comm (a := k)]
      · simp [e1, e2]

/-- A successful `unlink` removed a mutual link. -/
theorem unlink_inv {h h' : Heap R} {a i b j : ℕ} (e : h.unlink a i b j = .ok h') :
    h.acc a i = some (b, j) ∧ h.acc b j = some (a, i) := by
  by_contra hn
  obtain ⟨er, he, -⟩ := unlinkS_not_linked h a i b j hn
  unfold unlink at e
  rw [he] at e
  simp at e

/-! ### alloc -/

theorem acc_alloc (h : Heap R) (n : Node R) (a i : ℕ) :
    (h.alloc n).1.acc a i = if a = h.next then Dict.get? n.access i else h.acc a i := by
  simp only [alloc, acc]; split <;> rfl

theorem wf_alloc {h : Heap R} (hw : h.Wf) (n : Node R) (hn : Dict.Wf n.access) :
    (h.alloc n).1.Wf := by
  intro a
  simp only [access, alloc]
  split
  · exact hn
  · exact hw a

/-! ### Mutual links -/

theorem mutual_link {h : Heap R} (hm : h.Mutual) {a i b j : ℕ} (ha : h.acc a i = none)
    (hb : h.acc b j = none) (hne : (a, i) ≠ (b, j)) : (h.link a i b j).Mutual := by
  intro c k d l e
  rw [acc_link] at e ⊢
  split at e
  · rename_i e1; cases e; obtain ⟨rfl, rfl⟩ := e1
    have : ¬ (a = c ∧ i = k) := fun e => hne (by rw [e.1, e.2])
    simp [this]
  · rename_i e1
    split at e
    · rename_i e2; cases e; obtain ⟨rfl, rfl⟩ := e2; simp
    · rename_i e2
      have h1 := hm _ _ _ _ e
      have n1 : ¬ (d = b ∧ l = j) := by
        rintro ⟨rfl, rfl⟩; rw [hb] at h1; cases h1
      have n2 : ¬ (d = a ∧ l = i) := by
        rintro ⟨rfl, rfl⟩; rw [ha] at h1; cases h1
      simp [n1, n2, h1]

theorem mutual_unlink {h h' : Heap R} (hw : h.Wf) (hm : h.Mutual) {a i b j : ℕ}
    (hne : (a, i) ≠ (b, j)) (e : h.unlink a i b j = .ok h') : h'.Mutual ∧ h'.Wf := by
  obtain ⟨h1, h2⟩ := unlink_inv e
  obtain ⟨h'', e1, e2, -, -, e5⟩ := unlink_spec hw h1 h2 hne
  rw [e] at e1; cases e1
  refine ⟨?_, e2⟩
  intro c k d l e
  rw [e5] at e ⊢
  split at e
  · cases e
  · rename_i hn
    have h3 := hm _ _ _ _ e
    have : ¬ ((d, l) = (a, i) ∨ (d, l) = (b, j)) := by
      rintro (e4 | e4)
      · cases e4; rw [h1] at h3; cases h3; simp at hn
      · cases e4; rw [h2] at h3; cases h3; simp at hn
    rw [if_neg this, h3]

end Heap
