import Verif.Py.Basic
import Mathlib.Data.List.Nodup
import Mathlib.Data.List.Perm.Basic
import Mathlib.Data.List.Sort

namespace Py

universe u

@[simp] theorem ok_bind {α β : Type u} (x : α) (f : α → Res β) :
    ((Except.ok x : Res α) >>= f) = f x := rfl

@[simp] theorem error_bind {α β : Type u} (e : Err) (f : α → Res β) :
    ((Except.error e : Res α) >>= f) = Except.error e := rfl

@[simp] theorem pure_eq_ok {α : Type u} (x : α) : (pure x : Res α) = Except.ok x := rfl

@[simp] theorem throw_eq_error {α : Type u} (e : Err) : (throw e : Res α) = Except.error e := rfl

/-- A bind that succeeded: both parts succeeded. -/
theorem bind_eq_ok {α β : Type u} {x : Res α} {f : α → Res β} {y : β} :
    (x >>= f) = Except.ok y ↔ ∃ a, x = Except.ok a ∧ f a = Except.ok y := by
  cases x with
  | error e => simp
  | ok a => simp

end Py

namespace Py.Dict

variable {κ ν : Type _} [DecidableEq κ]

@[simp] theorem get?_nil (k : κ) : get? ([] : Dict κ ν) k = none := rfl

theorem get?_set (d : Dict κ ν) (k k' : κ) (v : ν) :
    get? (set d k v) k' = if k = k' then some v else get? d k' := by
  induction d with
  | nil => simp [set, get?]
  | cons p d ih =>
    obtain ⟨a, b⟩ := p
    by_cases h : a = k
    · subst h
      by_cases h2 : a = k' <;> simp [set, get?, h2]
    · by_cases h2 : a = k'
      · subst h2
        have h3 : ¬ k = a := fun e => h e.symm
        simp [set, get?, h, h3]
      · simp [set, get?, h, h2, ih]

theorem mem_keys_iff (d : Dict κ ν) (k : κ) : k ∈ keys d ↔ (get? d k).isSome := by
  induction d with
  | nil => simp [keys]
  | cons p d ih =>
    obtain ⟨a, b⟩ := p
    by_cases h : a = k
    · simp [keys, get?, h]
    · have h' : ¬ k = a := fun e => h e.symm
      have ih' : k ∈ List.map Prod.fst d ↔ (get? d k).isSome := ih
      simp [keys, get?, h, h', ih', -List.mem_map]

theorem get?_eq_none_iff (d : Dict κ ν) (k : κ) : get? d k = none ↔ k ∉ keys d := by
  rw [mem_keys_iff]; cases get? d k <;> simp

theorem get?_some_iff_mem {d : Dict κ ν} (h : Wf d) (k : κ) (v : ν) :
    get? d k = some v ↔ (k, v) ∈ d := by
  induction d with
  | nil => simp
  | cons p d ih =>
    obtain ⟨a, b⟩ := p
    have h' : a ∉ keys d ∧ (keys d).Nodup := by
      simpa [Wf, keys] using h
    by_cases e : a = k
    · subst e
      simp only [get?, if_true, List.mem_cons, Prod.mk.injEq]
      constructor
      · rintro h; left; simpa [eq_comm] using h
      · rintro (⟨-, rfl⟩ | h2)
        · rfl
        · exact absurd (List.mem_map_of_mem (f := Prod.fst) h2) h'.1
    · have e' : ¬ k = a := fun x => e x.symm
      simp [get?, e, e', ih h'.2]

theorem keys_set (d : Dict κ ν) (k : κ) (v : ν) :
    keys (set d k v) = if k ∈ keys d then keys d else keys d ++ [k] := by
  induction d with
  | nil => simp [set, keys]
  | cons p d ih =>
    obtain ⟨a, b⟩ := p
    by_cases h : a = k
    · subst h; simp [set, keys]
    · have h' : ¬ k = a := fun e => h e.symm
      have ih' : List.map Prod.fst (set d k v) =
        if k ∈ List.map Prod.fst d then List.map Prod.fst d else List.map Prod.fst d ++ [k] := ih
      simp only [set, h, if_false, keys, List.map_cons, List.mem_cons, h', false_or, ih']
      split <;> simp

omit [DecidableEq κ] in
theorem wf_nil : Wf ([] : Dict κ ν) := by simp [Wf, keys]

theorem wf_set {d : Dict κ ν} (h : Wf d) (k : κ) (v : ν) : Wf (set d k v) := by
  unfold Wf at *
  rw [keys_set]
  split
  · exact h
  · rename_i hk
    rw [List.nodup_append]
    refine ⟨h, by simp, ?_⟩
    intro a ha b hb e
    simp at hb
    subst hb; subst e; exact hk ha

theorem keys_del (d : Dict κ ν) (k : κ) : keys (del d k) = (keys d).erase k := by
  induction d with
  | nil => simp [del, keys]
  | cons p d ih =>
    obtain ⟨a, b⟩ := p
    by_cases h : a = k
    · subst h; simp [del, keys]
    · have ih' : List.map Prod.fst (del d k) = (List.map Prod.fst d).erase k := ih
      simp [del, keys, h, ih']

theorem wf_del {d : Dict κ ν} (h : Wf d) (k : κ) : Wf (del d k) := by
  unfold Wf at *; rw [keys_del]; exact h.erase k

theorem get?_del {d : Dict κ ν} (h : Wf d) (k k' : κ) :
    get? (del d k) k' = if k = k' then none else get? d k' := by
  induction d with
  | nil => simp [del]
  | cons p d ih =>
    obtain ⟨a, b⟩ := p
    have h' : a ∉ keys d ∧ (keys d).Nodup := by simpa [Wf, keys] using h
    by_cases e : a = k
    · subst e
      by_cases e2 : a = k'
      · subst e2
        simp only [del, if_true]
        exact (get?_eq_none_iff d a).2 h'.1
      · simp [del, get?, e2]
    · by_cases e2 : a = k'
      · subst e2
        have : ¬ k = a := fun x => e x.symm
        simp [del, get?, e, this]
      · simp [del, get?, e, e2, ih h'.2]

/-- Two dictionaries with the same lookups hold the same pairs. -/
theorem perm_of_get?_eq {d d' : Dict κ ν} (h : Wf d) (h' : Wf d')
    (e : ∀ k, get? d k = get? d' k) : d.Perm d' := by
  refine (List.perm_ext_iff_of_nodup (List.Nodup.of_map _ h) (List.Nodup.of_map _ h')).2 ?_
  rintro ⟨k, v⟩
  rw [← get?_some_iff_mem h, ← get?_some_iff_mem h', e]

theorem length_eq_of_get?_eq {d d' : Dict κ ν} (h : Wf d) (h' : Wf d')
    (e : ∀ k, get? d k = get? d' k) : d.length = d'.length :=
  (perm_of_get?_eq h h' e).length_eq

end Py.Dict
