import Verif.Model.Settings
import Verif.Py.Lemmas

/-!
C109: `MultiLayer.settings`.
-/

open Py

namespace Settings

variable {V : Type}

theorem classAttr_set {w : World V} {c : ℕ} {rest : List ℕ} (hm : w.mro c = c :: rest) (name : List Char) (value : V) (n : List Char) :
    classAttr (setClass w c name value) c n = if n = name then some value else classAttr w c n := by
  unfold classAttr
  have hm' : (setClass w c name value).mro c = c :: rest := hm
  rw [hm', hm]
  by_cases e : n = name
  · subst e
    simp [lookup, setClass, Dict.get?_set]
  · rw [if_neg e]
    have : ∀ l, lookup (setClass w c name value).attrs n l = lookup w.attrs n l := by
      intro l
      induction l with
      | nil => rfl
      | cons d l ih =>
        have hd : Dict.get? ((setClass w c name value).attrs d) n = Dict.get? (w.attrs d) n := by
          by_cases h : d = c
          · subst h
            simp only [setClass, if_true, Dict.get?_set, if_neg (fun q : name = n => e q.symm)]
          · simp [setClass, h]
        simp only [lookup, hd, ih]
    exact this _

theorem settings_frame (c : ℕ) (kwargs : Dict (List Char) V) (w : World V) : (settings c kwargs w).1.mro = w.mro ∧ (settings c kwargs w).1.cls = w.cls ∧
    (settings c kwargs w).1.inst = w.inst ∧ ∀ d, d ≠ c → (settings c kwargs w).1.attrs d = w.attrs d := by
  induction kwargs generalizing w with
  | nil => exact ⟨rfl, rfl, rfl, fun _ _ => rfl⟩
  | cons p kwargs ih =>
    obtain ⟨name, value⟩ := p
    rw [settings]
    cases classAttr w c name with
    | none => exact ⟨rfl, rfl, rfl, fun _ _ => rfl⟩
    | some v =>
      obtain ⟨h1, h2, h3, h4⟩ := ih (setClass w c name value)
      refine ⟨h1, h2, h3, fun d hd => ?_⟩
      rw [h4 d hd]
      simp [setClass, hd]

/-- If the class has all the attributes named, `settings` returns normally, and then every object of the class, made before or afterwards, that has no
attribute of its own of that name, has the value given; attributes that are not named stay as they are. -/
theorem C109_set {w : World V} {c : ℕ} {rest : List ℕ} (hm : w.mro c = c :: rest) {kwargs : Dict (List Char) V} (hd : kwargs.Wf)
    (hk : ∀ p ∈ kwargs, classAttr w c p.1 ≠ none) :
    (settings c kwargs w).2 = .ok () ∧
    ∀ o, w.cls o = c → ∀ name, objAttr (settings c kwargs w).1 o name =
      match Dict.get? (w.inst o) name, Dict.get? kwargs name with
      | none, some v => some v
      | _, _ => objAttr w o name := by
  have key : ∀ (kwargs : Dict (List Char) V), kwargs.Wf → ∀ w : World V, w.mro c = c :: rest → (∀ p ∈ kwargs, classAttr w c p.1 ≠ none) →
      (settings c kwargs w).2 = .ok () ∧ ∀ name, classAttr (settings c kwargs w).1 c name = match Dict.get? kwargs name with
        | some v => some v
        | none => classAttr w c name := by
    intro kwargs
    induction kwargs with
    | nil => intro _ w _ _; exact ⟨rfl, fun _ => rfl⟩
    | cons p kwargs ih =>
      obtain ⟨name, value⟩ := p
      intro hd w hm hk
      have hd' : name ∉ Dict.keys kwargs ∧ (Dict.keys kwargs).Nodup := List.nodup_cons.1 hd
      rw [settings]
      cases hc : classAttr w c name with
      | none => exact absurd hc (hk (name, value) (by simp))
      | some v =>
        obtain ⟨h1, h2⟩ := ih hd'.2 (setClass w c name value) hm (fun p hp => by
          rw [classAttr_set hm]
          split
          · simp
          · exact hk p (by simp [hp]))
        refine ⟨h1, fun n => ?_⟩
        dsimp only
        rw [h2 n, classAttr_set hm]
        by_cases e : n = name
        · subst e
          have : Dict.get? kwargs n = none := (Dict.get?_eq_none_iff _ _).2 hd'.1
          simp [this, Dict.get?]
        · simp only [Dict.get?, if_neg e, if_neg (fun q : name = n => e q.symm)]
  obtain ⟨h1, h2⟩ := key kwargs hd w hm hk
  refine ⟨h1, fun o ho name => ?_⟩
  obtain ⟨-, f2, f3, -⟩ := settings_frame c kwargs w
  unfold objAttr
  rw [f2, f3, ho, h2]
  cases Dict.get? (w.inst o) name <;> cases Dict.get? kwargs name <;> rfl

/-- A name that the class does not have: `AttributeError`. What was named before it is set already, what was named after it is not: the state is that
after a call with the first part only. -/
theorem C109_unknown {w : World V} {c : ℕ} {rest : List ℕ} (hm : w.mro c = c :: rest) {before after : Dict (List Char) V} {name : List Char} {value : V}
    (hk : ∀ p ∈ before, classAttr w c p.1 ≠ none) (hn : name ∉ Dict.keys before) (hu : classAttr w c name = none) :
    settings c (before ++ (name, value) :: after) w = ((settings c before w).1, .error .attributeError) := by
  induction before generalizing w with
  | nil => simp [settings, hu]
  | cons p before ih =>
    obtain ⟨n, v⟩ := p
    rw [List.cons_append, settings, settings]
    cases hc : classAttr w c n with
    | none => exact absurd hc (hk (n, v) (by simp))
    | some u =>
      dsimp only
      have hne : name ≠ n ∧ name ∉ Dict.keys before := by
        constructor
        · intro q; exact hn (by simp [Dict.keys, q])
        · intro q; exact hn (List.mem_cons_of_mem _ q)
      refine ih hm (fun p hp => ?_) hne.2 ?_
      · rw [classAttr_set hm]
        split
        · simp
        · exact hk p (by simp [hp])
      · rw [classAttr_set hm, if_neg hne.1]
        exact hu

/-- Objects of classes that do not inherit from this class are not affected. -/
theorem C109_others (w : World V) (c : ℕ) (kwargs : Dict (List Char) V) {o : ℕ} (ho : c ∉ w.mro (w.cls o)) (name : List Char) :
    objAttr (settings c kwargs w).1 o name = objAttr w o name := by
  obtain ⟨f1, f2, f3, f4⟩ := settings_frame c kwargs w
  unfold objAttr classAttr
  rw [f1, f2, f3]
  have : ∀ l : List ℕ, c ∉ l → lookup (settings c kwargs w).1.attrs name l = lookup w.attrs name l := by
    intro l
    induction l with
    | nil => intro _; rfl
    | cons d l ih =>
      intro hc
      have h1 : d ≠ c := fun q => hc (by simp [q])
      simp only [lookup, f4 d h1, ih (fun q => hc (List.mem_cons_of_mem _ q))]
  rw [this _ ho]

/-! ### Example: the class with some of its attributes (ml.py 51-61), a class without them, two solvers -/

/-- The attributes. -/
def exWorld : World ℕ where
  attrs c := if c = 1 then [(['h', 'b', 'a', 'r'], 1), (['s', 'v', 'd', '_', 'r', 'a', 'n', 'k'], 0), (['e', 'o', 'm'], 77)] else []
  mro c := if c = 1 then [1, 0] else [c, 0]
  cls _ := 1
  inst _ := [(['t', 'i', 'm', 'e'], 5)]

example : objAttr (settings 1 [(['s', 'v', 'd', '_', 'r', 'a', 'n', 'k'], 9)] exWorld).1 0 ['s', 'v', 'd', '_', 'r', 'a', 'n', 'k'] = some 9 := by
  rw [(C109_set (w := exWorld) (c := 1) (rest := [0]) rfl (by simp [Dict.Wf, Dict.keys]) (by
    intro p hp
    simp only [List.mem_cons, List.not_mem_nil, or_false] at hp
    subst hp
    decide)).2 0 rfl]
  decide

/-- **Violated**, as a setting of one solver: in a run with two solvers, `first.settings(svd_rank=9)` changes the other one, too. -/
theorem C109_violated : ∃ (w : World ℕ) (first second : ℕ), first ≠ second ∧
    ∃ name, objAttr w second name = some 0 ∧ (settings (w.cls first) [(name, 9)] w).2 = .ok () ∧
      objAttr (settings (w.cls first) [(name, 9)] w).1 second name = some 9 :=
  ⟨exWorld, 0, 1, by decide, ['s', 'v', 'd', '_', 'r', 'a', 'n', 'k'], by decide, by decide, by decide⟩

/-- A misspelt name after a correct one. -/
example : settings 1 [(['s', 'v', 'd', '_', 'r', 'a', 'n', 'k'], 9), (['s', 'v', 'd', 'r', 'a', 'n', 'k'], 9)] exWorld = ((settings 1 [(['s', 'v', 'd', '_', 'r', 'a', 'n', 'k'], 9)] exWorld).1, .error .attributeError) :=
  C109_unknown (rest := [0]) (before := [(['s', 'v', 'd', '_', 'r', 'a', 'n', 'k'], 9)]) rfl (by
    intro p hp
    simp only [List.mem_cons, List.not_mem_nil, or_false] at hp
    subst hp
    decide) (by decide) (by decide)

end Settings
