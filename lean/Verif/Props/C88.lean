import Verif.Model.MlInit
import Verif.Py.Lemmas
import Verif.Props.C02

/-! C88: what `MultiLayer.__init__` does with the lists it is given. -/

open Py

namespace ML

variable {T R : Type}

/-- `l` is the last one of the leaves `ls` that has the name `s` (the only one, if names are distinct). -/
def Named (h : Heap R) (ls : List ℕ) (s : List Char) (l : ℕ) : Prop :=
  ∃ a b, ls = a ++ l :: b ∧ (h.node l).name = some s ∧ ∀ l' ∈ b, (h.node l').name ≠ some s

/-- The term `t'` has the operators of `t`, in the same order, and leaves in place of their names. -/
def Bound (h : Heap R) (ls : List ℕ) (t t' : TermList T R) : Prop :=
  List.Forall₂ (fun p q => q.2 = p.2 ∧ ∃ s l, p.1 = .other s ∧ q.1 = .leaf l ∧ Named h ls s l) t t'

/-- All labels of a term are names of leaves. -/
def Known (h : Heap R) (ls : List ℕ) (t : TermList T R) : Prop :=
  ∀ p ∈ t, ∃ s, p.1 = .other s ∧ ∃ l ∈ ls, (h.node l).name = some s

/-- A pair that `h_list` may not hold. -/
def BadH (useStrName : Bool) (p : Label × TermOp T R) : Prop :=
  (useStrName = false ∧ ∀ l, p.1 ≠ .leaf l) ∨ ∀ a : Nd R, p.2 = .mat a → a.shape.length ≠ 2

/-- A pair that `f_list` may not hold. -/
def BadF (useStrName : Bool) (p : Label × TermOp T R) : Prop :=
  (useStrName = false ∧ ∀ l, p.1 ≠ .leaf l) ∨ ∀ f, p.2 ≠ .fn f

private theorem dict_foldl (h : Heap R) (k : Option (List Char)) : ∀ (ls : List ℕ) (d : Dict (Option (List Char)) ℕ),
    ((∀ l ∈ ls, (h.node l).name ≠ k) ∧ (ls.foldl (fun d l => d.set (h.node l).name l) d).get? k = d.get? k) ∨
    ∃ a l b, ls = a ++ l :: b ∧ (h.node l).name = k ∧ (∀ l' ∈ b, (h.node l').name ≠ k) ∧
      (ls.foldl (fun d l => d.set (h.node l).name l) d).get? k = some l
  | [], d => Or.inl ⟨by simp, rfl⟩
  | x :: ls, d => by
    rw [List.foldl_cons]
    rcases dict_foldl h k ls (d.set (h.node x).name x) with ⟨h1, h2⟩ | ⟨a, l, b, h1, h2, h3, h4⟩
    · by_cases hx : (h.node x).name = k
      · refine Or.inr ⟨[], x, ls, rfl, hx, h1, ?_⟩
        rw [h2, Dict.get?_set, if_pos hx]
      · refine Or.inl ⟨?_, ?_⟩
        · intro l hl
          rcases List.mem_cons.1 hl with e | e
          · exact e ▸ hx
          · exact h1 l e
        · rw [h2, Dict.get?_set, if_neg hx]
    · exact Or.inr ⟨x :: a, l, b, by rw [h1, List.cons_append], h2, h3, h4⟩

private theorem dict_named {h : Heap R} {ls : List ℕ} {s : List Char} (hs : ∃ l ∈ ls, (h.node l).name = some s) :
    ∃ l, (leavesDict h ls).get? (some s) = some l ∧ Named h ls s l := by
  obtain ⟨l0, hl0, e0⟩ := hs
  rcases dict_foldl h (some s) ls [] with ⟨h1, _⟩ | ⟨a, l, b, h1, h2, h3, h4⟩
  · exact absurd e0 (h1 l0 hl0)
  · exact ⟨l, h4, a, b, h1, h2, h3⟩

private theorem dict_none {h : Heap R} {ls : List ℕ} {s : List Char} (hs : ∀ l ∈ ls, (h.node l).name ≠ some s) :
    (leavesDict h ls).get? (some s) = none := by
  rcases dict_foldl h (some s) ls [] with ⟨_, h2⟩ | ⟨a, l, b, h1, h2, _, _⟩
  · exact h2
  · exact absurd h2 (hs l (by simp [h1]))

private theorem bind_prefix (h : Heap R) (hexId : ℕ → List Char) (ls : List ℕ) : ∀ (t u : TermList T R) (m : ℕ), Known h ls t →
    ∃ t', Bound h ls t t' ∧
      bindTerm h hexId (leavesDict h ls) (t.length + m) (t ++ u) = bindTerm h hexId (leavesDict h ls) m (u ++ t')
  | [], u, m, _ => ⟨[], .nil, by simp⟩
  | (k, v) :: t, u, m, hk => by
    obtain ⟨s, hs, hl⟩ := hk (k, v) (by simp)
    obtain ⟨l, e, hn⟩ := dict_named hl
    obtain ⟨t', hb, et⟩ := bind_prefix h hexId ls t (u ++ [(.leaf l, v)]) m fun p hp => hk p (by simp [hp])
    refine ⟨(.leaf l, v) :: t', .cons ⟨rfl, s, l, hs, rfl, hn⟩ hb, ?_⟩
    have hlen : ((k, v) :: t).length + m = (t.length + m) + 1 := by simp; omega
    dsimp only at hs
    subst hs
    rw [hlen, List.cons_append, bindTerm]
    simp only [Label.str, e]
    rw [List.append_assoc, et, List.append_assoc, List.singleton_append]

private theorem bind_known (h : Heap R) (hexId : ℕ → List Char) (ls : List ℕ) (t : TermList T R) (hk : Known h ls t) :
    ∃ t', Bound h ls t t' ∧ bindTerm h hexId (leavesDict h ls) t.length t = (.ok (), t') := by
  obtain ⟨t', hb, e⟩ := bind_prefix h hexId ls t [] 0 hk
  refine ⟨t', hb, ?_⟩
  rw [Nat.add_zero, List.append_nil, List.nil_append] at e
  rw [e, bindTerm]

private theorem bind_missing (h : Heap R) (hexId : ℕ → List Char) (ls : List ℕ) (t u : TermList T R) (p : Label × TermOp T R)
    (hk : Known h ls t) (hp : ∀ l ∈ ls, (h.node l).name ≠ some (p.1.str h hexId)) :
    ∃ t', Bound h ls t t' ∧
      bindTerm h hexId (leavesDict h ls) (t ++ p :: u).length (t ++ p :: u) = (.error .keyError, u ++ t') := by
  obtain ⟨t', hb, e⟩ := bind_prefix h hexId ls t (p :: u) (u.length + 1) hk
  refine ⟨t', hb, ?_⟩
  have hlen : (t ++ p :: u).length = t.length + (u.length + 1) := by simp
  obtain ⟨k, v⟩ := p
  rw [hlen, e, List.cons_append, bindTerm]
  simp only [dict_none hp]

private theorem bindAll_prefix (h : Heap R) (hexId : ℕ → List Char) (ls : List ℕ) : ∀ (rs qs : List ℕ) (st : Store T R), rs.Nodup →
    (∀ r ∈ rs, Known h ls (st r)) →
    ∃ st', (∀ r ∈ rs, Bound h ls (st r) (st' r)) ∧ (∀ r, r ∉ rs → st' r = st r) ∧
      bindAll h hexId (leavesDict h ls) (rs ++ qs) st = bindAll h hexId (leavesDict h ls) qs st'
  | [], _, st, _, _ => ⟨st, by simp, fun _ _ => rfl, rfl⟩
  | r :: rs, qs, st, hnd, hk => by
    obtain ⟨hr, hnd'⟩ := List.nodup_cons.1 hnd
    obtain ⟨t', hb, et⟩ := bind_known h hexId ls (st r) (hk r (by simp))
    have hne : ∀ x ∈ rs, x ≠ r := fun x hx e => hr (e ▸ hx)
    obtain ⟨st', h1, h2, h3⟩ := bindAll_prefix h hexId ls rs qs (Function.update st r t') hnd' fun x hx => by
      rw [Function.update_of_ne (hne x hx)]
      exact hk x (by simp [hx])
    refine ⟨st', ?_, ?_, ?_⟩
    · intro x hx
      rcases List.mem_cons.1 hx with e | e
      · rw [e, h2 r hr, Function.update_self]
        exact hb
      · have := h1 x e
        rwa [Function.update_of_ne (hne x e)] at this
    · intro x hx
      rw [List.mem_cons, not_or] at hx
      rw [h2 x hx.2, Function.update_of_ne hx.1]
    · rw [List.cons_append, bindAll, et]
      exact h3

private theorem forM_ok {α : Type} (f : α → Res Unit) : ∀ l : List α, (∀ x ∈ l, f x = .ok ()) → l.forM f = .ok ()
  | [], _ => rfl
  | x :: l, hl => by
    change (f x >>= fun _ => l.forM f) = _
    rw [hl x (by simp)]
    exact forM_ok f l fun y hy => hl y (by simp [hy])

private theorem forM_err {α : Type} (f : α → Res Unit) (hf : ∀ x, f x = .ok () ∨ f x = .error .typeError) : ∀ l : List α,
    (∃ x ∈ l, f x = .error .typeError) → l.forM f = .error .typeError
  | [], hl => by simp at hl
  | x :: l, hl => by
    change (f x >>= fun _ => l.forM f) = _
    rcases hf x with e | e
    · rw [e]
      refine forM_err f hf l ?_
      obtain ⟨y, hy, ey⟩ := hl
      rcases List.mem_cons.1 hy with e' | e'
      · rw [e', e] at ey
        cases ey
      · exact ⟨y, e', ey⟩
    · rw [e]
      rfl

private theorem forM_cases {α : Type} (f : α → Res Unit) (hf : ∀ x, f x = .ok () ∨ f x = .error .typeError) (l : List α) :
    l.forM f = .ok () ∨ l.forM f = .error .typeError := by
  by_cases hl : ∃ x ∈ l, f x = .error .typeError
  · exact Or.inr (forM_err f hf l hl)
  · refine Or.inl (forM_ok f l fun x hx => (hf x).resolve_right fun e => hl ⟨x, hx, e⟩)

private theorem checkH_cases (u : Bool) (p : Label × TermOp T R) :
    (checkH u p = .ok () ∧ ¬ BadH u p) ∨ (checkH u p = .error .typeError ∧ BadH u p) := by
  obtain ⟨k, v⟩ := p
  unfold checkH BadH
  cases k <;> cases u <;> cases v <;> simp [Label.isLeaf, Nd.ndim] <;> exact em _

private theorem checkF_cases (u : Bool) (p : Label × TermOp T R) :
    (checkF u p = .ok () ∧ ¬ BadF u p) ∨ (checkF u p = .error .typeError ∧ BadF u p) := by
  obtain ⟨k, v⟩ := p
  unfold checkF BadF
  cases k <;> cases u <;> cases v <;> simp [Label.isLeaf]

private theorem checks_cases (f : Label × TermOp T R → Res Unit) (B : Label × TermOp T R → Prop)
    (hf : ∀ p, (f p = .ok () ∧ ¬ B p) ∨ (f p = .error .typeError ∧ B p)) (st : Store T R) (rs : List ℕ) :
    ((rs.forM fun r => (st r).forM f) = .ok () ∧ ∀ r ∈ rs, ∀ p ∈ st r, ¬ B p) ∨
    ((rs.forM fun r => (st r).forM f) = .error .typeError ∧ ∃ r ∈ rs, ∃ p ∈ st r, B p) := by
  have hf' : ∀ p, f p = .ok () ∨ f p = .error .typeError := fun p => (hf p).imp And.left And.left
  by_cases hb : ∃ r ∈ rs, ∃ p ∈ st r, B p
  · refine Or.inr ⟨forM_err _ (fun r => forM_cases f hf' (st r)) rs ?_, hb⟩
    obtain ⟨r, hr, p, hp, b⟩ := hb
    exact ⟨r, hr, forM_err f hf' (st r) ⟨p, hp, ((hf p).resolve_left fun c => c.2 b).1⟩⟩
  · have hn : ∀ r ∈ rs, ∀ p ∈ st r, ¬ B p := fun r hr p hp b => hb ⟨r, hr, p, hp, b⟩
    refine Or.inl ⟨forM_ok _ rs fun r hr => forM_ok f (st r) fun p hp => ?_, hn⟩
    exact ((hf p).resolve_right fun c => hn r hr p hp c.2).1

private theorem bindTerm_err (h : Heap R) (hexId : ℕ → List Char) (d : Dict (Option (List Char)) ℕ) : ∀ (m : ℕ) (t : TermList T R),
    (bindTerm h hexId d m t).1 ≠ .error .typeError
  | 0, _ => by simp [bindTerm]
  | _ + 1, [] => by simp [bindTerm]
  | m + 1, (k, v) :: t => by
    rw [bindTerm]
    split
    · exact bindTerm_err h hexId d m _
    · simp

private theorem bindAll_err (h : Heap R) (hexId : ℕ → List Char) (d : Dict (Option (List Char)) ℕ) : ∀ (rs : List ℕ) (st : Store T R),
    (bindAll h hexId d rs st).1 ≠ .error .typeError
  | [], _ => by simp [bindAll]
  | r :: rs, st => by
    rw [bindAll]
    split
    · exact bindAll_err h hexId d rs _
    · rename_i e t he
      have := bindTerm_err h hexId d (st r).length (st r)
      rw [he] at this
      exact this

/-- The types are right. -/
def Typed (hList : List ℕ) (fList : Option (List ℕ)) (u : Bool) (st : Store T R) : Prop :=
  (∀ r ∈ hList, ∀ p ∈ st r, ¬ BadH u p) ∧ ∀ r ∈ fList.getD [], ∀ p ∈ st r, ¬ BadF u p

private theorem init_typed {fuel : ℕ} {h : Heap R} {hexId : ℕ → List Char} {root : ℕ} {hList : List ℕ} {fList : Option (List ℕ)}
    {st : Store T R} {ls : List ℕ} (hls : h.leaves fuel root = .ok ls) (ht : Typed hList fList true st) :
    initLists fuel h hexId root hList fList true st = bindAll h hexId (leavesDict h ls) (hList ++ fList.getD []) st := by
  unfold initLists
  rcases checks_cases (checkH true) (BadH true) (checkH_cases true) st hList with ⟨e, _⟩ | ⟨_, r, hr, p, hp, b⟩
  · rcases checks_cases (checkF true) (BadF true) (checkF_cases true) st (fList.getD []) with ⟨e', _⟩ | ⟨_, r, hr, p, hp, b⟩
    · simp only [e, e', hls, if_true]
    · exact absurd b (ht.2 r hr p hp)
  · exact absurd b (ht.1 r hr p hp)

private theorem init_bad {fuel : ℕ} {h : Heap R} {hexId : ℕ → List Char} {root : ℕ} {hList : List ℕ} {fList : Option (List ℕ)}
    {u : Bool} {st : Store T R}
    (hb : (∃ r ∈ hList, ∃ p ∈ st r, BadH u p) ∨ ∃ r ∈ fList.getD [], ∃ p ∈ st r, BadF u p) :
    initLists fuel h hexId root hList fList u st = (.error .typeError, st) := by
  unfold initLists
  rcases checks_cases (checkH u) (BadH u) (checkH_cases u) st hList with ⟨e, hn⟩ | ⟨e, _⟩
  · rcases hb with ⟨r, hr, p, hp, b⟩ | hb
    · exact absurd b (hn r hr p hp)
    · rcases checks_cases (checkF u) (BadF u) (checkF_cases u) st (fList.getD []) with ⟨_, hn'⟩ | ⟨e', _⟩
      · obtain ⟨r, hr, p, hp, b⟩ := hb
        exact absurd b (hn' r hr p hp)
      · simp only [e, e']
  · simp only [e]

private theorem init_leaf {fuel : ℕ} {h : Heap R} {hexId : ℕ → List Char} {root : ℕ} {hList : List ℕ} {fList : Option (List ℕ)}
    {st : Store T R} (ht : Typed hList fList false st) : initLists fuel h hexId root hList fList false st = (.ok (), st) := by
  unfold initLists
  rcases checks_cases (checkH false) (BadH false) (checkH_cases false) st hList with ⟨e, _⟩ | ⟨_, r, hr, p, hp, b⟩
  · rcases checks_cases (checkF false) (BadF false) (checkF_cases false) st (fList.getD []) with ⟨e', _⟩ | ⟨_, r, hr, p, hp, b⟩
    · simp only [e, e']
      rfl
    · exact absurd b (ht.2 r hr p hp)
  · exact absurd b (ht.1 r hr p hp)

/-- **C88.** The constructor raises TypeError exactly if a pair has the wrong type: something that is not a Leaf although
`use_str_name` is false, an operator of `h_list` that is not a matrix, or one of `f_list` that is not callable. The lists are then as before;
they also are if `use_str_name` is false, and then there is no other exception. -/
theorem C88_types (fuel : ℕ) (h : Heap R) (hexId : ℕ → List Char) (root : ℕ) (hList : List ℕ) (fList : Option (List ℕ)) (u : Bool)
    (st : Store T R) (ls : List ℕ) (hls : h.leaves fuel root = .ok ls) :
    ((initLists fuel h hexId root hList fList u st).1 = .error .typeError ↔
      (∃ r ∈ hList, ∃ p ∈ st r, BadH u p) ∨ ∃ rs, fList = some rs ∧ ∃ r ∈ rs, ∃ p ∈ st r, BadF u p) ∧
    ((initLists fuel h hexId root hList fList u st).1 = .error .typeError → (initLists fuel h hexId root hList fList u st).2 = st) ∧
    (u = false → (initLists fuel h hexId root hList fList u st).2 = st ∧
      ((initLists fuel h hexId root hList fList u st).1 = .ok () ∨ (initLists fuel h hexId root hList fList u st).1 = .error .typeError)) := by
  have hf : (∃ rs, fList = some rs ∧ ∃ r ∈ rs, ∃ p ∈ st r, BadF u p) ↔ ∃ r ∈ fList.getD [], ∃ p ∈ st r, BadF u p := by
    cases fList <;> simp
  rw [hf]
  by_cases hb : (∃ r ∈ hList, ∃ p ∈ st r, BadH u p) ∨ ∃ r ∈ fList.getD [], ∃ p ∈ st r, BadF u p
  · rw [init_bad hb]
    exact ⟨⟨fun _ => hb, fun _ => rfl⟩, fun _ => rfl, fun _ => ⟨rfl, Or.inr rfl⟩⟩
  · have ht : Typed hList fList u st :=
      ⟨fun r hr p hp b => hb (Or.inl ⟨r, hr, p, hp, b⟩), fun r hr p hp b => hb (Or.inr ⟨r, hr, p, hp, b⟩)⟩
    cases u
    · rw [init_leaf ht]
      exact ⟨⟨fun e => (by cases e), fun e => absurd e hb⟩, fun _ => rfl, fun _ => ⟨rfl, Or.inl rfl⟩⟩
    · rw [init_typed hls ht]
      have hne := bindAll_err h hexId (leavesDict h ls) (hList ++ fList.getD []) st
      exact ⟨⟨fun e => absurd e hne, fun e => absurd e hb⟩, fun e => absurd e hne, fun e => by cases e⟩

/-- **C88.** With `use_str_name` every name is replaced by the leaf of this name, in all terms of `h_list` and `f_list`; the operators and
their order stay. No other list changes. -/
theorem C88_names (fuel : ℕ) (h : Heap R) (hexId : ℕ → List Char) (root : ℕ) (hList : List ℕ) (fList : Option (List ℕ))
    (st : Store T R) (ls : List ℕ) (hls : h.leaves fuel root = .ok ls) (ht : Typed hList fList true st)
    (hnd : (hList ++ fList.getD []).Nodup) (hk : ∀ r ∈ hList ++ fList.getD [], Known h ls (st r)) :
    ∃ st', initLists fuel h hexId root hList fList true st = (.ok (), st') ∧
      (∀ r ∈ hList ++ fList.getD [], Bound h ls (st r) (st' r)) ∧ ∀ r, r ∉ hList ++ fList.getD [] → st' r = st r := by
  obtain ⟨st', h1, h2, h3⟩ := bindAll_prefix h hexId ls (hList ++ fList.getD []) [] st hnd hk
  refine ⟨st', ?_, h1, h2⟩
  rw [init_typed hls ht]
  rw [List.append_nil] at h3
  rw [h3, bindAll]

/-- A constructor that fails because of an unknown name does not leave the lists as they were: the terms `a` before that of the unknown
name hold leaves, the term itself has lost the pair of this name and is rotated. -/
theorem C88_unknown_violated (fuel : ℕ) (h : Heap R) (hexId : ℕ → List Char) (root : ℕ) (hList : List ℕ) (fList : Option (List ℕ))
    (st : Store T R) (ls a b : List ℕ) (r : ℕ) (t v : TermList T R) (p : Label × TermOp T R)
    (hls : h.leaves fuel root = .ok ls) (ht : Typed hList fList true st) (hab : hList ++ fList.getD [] = a ++ r :: b)
    (hnd : (hList ++ fList.getD []).Nodup) (ha : ∀ x ∈ a, Known h ls (st x)) (hr : st r = t ++ p :: v) (hk : Known h ls t)
    (hp : ∀ l ∈ ls, (h.node l).name ≠ some (p.1.str h hexId)) :
    ∃ st' t', initLists fuel h hexId root hList fList true st = (.error .keyError, st') ∧
      (∀ x ∈ a, Bound h ls (st x) (st' x)) ∧ Bound h ls t t' ∧ st' r = v ++ t' ∧ (st' r).length + 1 = (st r).length ∧
      ∀ x, x ∉ a → x ≠ r → st' x = st x := by
  rw [hab] at hnd
  obtain ⟨ha', hrb, hd⟩ := List.nodup_append.1 hnd
  have hra : r ∉ a := fun hx => hd r hx r (by simp) rfl
  obtain ⟨st1, h1, h2, h3⟩ := bindAll_prefix h hexId ls a (r :: b) st ha' ha
  obtain ⟨t', hb, e⟩ := bind_missing h hexId ls t v p hk hp
  refine ⟨Function.update st1 r (v ++ t'), t', ?_, ?_, hb, Function.update_self .., ?_, ?_⟩
  · rw [init_typed hls ht, hab, h3, bindAll, h2 r hra, hr, e]
  · intro x hx
    have hxr : x ≠ r := fun e => hra (e ▸ hx)
    rw [Function.update_of_ne hxr]
    exact h1 x hx
  · rw [Function.update_self, hr]
    simp only [List.length_append, List.length_cons, ← hb.length_eq]
    omega
  · intro x hx hxr
    rw [Function.update_of_ne hxr, h2 x hx]

/-- The lists of a successful call cannot be used for a second one: the labels are leaves now, and `str` of a leaf is its name with the
prefix `Leaf_`. The call fails, and a pair is lost. `r` is the first term that is not empty. -/
theorem C88_again_violated (fuel : ℕ) (h : Heap R) (hexId : ℕ → List Char) (root : ℕ) (hList : List ℕ) (fList : Option (List ℕ))
    (st : Store T R) (ls a b : List ℕ) (r : ℕ) (hls : h.leaves fuel root = .ok ls) (ht : Typed hList fList true st)
    (hab : hList ++ fList.getD [] = a ++ r :: b) (hnd : (hList ++ fList.getD []).Nodup)
    (hk : ∀ x ∈ hList ++ fList.getD [], Known h ls (st x)) (ha : ∀ x ∈ a, st x = []) (hr : st r ≠ [])
    (hpre : ∀ l ∈ ls, ∀ s, (h.node l).name = some s → ¬ ['L', 'e', 'a', 'f', '_'] <+: s) :
    ∃ st' st'', initLists fuel h hexId root hList fList true st = (.ok (), st') ∧
      initLists fuel h hexId root hList fList true st' = (.error .keyError, st'') ∧ st'' r = (st' r).tail ∧
      (st'' r).length + 1 = (st r).length := by
  obtain ⟨st', h1, h2, _⟩ := C88_names fuel h hexId root hList fList st ls hls ht hnd hk
  have hmem : ∀ {x}, x ∈ a ++ r :: b → x ∈ hList ++ fList.getD [] := fun hx => hab ▸ hx
  have hop : ∀ {x p}, x ∈ hList ++ fList.getD [] → p ∈ st' x → ∃ q ∈ st x, p.2 = q.2 := by
    intro x p hx hp
    have hb := h2 x hx
    unfold Bound at hb
    generalize st x = t at hb
    generalize st' x = t' at hb hp
    induction hb with
    | nil => simp at hp
    | cons hd _ ih =>
      rcases List.mem_cons.1 hp with e | e
      · exact ⟨_, List.mem_cons_self, e ▸ hd.1⟩
      · obtain ⟨q, hq, e'⟩ := ih e
        exact ⟨q, List.mem_cons_of_mem _ hq, e'⟩
  have ht' : Typed hList fList true st' := by
    refine ⟨fun x hx p hp hb => ?_, fun x hx p hp hb => ?_⟩
    · obtain ⟨q, hq, e⟩ := hop (List.mem_append_left _ hx) hp
      refine ht.1 x hx q hq (Or.inr ?_)
      rw [← e]
      exact hb.resolve_left fun c => by cases c.1
    · obtain ⟨q, hq, e⟩ := hop (List.mem_append_right _ hx) hp
      refine ht.2 x hx q hq (Or.inr ?_)
      rw [← e]
      exact hb.resolve_left fun c => by cases c.1
  have hb := h2 r (hmem (by simp))
  have hlen := hb.length_eq
  unfold Bound at hb
  cases e : st' r with
  | nil =>
    rw [e] at hb
    cases h0 : st r with
    | nil => exact absurd h0 hr
    | cons _ _ =>
      rw [h0] at hb
      cases hb
  | cons p v =>
    obtain ⟨k, o⟩ := p
    have hleaf : ∃ l, k = .leaf l := by
      rw [e] at hb
      cases h0 : st r with
      | nil => exact absurd h0 hr
      | cons _ _ =>
        rw [h0] at hb
        cases hb with
        | cons hd _ =>
          obtain ⟨_, s, l, _, hl, _⟩ := hd
          exact ⟨l, hl⟩
    obtain ⟨l, rfl⟩ := hleaf
    have hemp : ∀ x ∈ a, st' x = [] := by
      intro x hx
      have := h2 x (hmem (by simp [hx]))
      rw [ha x hx] at this
      unfold Bound at this
      cases hx' : st' x with
      | nil => rfl
      | cons _ _ =>
        rw [hx'] at this
        cases this
    obtain ⟨st'', t', g1, _, g3, g4, g5, _⟩ := C88_unknown_violated fuel h hexId root hList fList st' ls a b r [] v (.leaf l, o) hls ht' hab hnd
      (fun x hx => by rw [hemp x hx]; intro p hp; simp at hp) (by rw [e]; rfl) (by intro p hp; simp at hp)
      (by
        intro l' hl' e'
        exact hpre l' hl' _ e' ⟨_, rfl⟩)
    refine ⟨st', st'', h1, g1, ?_, ?_⟩
    · cases g3
      rw [g4, List.append_nil, e, List.tail_cons]
    · rw [g5, hlen]

/-- Terms with the names of the leaves of `exTwo`: list 0 is a term of `h_list`, list 1 one of `f_list`. -/
def exStore : Store ℕ ℤ
  | 0 => [(.other ['y'], .mat ⟨[2, 2], [0, 1, 1, 0]⟩), (.other ['x'], .mat ⟨[2, 2], [1, 0, 0, 2]⟩)]
  | 1 => [(.other ['x'], .fn fun _ => ⟨[2, 2], [1, 0, 0, 2]⟩)]
  | _ => []

/-- The hypotheses of `C88_names` and `C88_again_violated` are met. -/
example : ∃ st', initLists 9 Heap.exTwo (fun _ => []) 0 [0] (some [1]) true exStore = (.ok (), st') ∧
    (st' 0).map Prod.fst = [.leaf 3, .leaf 2] ∧ (st' 1).map Prod.fst = [.leaf 2] :=
  ⟨_, rfl, rfl, rfl⟩

example : Heap.exTwo.leaves 9 0 = .ok [3, 2] ∧ Typed [0] (some [1]) true exStore ∧
    (∀ r ∈ [0] ++ (some [1]).getD [], Known Heap.exTwo [3, 2] (exStore r)) ∧
    ∀ l ∈ [3, 2], ∀ s, (Heap.exTwo.node l).name = some s → ¬ ['L', 'e', 'a', 'f', '_'] <+: s := by
  refine ⟨by decide +kernel, ⟨?_, ?_⟩, ?_, ?_⟩
  · intro r hr p hp hb
    simp only [List.mem_cons, List.not_mem_nil, or_false] at hr
    subst hr
    simp only [exStore, List.mem_cons, List.not_mem_nil, or_false] at hp
    rcases hp with rfl | rfl <;> simp [BadH] at hb
  · simp [exStore, BadF]
  · intro r hr p hp
    simp only [Option.getD_some, List.singleton_append, List.mem_cons, List.not_mem_nil, or_false] at hr
    rcases hr with rfl | rfl <;> simp [exStore] at hp
    · rcases hp with rfl | rfl
      · exact ⟨['y'], rfl, 3, by simp, rfl⟩
      · exact ⟨['x'], rfl, 2, by simp, rfl⟩
    · subst hp
      exact ⟨['x'], rfl, 2, by simp, rfl⟩
  · intro l hl s hs
    simp only [List.mem_cons, List.not_mem_nil, or_false] at hl
    rcases hl with rfl | rfl <;> cases hs <;> decide

end ML
