import Verif.Model.Split
import Verif.Lemmas.Tree

/-!
Removing a list of links and adding a list of links, in terms of half-edges `(tensor, axis)`.
-/

open Py

namespace Heap

variable {R : Type} [CommRing R]

/-- The two ends of every link of a list. -/
def halves (L : List (ℕ × ℕ × ℕ × ℕ)) : List (ℕ × ℕ) :=
  L.flatMap fun e => [(e.1, e.2.1), (e.2.2.1, e.2.2.2)]

@[simp] theorem halves_nil : halves [] = [] := rfl

@[simp] theorem halves_cons (e : ℕ × ℕ × ℕ × ℕ) (L : List (ℕ × ℕ × ℕ × ℕ)) :
    halves (e :: L) = (e.1, e.2.1) :: (e.2.2.1, e.2.2.2) :: halves L := rfl

theorem halves_append (L L' : List (ℕ × ℕ × ℕ × ℕ)) : halves (L ++ L') = halves L ++ halves L' := by
  simp [halves]

theorem mem_halves {L : List (ℕ × ℕ × ℕ × ℕ)} {x : ℕ × ℕ} :
    x ∈ halves L ↔ ∃ e ∈ L, x = (e.1, e.2.1) ∨ x = (e.2.2.1, e.2.2.2) := by
  simp [halves]

/-- Remove the links of a list one by one. -/
def unlinkAll : List (ℕ × ℕ × ℕ × ℕ) → Heap R → Res (Heap R)
  | [], h => .ok h
  | e :: L, h => do
    let h ← h.unlink e.1 e.2.1 e.2.2.1 e.2.2.2
    unlinkAll L h

/-- `e` is a (mutual) link of `h`. -/
def IsLink (h : Heap R) (e : ℕ × ℕ × ℕ × ℕ) : Prop :=
  h.acc e.1 e.2.1 = some (e.2.2.1, e.2.2.2) ∧ h.acc e.2.2.1 e.2.2.2 = some (e.1, e.2.1)

theorem unlink_same {h : Heap R} {a i : ℕ} (h' : Heap R) (hw : h.Wf) :
    h.unlink a i a i ≠ .ok h' := by
  intro e
  obtain ⟨h1, -⟩ := unlink_inv e
  unfold unlink unlinkS at e
  rw [acc_def] at h1
  simp only [h1, if_true, access_upd] at e
  have : Dict.get? (Dict.del (h.node a).access i) i = none := by
    change Dict.get? (Dict.del (h.access a) i) i = none
    rw [Dict.get?_del (hw a)]; simp
  simp [this] at e

theorem unlinkAll_spec {L : List (ℕ × ℕ × ℕ × ℕ)} {h h' : Heap R} (hw : h.Wf)
    (e : unlinkAll L h = .ok h') :
    (∀ e ∈ L, h.IsLink e) ∧ (halves L).Nodup ∧ h'.Wf ∧ h'.next = h.next ∧
      (∀ c, (h'.node c).core = (h.node c).core) ∧
      ∀ c k, h'.acc c k = if (c, k) ∈ halves L then none else h.acc c k := by
  induction L generalizing h with
  | nil =>
    simp only [unlinkAll, Except.ok.injEq] at e
    subst e
    simp [hw]
  | cons x L ih =>
    obtain ⟨a, i, b, j⟩ := x
    simp only [unlinkAll] at e
    rw [bind_eq_ok] at e
    obtain ⟨h1, e1, e2⟩ := e
    obtain ⟨l1, l2⟩ := unlink_inv e1
    have hne : (a, i) ≠ (b, j) := by
      intro e; cases e; exact unlink_same h1 hw e1
    obtain ⟨h1', f1, f2, f3, f4, f5⟩ := unlink_spec hw l1 l2 hne
    rw [e1] at f1; cases f1
    obtain ⟨g1, g2, g3, g4, g5, g6⟩ := ih f2 e2
    refine ⟨?_, ?_, g3, g4.trans f3, fun c => (g5 c).trans (f4 c), ?_⟩
    · intro e he
      rcases List.mem_cons.1 he with rfl | he
      · exact ⟨l1, l2⟩
      · obtain ⟨m1, m2⟩ := g1 e he
        rw [f5] at m1 m2
        refine ⟨?_, ?_⟩
        · split at m1
          · cases m1
          · exact m1
        · split at m2
          · cases m2
          · exact m2
    · simp only [halves_cons, List.nodup_cons, List.mem_cons, not_or]
      refine ⟨⟨hne, ?_⟩, ?_, g2⟩
      · intro hm
        obtain ⟨e, he, hh⟩ := mem_halves.1 hm
        obtain ⟨m1, m2⟩ := g1 e he
        rcases hh with hh | hh <;> cases hh
        · rw [f5] at m1; simp at m1
        · rw [f5] at m2; simp at m2
      · intro hm
        obtain ⟨e, he, hh⟩ := mem_halves.1 hm
        obtain ⟨m1, m2⟩ := g1 e he
        rcases hh with hh | hh <;> cases hh
        · rw [f5] at m1; simp at m1
        · rw [f5] at m2; simp at m2
    · intro c k
      rw [g6, f5]
      simp only [halves_cons, List.mem_cons]
      by_cases h3 : (c, k) ∈ halves L
      · simp [h3]
      · simp [h3]

theorem unlinkAll_ok {L : List (ℕ × ℕ × ℕ × ℕ)} {h : Heap R} (hw : h.Wf)
    (hl : ∀ e ∈ L, h.IsLink e) (hn : (halves L).Nodup) : ∃ h', unlinkAll L h = .ok h' := by
  induction L generalizing h with
  | nil => exact ⟨h, rfl⟩
  | cons x L ih =>
    obtain ⟨a, i, b, j⟩ := x
    simp only [halves_cons, List.nodup_cons, List.mem_cons, not_or] at hn
    obtain ⟨⟨hne, n1⟩, n2, n3⟩ := hn
    obtain ⟨l1, l2⟩ := hl _ (List.mem_cons_self ..)
    obtain ⟨h1, f1, f2, f3, f4, f5⟩ := unlink_spec hw l1 l2 hne
    simp only [unlinkAll, f1, ok_bind]
    refine ih f2 ?_ n3
    intro e he
    obtain ⟨m1, m2⟩ := hl e (List.mem_cons_of_mem _ he)
    have q1 : (e.1, e.2.1) ∈ halves L := mem_halves.2 ⟨e, he, .inl rfl⟩
    have q2 : (e.2.2.1, e.2.2.2) ∈ halves L := mem_halves.2 ⟨e, he, .inr rfl⟩
    refine ⟨?_, ?_⟩
    · rw [f5, if_neg, m1]
      rintro (hh | hh) <;> rw [hh] at q1
      · exact n1 q1
      · exact n2 q1
    · rw [f5, if_neg, m2]
      rintro (hh | hh) <;> rw [hh] at q2
      · exact n1 q2
      · exact n2 q2

/-! ### linkAll -/

@[simp] theorem linkAll_nil (h : Heap R) : h.linkAll [] = h := rfl

@[simp] theorem linkAll_cons (h : Heap R) (e : ℕ × ℕ × ℕ × ℕ) (L : List (ℕ × ℕ × ℕ × ℕ)) :
    h.linkAll (e :: L) = (h.link e.1 e.2.1 e.2.2.1 e.2.2.2).linkAll L := rfl

theorem linkAll_basic (L : List (ℕ × ℕ × ℕ × ℕ)) (h : Heap R) :
    (h.Wf → (h.linkAll L).Wf) ∧ (h.linkAll L).next = h.next ∧
      (∀ c, ((h.linkAll L).node c).core = (h.node c).core) ∧
      (∀ c k, (c, k) ∉ halves L → (h.linkAll L).acc c k = h.acc c k) := by
  induction L generalizing h with
  | nil => simp
  | cons x L ih =>
    obtain ⟨a, i, b, j⟩ := x
    obtain ⟨g1, g2, g3, g4⟩ := ih (h.link a i b j)
    refine ⟨fun hw => g1 (wf_link hw _ _ _ _), g2, fun c => (g3 c).trans (core_link ..), ?_⟩
    intro c k hk
    simp only [halves_cons, List.mem_cons, not_or] at hk
    rw [linkAll_cons, g4 c k hk.2.2, acc_link]
    have n1 : ¬ (c = b ∧ k = j) := by rintro ⟨rfl, rfl⟩; exact hk.2.1 rfl
    have n2 : ¬ (c = a ∧ k = i) := by rintro ⟨rfl, rfl⟩; exact hk.1 rfl
    simp [n1, n2]

theorem linkAll_isLink {L : List (ℕ × ℕ × ℕ × ℕ)} (hn : (halves L).Nodup) (h : Heap R) :
    ∀ e ∈ L, (h.linkAll L).IsLink e := by
  induction L generalizing h with
  | nil => simp
  | cons x L ih =>
    obtain ⟨a, i, b, j⟩ := x
    simp only [halves_cons, List.nodup_cons, List.mem_cons, not_or] at hn
    obtain ⟨⟨hne, n1⟩, n2, n3⟩ := hn
    intro e he
    rcases List.mem_cons.1 he with rfl | he
    · obtain ⟨-, -, -, g4⟩ := linkAll_basic L (h.link a i b j)
      refine ⟨?_, ?_⟩
      · change (h.linkAll ((a, i, b, j) :: L)).acc a i = some (b, j)
        rw [linkAll_cons, g4 a i n1, acc_link]
        have : ¬ (a = b ∧ i = j) := by rintro ⟨rfl, rfl⟩; exact hne rfl
        simp [this]
      · change (h.linkAll ((a, i, b, j) :: L)).acc b j = some (a, i)
        rw [linkAll_cons, g4 b j n2, acc_link]
        simp
    · exact ih n3 _ e he

theorem mutual_linkAll {L : List (ℕ × ℕ × ℕ × ℕ)} (hn : (halves L).Nodup) {h : Heap R}
    (hm : h.Mutual) (hf : ∀ x ∈ halves L, h.acc x.1 x.2 = none) : (h.linkAll L).Mutual := by
  induction L generalizing h with
  | nil => exact hm
  | cons x L ih =>
    obtain ⟨a, i, b, j⟩ := x
    simp only [halves_cons, List.nodup_cons, List.mem_cons, not_or] at hn hf
    obtain ⟨⟨hne, n1⟩, n2, n3⟩ := hn
    refine ih n3 (mutual_link hm (hf _ (.inl rfl)) (hf _ (.inr (.inl rfl))) hne) ?_
    rintro ⟨c, k⟩ hx
    rw [acc_link]
    have m1 : ¬ (c = b ∧ k = j) := by rintro ⟨rfl, rfl⟩; exact n2 hx
    have m2 : ¬ (c = a ∧ k = i) := by rintro ⟨rfl, rfl⟩; exact n1 hx
    simp only [m1, m2, if_false]
    exact hf _ (.inr (.inr hx))

theorem mutual_unlinkAll {L : List (ℕ × ℕ × ℕ × ℕ)} {h h' : Heap R} (hw : h.Wf) (hm : h.Mutual)
    (e : unlinkAll L h = .ok h') : h'.Mutual := by
  obtain ⟨f1, f2, f3, f4, f5, f6⟩ := unlinkAll_spec hw e
  intro c k d l h1
  rw [f6] at h1 ⊢
  split at h1
  · cases h1
  · rename_i hn
    have h2 := hm _ _ _ _ h1
    rw [if_neg, h2]
    intro hh
    obtain ⟨e, he, hh⟩ := mem_halves.1 hh
    obtain ⟨q1, q2⟩ := f1 e he
    rcases hh with hh | hh <;> cases hh
    · rw [q1] at h2
      simp only [Option.some.injEq] at h2
      exact hn (mem_halves.2 ⟨e, he, .inr h2.symm⟩)
    · rw [q2] at h2
      simp only [Option.some.injEq] at h2
      exact hn (mem_halves.2 ⟨e, he, .inl h2.symm⟩)

/-- Removing `L` and adding `L'`: the resulting links. -/
theorem relink {L L' : List (ℕ × ℕ × ℕ × ℕ)} {h h' : Heap R} (hw : h.Wf)
    (e : unlinkAll L h = .ok h') (hn : (halves L').Nodup) :
    (h'.linkAll L').Wf ∧ (h'.linkAll L').next = h.next ∧
      (∀ c, ((h'.linkAll L').node c).core = (h.node c).core) ∧
      (∀ e ∈ L', (h'.linkAll L').IsLink e) ∧
      (∀ c k, (c, k) ∉ halves L → (c, k) ∉ halves L' → (h'.linkAll L').acc c k = h.acc c k) ∧
      (∀ c k, (c, k) ∈ halves L → (c, k) ∉ halves L' → (h'.linkAll L').acc c k = none) := by
  obtain ⟨f1, f2, f3, f4, f5, f6⟩ := unlinkAll_spec hw e
  obtain ⟨g1, g2, g3, g4⟩ := linkAll_basic L' h'
  refine ⟨g1 f3, g2.trans f4, fun c => (g3 c).trans (f5 c), linkAll_isLink hn h', ?_, ?_⟩
  · intro c k h1 h2
    rw [g4 c k h2, f6, if_neg h1]
  · intro c k h1 h2
    rw [g4 c k h2, f6, if_pos h1]

/-! ### The loops of `split` and `unite` -/

/-- Where `split` puts an old link. -/
def splitLink (root child : ℕ) (axes1 axes2 : List (Option ℕ)) (x : ℕ × ℕ × ℕ) : ℕ × ℕ × ℕ × ℕ :=
  if some x.1 ∈ axes1 then (root, axes1.idxOf (some x.1), x.2) else
    (child, axes2.idxOf (some x.1), x.2)

theorem splitLoop_iff {self root child : ℕ} {axes1 axes2 : List (Option ℕ)}
    {ch : List (ℕ × ℕ × ℕ)} {h h' : Heap R} {info info' : List (ℕ × ℕ × ℕ × ℕ)} :
    splitLoop self root child axes1 axes2 ch h info = .ok (h', info') ↔
      unlinkAll (ch.map fun x => (self, x)) h = .ok h' ∧
      (∀ x ∈ ch, some x.1 ∈ axes1 ∨ some x.1 ∈ axes2) ∧
      info' = info ++ ch.map (splitLink root child axes1 axes2) := by
  induction ch generalizing h info with
  | nil => simp [splitLoop, unlinkAll, eq_comm]
  | cons x ch ih =>
    obtain ⟨i, t, j⟩ := x
    simp only [splitLoop, List.map_cons, unlinkAll]
    cases h.unlink self i t j with
    | error e => simp
    | ok h1 =>
      simp only [ok_bind]
      by_cases h1 : some i ∈ axes1
      · simp only [h1, if_true, axesIndex, ok_bind, ih]
        simp [splitLink, h1]
      · by_cases h2 : some i ∈ axes2
        · simp only [h1, if_false, axesIndex, h2, if_true, ok_bind, ih]
          simp [splitLink, h1, h2]
        · simp [axesIndex, h1, h2]

theorem uniteLoop_iff {root : ℕ} {L : List (ℕ × ℕ × ℕ × ℕ)} {h h' : Heap R}
    {info info' : List (ℕ × ℕ × ℕ × ℕ)} :
    uniteLoop root L h info = .ok (h', info') ↔ unlinkAll L h = .ok h' ∧
      info' = info ++ (L.zipIdx info.length).map fun p => (root, p.2, p.1.2.2) := by
  induction L generalizing h info with
  | nil => simp [uniteLoop, unlinkAll, eq_comm]
  | cons x L ih =>
    obtain ⟨s, i, t, j⟩ := x
    simp only [uniteLoop, unlinkAll]
    cases h.unlink s i t j with
    | error e => simp
    | ok h1 =>
      simp only [ok_bind, ih]
      simp [List.zipIdx_cons]

end Heap
