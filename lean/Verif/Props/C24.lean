import Verif.Model.Huffman
import Verif.Py.Lemmas
import Mathlib.Algebra.Order.Ring.Nat

/-!
C24: `huffman_tree` returns a tree with the sources as leaves, each once, for every choice of importances and every
`n_branch ≥ 2`, if the names made by `obj_new` are fresh.
-/

namespace Huffman

open Py

/-- Shape of the result: a list of trees with names at the nodes. `cons x false nil rest` is a leaf `x` followed by
`rest`; `cons x true sub rest` is an inner node `x` with children `sub`. -/
inductive HF (α : Type)
  | nil
  | cons (x : α) (inner : Bool) (sub rest : HF α)

namespace HF

variable {α : Type}

def roots : HF α → List α
  | nil => []
  | cons x _ _ rest => x :: roots rest

def leaves : HF α → List α
  | nil => []
  | cons x b sub rest => (if b then leaves sub else [x]) ++ leaves rest

def inner : HF α → List α
  | nil => []
  | cons x b sub rest => (if b then x :: inner sub else []) ++ inner rest

/-- The dictionary describes these trees: an inner node has its children as value, at least one and at most `n`;
leaves are not in the dictionary. -/
def RepIn [DecidableEq α] (g : Dict α (List α)) (n : ℕ) : HF α → Prop
  | nil => True
  | cons x b sub rest =>
    (if b then Dict.get? g x = some sub.roots ∧ 1 ≤ sub.roots.length ∧ sub.roots.length ≤ n ∧ RepIn g n sub
      else Dict.get? g x = none ∧ sub = nil) ∧ RepIn g n rest

def app : HF α → HF α → HF α
  | nil, G => G
  | cons x b sub rest, G => cons x b sub (app rest G)

end HF

/-- `(g, root)` is a tree with at most `n` children per node, whose leaves are `ls`, in some order, and whose inner
nodes are the keys of `g`, each once. -/
def IsTreeOf {α : Type} [DecidableEq α] (g : Dict α (List α)) (root : α) (n : ℕ) (ls : List α) : Prop :=
  ∃ F : HF α, F.roots = [root] ∧ F.RepIn g n ∧ F.leaves.Perm ls ∧ F.inner.Perm (Dict.keys g) ∧ F.inner.Nodup

section Lemmas

variable {α K : Type} [DecidableEq α] [LinearOrder K] [AddCommMonoid K]

private theorem rep_mono {g g' : Dict α (List α)} {n : ℕ} {F : HF α} (hF : F.RepIn g n)
    (h : ∀ x ∈ F.leaves ++ F.inner, Dict.get? g' x = Dict.get? g x) : F.RepIn g' n := by
  induction F with
  | nil => trivial
  | cons x b sub rest ih1 ih2 =>
    obtain ⟨h1, h2⟩ := hF
    refine ⟨?_, ih2 h2 fun y hy => h y ?_⟩
    · cases b with
      | true =>
        simp only [if_true] at h1 ⊢
        refine ⟨by rw [h x (by simp [HF.inner])]; exact h1.1, h1.2.1, h1.2.2.1, ih1 h1.2.2.2 fun y hy => h y ?_⟩
        simp only [HF.leaves, HF.inner, if_true, List.mem_append, List.mem_cons] at hy ⊢
        rcases hy with q | q
        · exact .inl (.inl q)
        · exact .inr (.inl (.inr q))
      | false =>
        simp only [Bool.false_eq_true, if_false] at h1 ⊢
        exact ⟨by rw [h x (by simp [HF.leaves])]; exact h1.1, h1.2⟩
    · simp only [HF.leaves, HF.inner, List.mem_append] at hy ⊢
      rcases hy with q | q
      · exact .inl (.inr q)
      · exact .inr (.inr q)

private theorem rep_perm {g : Dict α (List α)} {n : ℕ} {l l' : List α} (hp : l.Perm l') {F : HF α} (hr : F.roots = l)
    (hF : F.RepIn g n) : ∃ F' : HF α, F'.roots = l' ∧ F'.RepIn g n ∧ F'.leaves.Perm F.leaves ∧ F'.inner.Perm F.inner := by
  induction hp generalizing F with
  | nil => exact ⟨F, hr, hF, .refl _, .refl _⟩
  | cons x _ ih =>
    cases F with
    | nil => cases hr
    | cons y b sub rest =>
      simp only [HF.roots, List.cons.injEq] at hr
      obtain ⟨F', f1, f2, f3, f4⟩ := ih hr.2 hF.2
      exact ⟨.cons y b sub F', by simp [HF.roots, f1, hr.1], ⟨hF.1, f2⟩, List.Perm.append_left _ f3,
        List.Perm.append_left _ f4⟩
  | swap x y l =>
    cases F with
    | nil => cases hr
    | cons y1 b sub rest =>
      cases rest with
      | nil => simp [HF.roots] at hr
      | cons x1 b1 sub1 rest =>
        simp only [HF.roots, List.cons.injEq] at hr
        obtain ⟨rfl, rfl, rfl⟩ := hr
        refine ⟨.cons x1 b1 sub1 (.cons y1 b sub rest), rfl, ⟨hF.2.1, hF.1, hF.2.2⟩, ?_, ?_⟩
        · simp only [HF.leaves, ← List.append_assoc]
          exact List.Perm.append_right _ List.perm_append_comm
        · simp only [HF.inner, ← List.append_assoc]
          exact List.Perm.append_right _ List.perm_append_comm
  | trans _ _ ih1 ih2 =>
    obtain ⟨F1, a1, a2, a3, a4⟩ := ih1 hr hF
    obtain ⟨F2, b1, b2, b3, b4⟩ := ih2 a1 a2
    exact ⟨F2, b1, b2, b3.trans a3, b4.trans a4⟩

private theorem rep_split {g : Dict α (List α)} {n : ℕ} {l l' : List α} {F : HF α} (hr : F.roots = l ++ l')
    (hF : F.RepIn g n) : ∃ A B : HF α, A.roots = l ∧ B.roots = l' ∧ A.RepIn g n ∧ B.RepIn g n ∧
      A.leaves ++ B.leaves = F.leaves ∧ A.inner ++ B.inner = F.inner := by
  induction l generalizing F with
  | nil => exact ⟨.nil, F, rfl, hr, trivial, hF, rfl, rfl⟩
  | cons x l ih =>
    cases F with
    | nil => cases hr
    | cons y b sub rest =>
      simp only [HF.roots, List.cons_append, List.cons.injEq] at hr
      obtain ⟨A, B, a1, a2, a3, a4, a5, a6⟩ := ih hr.2 hF.2
      exact ⟨.cons y b sub A, B, by simp [HF.roots, a1, hr.1], a2, ⟨hF.1, a3⟩, a4, by simp [HF.leaves, ← a5],
        by simp [HF.inner, ← a6]⟩

private theorem rep_sources {sources : List α} : ∃ F : HF α, F.roots = sources ∧ F.RepIn [] 0 ∧ F.leaves = sources ∧
    F.inner = [] := by
  induction sources with
  | nil => exact ⟨.nil, rfl, trivial, rfl, rfl⟩
  | cons x l ih =>
    obtain ⟨F, f1, f2, f3, f4⟩ := ih
    exact ⟨.cons x false .nil F, by simp [HF.roots, f1], ⟨by simp [Dict.get?], f2⟩, by simp [HF.leaves, f3],
      by simp [HF.inner, f4]⟩

private theorem rep_le {g : Dict α (List α)} {n m : ℕ} (h : n ≤ m) {F : HF α} (hF : F.RepIn g n) : F.RepIn g m := by
  induction F with
  | nil => trivial
  | cons x b sub rest ih1 ih2 =>
    obtain ⟨h1, h2⟩ := hF
    refine ⟨?_, ih2 h2⟩
    cases b with
    | true =>
      simp only [if_true] at h1 ⊢
      exact ⟨h1.1, h1.2.1, h1.2.2.1.trans h, ih1 h1.2.2.2⟩
    | false => simpa using h1

private theorem set_new {g : Dict α (List α)} {x : α} (h : x ∉ Dict.keys g) (v : List α) :
    Dict.set g x v = g ++ [(x, v)] := by
  induction g with
  | nil => rfl
  | cons p g ih =>
    obtain ⟨k, w⟩ := p
    simp only [Dict.keys, List.map_cons, List.mem_cons, not_or] at h
    simp only [Dict.set]
    rw [if_neg (fun q => h.1 q.symm), ih h.2]
    rfl

private theorem loop_ok {new : ℕ → α} {n : ℕ} (hn : 2 ≤ n) (hinj : ∀ i j, new i = new j → i = j) {src : List α}
    (hfresh : ∀ i, new i ∉ src) {fuel k : ℕ} {s : List (α × K)} {g : Dict α (List α)} (hs : s ≠ [])
    (hf : s.length ≤ fuel) {F : HF α} (f1 : F.roots = s.map Prod.fst) (f2 : F.RepIn g n) (f3 : F.leaves.Perm src)
    (f4 : F.inner.Perm (Dict.keys g)) (f5 : ∀ x ∈ Dict.keys g, ∃ i < k, x = new i) (f6 : (Dict.keys g).Nodup) :
    ∃ g' root, loop new n fuel k s g = .ok (g', root) ∧ IsTreeOf g' root n src := by
  induction fuel generalizing k s g F with
  | zero =>
    exact absurd (List.length_eq_zero_iff.1 (Nat.le_zero.1 hf)) hs
  | succ fuel ih =>
    match s, hs, hf, f1 with
    | [x], _, _, f1 =>
      exact ⟨g, x.1, rfl, F, f1, f2, f3, f4, f4.nodup_iff.2 f6⟩
    | x :: y :: s, _, hf, f1 =>
      unfold loop
      set q := (x :: y :: s).insertionSort (fun a b => a.2 ≤ b.2) with hq
      have hqp : q.Perm (x :: y :: s) := List.perm_insertionSort _ _
      have hql : q.length = s.length + 2 := by rw [hqp.length_eq]; rfl
      obtain ⟨F1, a1, a2, a3, a4⟩ := rep_perm (hqp.symm.map Prod.fst) f1 f2
      have hsplit : q.map Prod.fst = (q.take n).map Prod.fst ++ (q.drop n).map Prod.fst := by
        rw [← List.map_append, List.take_append_drop]
      obtain ⟨A, B, b1, b2, b3, b4, b5, b6⟩ := rep_split (a1.trans hsplit) a2
      have hnk : new k ∉ Dict.keys g := by
        intro h
        obtain ⟨i, hi, e⟩ := f5 _ h
        have := hinj _ _ e; omega
      have hget : ∀ z, z ≠ new k → Dict.get? (Dict.set g (new k) ((q.take n).map Prod.fst)) z = Dict.get? g z := by
        intro z hz
        rw [Dict.get?_set, if_neg (fun h => hz h.symm)]
      have hne : ∀ z ∈ A.leaves ++ A.inner ++ (B.leaves ++ B.inner), z ≠ new k := by
        rintro z hz rfl
        have : new k ∈ F1.leaves ∨ new k ∈ F1.inner := by
          rw [← b5, ← b6]
          simp only [List.mem_append] at hz ⊢
          rcases hz with (q | q) | (q | q)
          · exact .inl (.inl q)
          · exact .inr (.inl q)
          · exact .inl (.inr q)
          · exact .inr (.inr q)
        rcases this with h | h
        · exact hfresh k ((a3.trans f3).mem_iff.1 h)
        · exact hnk ((a4.trans f4).mem_iff.1 h)
      have hkeys : Dict.keys (Dict.set g (new k) ((q.take n).map Prod.fst)) = Dict.keys g ++ [new k] := by
        rw [set_new hnk]; simp [Dict.keys]
      refine ih (k := k + 1) (F := .cons (new k) true A B) (by simp) ?_ ?_ ?_ ?_ ?_ ?_ ?_
      · simp only [List.length_cons, List.length_drop] at hf ⊢
        omega
      · simp [HF.roots, b2]
      · refine ⟨?_, rep_mono b4 fun z hz => hget z (hne z (List.mem_append_right _ hz))⟩
        simp only [if_true]
        refine ⟨by rw [Dict.get?_set, if_pos rfl, b1], ?_, ?_,
          rep_mono b3 fun z hz => hget z (hne z (List.mem_append_left _ hz))⟩
        · rw [b1, List.length_map, List.length_take]; omega
        · rw [b1, List.length_map, List.length_take]; omega
      · simp only [HF.leaves, if_true]
        rw [b5]; exact a3.trans f3
      · simp only [HF.inner, if_true, List.cons_append]
        rw [b6, hkeys]
        exact ((a4.trans f4).cons _).trans (List.perm_append_comm (l₁ := [new k]))
      · intro z hz
        rw [hkeys, List.mem_append, List.mem_singleton] at hz
        rcases hz with h | h
        · obtain ⟨i, hi, e⟩ := f5 z h
          exact ⟨i, by omega, e⟩
        · exact ⟨k, by omega, h⟩
      · rw [hkeys, List.nodup_append]
        refine ⟨f6, by simp, fun a ha b hb => ?_⟩
        rw [List.mem_singleton] at hb; subst hb
        rintro rfl; exact hnk ha

end Lemmas

variable {α K : Type} [DecidableEq α] [LinearOrder K] [AddCommMonoid K]

/-- With `n_branch ≥ 2`, as many importances as sources (at least one), and names that are new and different from each
other, `huffman_tree` terminates and returns a tree whose leaves are the sources. -/
theorem C24_huffman_tree {sources : List α} {importances : List K} {new : ℕ → α} {n fuel : ℕ} (hs : sources ≠ [])
    (hl : importances.length = sources.length) (hn : 2 ≤ n) (hinj : ∀ i j, new i = new j → i = j)
    (hfresh : ∀ i, new i ∉ sources) (hf : sources.length ≤ fuel) :
    ∃ g root, huffmanTree sources importances new n fuel = .ok (g, root) ∧ IsTreeOf g root n sources := by
  obtain ⟨F, f1, f2, f3, f4⟩ := rep_sources (sources := sources)
  have hz : (sources.zip importances).map Prod.fst = sources := List.map_fst_zip hl.ge
  refine loop_ok (K := K) (src := sources) (F := F) hn hinj hfresh ?_ ?_ (by rw [hz, f1]) (rep_le (by omega) f2)
    (by rw [f3]) (by rw [f4]; rfl) (by simp [Dict.keys]) (by simp [Dict.keys])
  · intro h
    rw [h] at hz; exact hs hz.symm
  · rw [List.length_zip]; omega

/-- No sources: `IndexError`. -/
theorem C24_no_sources (importances : List K) (new : ℕ → α) (n fuel : ℕ) :
    huffmanTree [] importances new n (fuel + 1) = .error .indexError := rfl

/-- `n_branch ≤ 1` and more than one source: the loop never ends. -/
theorem C24_no_branching {sources : List α} {importances : List K} {new : ℕ → α} {n : ℕ} (hs : 2 ≤ sources.length)
    (hl : importances.length = sources.length) (hn : n ≤ 1) (fuel : ℕ) :
    huffmanTree sources importances new n fuel = .error .outOfFuel := by
  have key : ∀ (fuel k : ℕ) (s : List (α × K)) (g : Dict α (List α)), 2 ≤ s.length →
      loop new n fuel k s g = .error .outOfFuel := by
    intro fuel
    induction fuel with
    | zero => intros; rfl
    | succ fuel ih =>
      intro k s g hs
      match s, hs with
      | x :: y :: s, _ =>
        unfold loop
        refine ih _ _ _ ?_
        simp only [List.length_cons, List.length_drop, List.length_insertionSort]
        omega
  exact key _ _ _ _ (by rw [List.length_zip]; omega)

/-- The default `obj_new` does not make fresh names: with four sources, the result is not a tree of the sources
(two nodes are lost, the remaining one is its own child). -/
theorem C24_default_names_fail :
    huffmanTree [10, 20, 30, 40] [1, 1, 1, 1] counter 2 10 = .ok ([(1, [1, 1])], 1) ∧
      ¬ IsTreeOf [(1, [1, 1])] 1 2 [10, 20, 30, 40] := by
  refine ⟨by decide +kernel, ?_⟩
  rintro ⟨F, f1, f2, f3, f4, f5⟩
  match F, f1, f2, f3, f5 with
  | .cons x false sub rest, f1, f2, f3, _ =>
    simp only [HF.roots, List.cons.injEq] at f1
    obtain ⟨rfl, f1⟩ := f1
    cases rest with
    | nil =>
      have := f3.length_eq
      simp [HF.leaves] at this
    | cons _ _ _ _ => simp [HF.roots] at f1
  | .cons x true sub rest, f1, f2, f3, f5 =>
    simp only [HF.roots, List.cons.injEq] at f1
    obtain ⟨rfl, f1⟩ := f1
    obtain ⟨h1, h2⟩ := f2
    simp only [if_true] at h1
    have hc : [1, 1] = sub.roots := by simpa [Dict.get?] using h1.1
    match sub, hc, h1.2.2.2, f5 with
    | .cons y b s1 r1, hc, h3, f5 =>
      simp only [HF.roots, List.cons.injEq] at hc
      obtain ⟨rfl, -⟩ := hc
      cases b with
      | true =>
        simp [HF.inner] at f5
      | false =>
        have := h3.1
        simp [Dict.get?] at this

/-! A case. -/

example : ∃ g root, huffmanTree [10, 11, 12, 13, 14] [5, 1, 2, 3, 1] (fun i => i + 20) 3 5 = .ok (g, root) ∧
    IsTreeOf g root 3 [10, 11, 12, 13, 14] :=
  C24_huffman_tree (by simp) rfl (by omega) (by intro i j; simp) (by intro i; simp) (by simp)

example : huffmanTree [10, 11, 12, 13, 14] [5, 1, 2, 3, 1] (fun i => i + 20) 3 5 =
    .ok ([(20, [11, 14, 12]), (21, [13, 20, 10])], 21) := by decide +kernel

end Huffman
