import Verif.Lemmas.SplitMutual
import Verif.Props.C01
import Verif.Props.C04

/-!
C02. Every link stays mutual, over every history of API calls.
-/

open Py

namespace Heap

variable {R : Type} [CommRing R]

/-- An operator handed to `split_unite`/`unite_split` that changes arrays and the like, but neither
links nor the set of objects, and returns the tensor it was given. -/
def KeepsLinks (f : Operator R) : Prop :=
  ∀ h m h' m', f h m = .ok (h', m') → m' = m ∧
    (∀ c, h'.access c = h.access c) ∧ h'.next = h.next ∧ ∀ c, h'.isLeaf c = h.isLeaf c

/-- The states that can be reached from the empty heap by API calls that return normally:
creating objects, changing anything but links, linking free slots, `unlink`, `split`, `unite`,
`split_unite` and `unite_split` (of tensors, not leaves; a tensor is not united with itself). -/
inductive Reachable : Heap R → Prop
  | empty : Reachable Heap.empty
  | new {h : Heap R} (n : Node R) : Reachable h → n.access = [] → Reachable (h.alloc n).1
  | write {h h' : Heap R} : Reachable h → (∀ c, h'.access c = h.access c) → h'.next = h.next →
      Reachable h'
  | link {h : Heap R} {a i b j : ℕ} : Reachable h → a < h.next → b < h.next → h.acc a i = none →
      h.acc b j = none → Reachable (h.link a i b j)
  | unlink {h h' : Heap R} {a i b j : ℕ} : Reachable h → h.unlink a i b j = .ok h' → Reachable h'
  | split {h h' : Heap R} {csvd : Svd R} {self : ℕ} {axis : AxisArg} {indice : Option (ℕ × ℕ)}
      {root child : Option ℕ} {nrm : Bool} {r c : ℕ} : Reachable h → h.isLeaf self = false →
      h.Usable [self] root → h.Usable [self] child → (∀ x, root = some x → child ≠ some x) →
      h.split csvd self axis indice root child nrm = .ok (h', r, c) → Reachable h'
  | unite {h h' : Heap R} {self axis : ℕ} {root : Option ℕ} {nrm : Bool} {r t2 j : ℕ} :
      Reachable h → h.isLeaf self = false → h.acc self axis = some (t2, j) →
      h.isLeaf t2 = false → h.Usable [self, t2] root →
      h.unite self axis root nrm = .ok (h', r) → Reachable h'
  | splitUnite {h : Heap R} {csvd : Svd R} {self i fin j : ℕ} {op : Option (Operator R)}
      {nrm : Option Bool} {res : Heap R × ℕ × ℕ × ℕ} : Reachable h → h.isLeaf self = false →
      h.acc self i = some (fin, j) → h.isLeaf fin = false → (∀ f, op = some f → KeepsLinks f) →
      h.splitUnite csvd self i op nrm = .ok res → Reachable res.1
  | uniteSplit {h : Heap R} {csvd : Svd R} {fuel self i fin j : ℕ} {op : Option (Operator R)}
      {nrm : Option Bool} {res : Heap R × ℕ × ℕ × ℕ} : Reachable h → h.isLeaf self = false →
      h.acc self i = some (fin, j) → h.isLeaf fin = false → fin ≠ self →
      (∀ f, op = some f → KeepsLinks f) → h.uniteSplit fuel csvd self i op nrm = .ok res → Reachable res.1

theorem LinkInv.congr {h h' : Heap R} (hi : h.LinkInv) (ha : ∀ c, h'.access c = h.access c)
    (hn : h'.next = h.next) : h'.LinkInv where
  wf c := by rw [ha]; exact hi.wf c
  sym a i b j := by simp only [acc_def, ha]; exact hi.sym a i b j
  fresh a h1 := by rw [ha]; exact hi.fresh a (hn ▸ h1)

theorem applyOp_keeps {op : Option (Operator R)} (ho : ∀ f, op = some f → KeepsLinks f)
    {h h' : Heap R} {m m' : ℕ} (e : applyOp op h m = .ok (h', m')) : m' = m ∧
    (∀ c, h'.access c = h.access c) ∧ h'.next = h.next ∧ ∀ c, h'.isLeaf c = h.isLeaf c := by
  cases op with
  | none => simp only [applyOp, Except.ok.injEq, Prod.mk.injEq] at e; obtain ⟨rfl, rfl⟩ := e; simp
  | some f => exact ho f rfl _ _ _ _ e

theorem usable_of_own {h : Heap R} {own : List ℕ} {x : ℕ} (hx : x < h.next) (ho : x ∈ own) :
    h.Usable own (some x) := by
  intro y hy; cases hy; exact ⟨hx, .inl ho⟩

theorem usable_none {h : Heap R} {own : List ℕ} : h.Usable own none := by intro y hy; cases hy

theorem linkInv_splitUnite {h : Heap R} {csvd : Svd R} {self i fin j : ℕ} {op : Option (Operator R)}
    {nrm : Option Bool} {res : Heap R × ℕ × ℕ × ℕ} (hi : h.LinkInv) (hl : h.isLeaf self = false)
    (ha : h.acc self i = some (fin, j)) (hf : h.isLeaf fin = false)
    (ho : ∀ f, op = some f → KeepsLinks f) (e : h.splitUnite csvd self i op nrm = .ok res) :
    res.1.LinkInv := by
  unfold splitUnite at e
  rw [acc_def] at ha
  simp only [Dict.get!, ha, ok_bind, bind_eq_ok, pure_eq_ok] at e
  obtain ⟨⟨h1, mid, c⟩, e1, ⟨h2, mid'⟩, e2, ⟨h3, x⟩, e3, e4⟩ := e
  cases e4
  simp only
  have hlt := hi.lt (a := self) ha
  obtain ⟨i1, n1, k1, -, -, k4, k5, -, -, k8⟩ := split_links hi hl usable_none
    (usable_of_own hlt.1 (by simp)) (by simp) e1
  have hc : c = self := k8 _ rfl
  subst hc
  obtain ⟨hmm, o1, o2, o3⟩ := applyOp_keeps ho e2
  have i2 := i1.congr o1 o2
  have hmem : (i, fin, j) ∈ h.children c none :=
    (mem_children hi.wf (by simp [hl])).2 ⟨ha, by simp, .inl rfl⟩
  have hk := (k1 _ (List.mem_cons_of_mem _ (List.mem_map.2 ⟨_, hmem, rfl⟩))).2
  obtain ⟨s1, s2⟩ := splitLink_cases mid c (pyInsert ((axes1Of (.one i)).map some) (indiceOf (.one i) none).1 none)
        (pyInsert ((axes2Of (h.order c) (axes1Of (.one i))).map some) (indiceOf (.one i) none).2 none)
        (i, fin, j)
  have s3 : ∀ e : ℕ × ℕ × ℕ × ℕ, e.2.2 = (fin, j) → h1.acc e.2.2.1 e.2.2.2 = some (e.1, e.2.1) →
      h1.acc fin j = some (e.1, e.2.1) := by
    rintro ⟨a, b, c, d⟩ q1 q2; cases q1; exact q2
  have hk2 := s3 _ s1 hk
  have hleaf : h1.isLeaf (splitLink mid c (pyInsert ((axes1Of (.one i)).map some) (indiceOf (.one i) none).1 none)
        (pyInsert ((axes2Of (h.order c) (axes1Of (.one i))).map some) (indiceOf (.one i) none).2 none)
        (i, fin, j)).1 = false := by
    rcases s2 with q | q <;> rw [q]
    · exact (k5 rfl).2
    · exact k4 _ hl
  have hlt2 := i1.lt hk2
  have hk3 := hk2
  rw [acc_def, ← o1, ← acc_def] at hk3
  obtain ⟨-, -, -, -, -, i3, -⟩ := unite_links i2 (by rw [o3]; exact k4 _ hf) hk3
    (by rw [o3]; exact hleaf) (usable_of_own (by rw [o2]; exact hlt2.1) (by simp)) e3
  exact i3

theorem linkInv_uniteSplit {h : Heap R} {csvd : Svd R} {fuel self i fin j : ℕ}
    {op : Option (Operator R)} {nrm : Option Bool} {res : Heap R × ℕ × ℕ × ℕ} (hi : h.LinkInv)
    (hl : h.isLeaf self = false) (ha : h.acc self i = some (fin, j)) (hf : h.isLeaf fin = false)
    (hne : fin ≠ self) (ho : ∀ f, op = some f → KeepsLinks f) (e : h.uniteSplit fuel csvd self i op nrm = .ok res) :
    res.1.LinkInv := by
  unfold uniteSplit at e
  have ha' := ha
  rw [acc_def] at ha
  simp only [Dict.get!, ha, ok_bind, bind_eq_ok, pure_eq_ok] at e
  obtain ⟨old, -, ⟨h1, mid⟩, e1, ⟨h2, mid'⟩, e2, ⟨h3, c⟩, e3, new, -, e4⟩ := e
  split at e4
  · cases e4
    simp only at e2 e3 ⊢
    have hlt := hi.lt ha'
    obtain ⟨-, -, -, -, -, i1, k2, -, -, k3, k4, -⟩ := unite_links hi hl ha' hf usable_none e1
    obtain ⟨m1, m2⟩ := k4 rfl
    obtain ⟨hmm, o1, o2, o3⟩ := applyOp_keeps ho e2
    rw [hmm] at e3
    have hne1 : self ≠ mid := by omega
    have hne2 : fin ≠ mid := by omega
    have hx : ∀ x, x < h.next → x < h1.next := by
      intro x hx
      obtain ⟨t2', j', a1, a2, arr, name, g1, g2, g3, info, -, -, -, -, -, -, -, -, q9, q10, q11, rfl⟩ :=
        unite_iff.1 e1
      obtain ⟨w1, f1, -, -, x1, -⟩ := place_spec q9 hi.wf hi.fresh (by simp)
      have e10' : unlinkAll [(self, i, t2', j')] g1 = .ok g2 := by
        simp only [unlinkAll, q10, ok_bind]
      have w2 := (unlinkAll_spec w1 e10').2.2.1
      have n2 := (unlinkAll_spec w1 e10').2.2.2.1
      obtain ⟨q, -⟩ := uniteLoop_iff.1 q11
      have n3 := (unlinkAll_spec w2 q).2.2.2.1
      rw [(linkAll_basic _ g3).2.1]
      omega
    have hnone : ∀ x, x ∈ [self, fin] → ∀ k, h2.acc x k = none := by
      intro x hx k
      rw [acc_def, o1, ← acc_def]
      refine k2 x hx ?_ k
      simp only [List.mem_cons, List.not_mem_nil, or_false] at hx
      rcases hx with rfl | rfl <;> assumption
    refine (split_links (i1.congr o1 o2) (by rw [o3]; exact m2) ?_ ?_ ?_ e3).1
    · intro x hx'; cases hx'
      exact ⟨by rw [o2]; exact hx _ hlt.2, .inr (hnone _ (by simp))⟩
    · intro x hx'; cases hx'
      exact ⟨by rw [o2]; exact hx _ hlt.1, .inr (hnone _ (by simp))⟩
    · intro x hx'; cases hx'; simpa using hne.symm
  · cases e4

theorem linkInv_of_reachable {h : Heap R} (hr : Reachable h) : h.LinkInv := by
  induction hr with
  | empty => exact ⟨wf_empty, (fun a i b j e => by simp [acc, Heap.empty, Node.tensor, Dict.get?] at e),
      fun _ _ => rfl⟩
  | @new h n hr hn ih =>
    have hacc : ∀ a i, (h.alloc n).1.acc a i = h.acc a i := by
      intro a i
      rw [acc_alloc]
      split
      · rename_i e; rw [hn, acc_def, ih.fresh a (by omega)]
      · rfl
    refine ⟨wf_alloc ih.wf n (by rw [hn]; exact Dict.wf_nil), ?_, ?_⟩
    · intro a i b j; rw [hacc, hacc]; exact ih.sym a i b j
    · intro a ha
      change h.next + 1 ≤ a at ha
      simp only [access, alloc]
      rw [if_neg (by omega)]
      exact ih.fresh a (by omega)
  | write hr h1 h2 ih => exact ih.congr h1 h2
  | @link h a i b j hr h1 h2 h3 h4 ih =>
    refine ⟨wf_link ih.wf _ _ _ _, ?_, ?_⟩
    · by_cases hne : (a, i) = (b, j)
      · cases hne
        intro c k d l e
        rw [acc_link] at e ⊢
        split at e
        · rename_i q; cases e; obtain ⟨rfl, rfl⟩ := q; simp
        · rename_i q
          have h5 := ih.sym _ _ _ _ e
          have : ¬ (d = a ∧ l = i) := by rintro ⟨rfl, rfl⟩; rw [h3] at h5; cases h5
          simp [this, h5]
      · exact mutual_link ih.sym h3 h4 hne
    · intro c hc
      change h.next ≤ c at hc
      rw [access_link]
      have n1 : c ≠ a := by omega
      have n2 : c ≠ b := by omega
      simp [n1, n2, ih.fresh c hc]
  | @unlink h h' a i b j hr e ih =>
    have e' : unlinkAll [(a, i, b, j)] h = .ok h' := by simp only [unlinkAll, e, ok_bind]
    exact linkInv_relink (L' := []) ih e' (by simp) (by simp)
  | split hr h1 h2 h3 h4 e ih => exact (split_links ih h1 h2 h3 h4 e).1
  | unite hr h1 h2 h3 h4 e ih =>
    obtain ⟨-, -, -, -, -, i3, -⟩ := unite_links ih h1 h2 h3 h4 e
    exact i3
  | splitUnite hr h1 h2 h3 h4 e ih => exact linkInv_splitUnite ih h1 h2 h3 h4 e
  | uniteSplit hr h1 h2 h3 h4 h5 e ih => exact linkInv_uniteSplit ih h1 h2 h3 h4 h5 e

/-- **C02.** In every state reached by any history of API calls that return normally, every link
is mutual. -/
theorem C02_mutual {h : Heap R} (hr : Reachable h) {a i b j : ℕ} (e : h.acc a i = some (b, j)) :
    h.acc b j = some (a, i) :=
  (linkInv_of_reachable hr).sym _ _ _ _ e

/-- Linking onto an occupied slot breaks the symmetry: if slot `i` of `a` is linked to some other
slot `(c, k)`, then after `link a i b j` the tensor `c` still points back to `a`, but `a` no longer
points to `c`. -/
theorem C02_overwrite_breaks {h : Heap R} (hm : h.Mutual) {a i b j c k : ℕ}
    (e : h.acc a i = some (c, k)) (h1 : (c, k) ≠ (a, i)) (h2 : (b, j) ≠ (c, k))
    (h3 : (b, j) ≠ (a, i)) :
    (h.link a i b j).acc c k = some (a, i) ∧ (h.link a i b j).acc a i ≠ some (c, k) := by
  have hb := hm _ _ _ _ e
  have n1 : ¬ (c = b ∧ k = j) := by rintro ⟨rfl, rfl⟩; exact h2 rfl
  have n2 : ¬ (c = a ∧ k = i) := by rintro ⟨rfl, rfl⟩; exact h1 rfl
  have n3 : ¬ (a = b ∧ i = j) := by rintro ⟨rfl, rfl⟩; exact h3 rfl
  rw [acc_link, acc_link]
  simp [n1, n2, n3, hb]
  intro x y; exact h2 (by rw [x, y])

/-! Instance: a history that creates two 2x2 tensors with a leaf each, links everything, and moves
the root from one to the other with both methods. -/

/-- Factor a matrix as itself times identity times identity. -/
def trivialSvd {R : Type} [CommRing R] : Svd R := fun a =>
  match a.shape with
  | [_, n] =>
    let one : Nd R := Nd.ofFn [n, n] fun idx => if idx.getD 0 0 = idx.getD 1 0 then 1 else 0
    .ok (a, one, one)
  | _ => .error .valueError

/-- Two 2x2 tensors with a leaf each. -/
def exTwo : Heap ℤ :=
  let h := (empty.alloc (Node.tensor (some ['a']) (some ⟨[2, 2], [1, 2, 3, 4]⟩) none)).1
  let h := (h.alloc (Node.tensor (some ['b']) (some ⟨[2, 2], [5, 6, 7, 8]⟩) (some 1))).1
  let h := (h.alloc (Node.leaf (some ['x']))).1
  let h := (h.alloc (Node.leaf (some ['y']))).1
  ((h.link 0 0 1 1).link 0 1 2 0).link 1 0 3 0

theorem exTwo_reachable : Reachable exTwo := by
  unfold exTwo
  refine .link (.link (.link (.new _ (.new _ (.new _ (.new _ .empty rfl) rfl) rfl) rfl) ?_ ?_ ?_ ?_)
    ?_ ?_ ?_ ?_) ?_ ?_ ?_ ?_ <;> decide

example : ∃ res, exTwo.splitUnite trivialSvd 0 0 = .ok res ∧ Reachable res.1 := by
  have h1 : (exTwo.splitUnite trivialSvd 0 0).toOption.isSome = true := by decide +kernel
  cases e : exTwo.splitUnite trivialSvd 0 0 with
  | error x => rw [e] at h1; simp [Except.toOption] at h1
  | ok res =>
    exact ⟨res, rfl, .splitUnite (fin := 1) (j := 1) exTwo_reachable rfl rfl rfl (by simp) e⟩

example : ∃ res, exTwo.uniteSplit 5 trivialSvd 0 0 = .ok res ∧ Reachable res.1 := by
  have h1 : (exTwo.uniteSplit 5 trivialSvd 0 0).toOption.isSome = true := by decide +kernel
  cases e : exTwo.uniteSplit 5 trivialSvd 0 0 with
  | error x => rw [e] at h1; simp [Except.toOption] at h1
  | ok res =>
    exact ⟨res, rfl, .uniteSplit (fin := 1) (j := 1) exTwo_reachable rfl rfl rfl (by decide) (by simp) e⟩

end Heap
