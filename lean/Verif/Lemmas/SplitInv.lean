import Verif.Lemmas.Relink

/-!
What a successful `split` or `unite` did, step by step.
-/

open Py

namespace Heap

variable {R : Type} [CommRing R]

/-- The sorted list of split-off axes. -/
def axes1Of : AxisArg → List ℕ
  | .one i => [i]
  | .many l => l.insertionSort (· ≤ ·)

/-- The bond positions. -/
def indiceOf (axis : AxisArg) (indice : Option (ℕ × ℕ)) : ℕ × ℕ :=
  indice.getD (match axis with
    | .one i => (0, i)
    | .many _ => (0, 0))

/-- The remaining axes. -/
def axes2Of (n : ℕ) (axes1 : List ℕ) : List ℕ := (List.range n).filter fun i => i ∉ axes1

theorem split_iff {csvd : Svd R} {h h' : Heap R} {self : ℕ} {axis : AxisArg}
    {indice : Option (ℕ × ℕ)} {root child : Option ℕ} {nrm : Bool} {r c : ℕ} :
    h.split csvd self axis indice root child nrm = .ok (h', r, c) ↔
      ∃ a shape1 shape2 n1 n2 ra ca h1 h2 h3 info,
        (h.node self).axis = none ∧ h.array self = some a ∧
        shapeOn a.shape (axes1Of axis) = .ok shape1 ∧
        shapeOn a.shape (axes2Of (h.order self) (axes1Of axis)) = .ok shape2 ∧
        splitNames (h.node self).name = .ok (n1, n2) ∧
        splitArrays csvd a (axes1Of axis) shape1 shape2 (indiceOf axis indice).1
          (indiceOf axis indice).2 = .ok (ra, ca) ∧
        h.place root (some n1) ra none nrm = (h1, r) ∧
        h1.place child (some n2) ca (some (indiceOf axis indice).2) nrm = (h2, c) ∧
        splitLoop self r c (pyInsert ((axes1Of axis).map some) (indiceOf axis indice).1 none)
          (pyInsert ((axes2Of (h.order self) (axes1Of axis)).map some) (indiceOf axis indice).2 none)
          (h.children self none) h2
          [(r, (indiceOf axis indice).1, c, (indiceOf axis indice).2)] = .ok (h3, info) ∧
        h' = h3.linkAll info := by
  have key : h.split csvd self axis indice root child nrm =
    (do
      if (h.node self).axis ≠ none then throw .runtimeError
      match h.array self with
      | none => throw .typeError
      | some a =>
        let shape1 ← shapeOn a.shape (axes1Of axis)
        let shape2 ← shapeOn a.shape (axes2Of (h.order self) (axes1Of axis))
        let (name1, name2) ← splitNames (h.node self).name
        let (rootArray, childArray) ← splitArrays csvd a (axes1Of axis) shape1 shape2
          (indiceOf axis indice).1 (indiceOf axis indice).2
        let (h1, root) := h.place root (some name1) rootArray none nrm
        let (h2, child) := h1.place child (some name2) childArray (some (indiceOf axis indice).2) nrm
        let (h3, info) ← splitLoop self root child
          (pyInsert ((axes1Of axis).map some) (indiceOf axis indice).1 none)
          (pyInsert ((axes2Of (h.order self) (axes1Of axis)).map some) (indiceOf axis indice).2 none)
          (h.children self none) h2
          [(root, (indiceOf axis indice).1, child, (indiceOf axis indice).2)]
        pure (h3.linkAll info, root, child)) := by
    unfold split; cases axis <;> rfl
  rw [key]
  by_cases hax : (h.node self).axis = none
  · simp only [hax, ne_eq, not_true, if_false]
    cases harr : h.array self with
    | none => simp
    | some a =>
      simp only [pure_eq_ok, ok_bind, bind_eq_ok]
      constructor
      · rintro ⟨shape1, e1, shape2, e2, ⟨n1, n2⟩, e3, ⟨ra, ca⟩, e4, ⟨h3, info⟩, e5, e6⟩
        cases e6
        exact ⟨a, shape1, shape2, n1, n2, ra, ca, _, _, h3, info, trivial, rfl, e1, e2, e3, e4, rfl,
          rfl, e5, rfl⟩
      · rintro ⟨a', shape1, shape2, n1, n2, ra, ca, h1, h2, h3, info, -, e0, e1, e2, e3, e4, e5, e6,
          e7, e8⟩
        cases e0
        refine ⟨shape1, e1, shape2, e2, (n1, n2), e3, (ra, ca), e4, (h3, info), ?_, ?_⟩
        · simp only [e5, e6]; exact e7
        · simp only [e5, e6, e8]
  · simp [hax]

theorem unite_iff {h h' : Heap R} {self axis : ℕ} {root : Option ℕ} {nrm : Bool} {r : ℕ} :
    h.unite self axis root nrm = .ok (h', r) ↔
      ∃ t2 j a1 a2 arr name h1 h2 h3 info,
        h.acc self axis = some (t2, j) ∧
        ¬ ((h.node self).axis ≠ none ∧ (h.node t2).axis ≠ none) ∧
        h.array self = some a1 ∧ h.array t2 = some a2 ∧ axis < a1.ndim ∧ j < a2.ndim ∧
        Tensor.partialProduct a1 axis (some a2) j = .ok arr ∧
        uniteName (h.node self).name (h.node t2).name = .ok name ∧
        h.place root name arr none nrm = (h1, r) ∧
        h1.unlink self axis t2 j = .ok h2 ∧
        uniteLoop r (((h2.children self none).map fun x => (self, x)).take axis ++
          ((h2.children t2 none).map fun x => (t2, x)) ++
          ((h2.children self none).map fun x => (self, x)).drop axis) h2 [] = .ok (h3, info) ∧
        h' = h3.linkAll info := by
  unfold unite
  rw [acc_def]
  cases h1 : Dict.get? (h.access self) axis with
  | none => simp [Dict.get!, h1]
  | some x =>
    obtain ⟨t2, j⟩ := x
    simp only [Dict.get!, h1, ok_bind]
    by_cases hax : (h.node self).axis ≠ none ∧ (h.node t2).axis ≠ none
    · constructor
      · intro e; simp [hax] at e
      · rintro ⟨t2', j', a1, a2, arr, name, h1, h2, h3, info, e1, e2, -⟩
        cases e1
        exact absurd hax e2
    · simp only [hax, if_false, pure_eq_ok, ok_bind]
      cases ha1 : h.array self with
      | none =>
        constructor
        · intro e; simp at e
        · rintro ⟨t2', j', a1, a2, arr, name, h1, h2, h3, info, e1, e2, e3, -⟩
          cases e3
      | some a1 =>
        cases ha2 : h.array t2 with
        | none =>
          constructor
          · intro e; simp at e
          · rintro ⟨t2', j', a1, a2, arr, name, h1, h2, h3, info, e1, e2, e3, e4, -⟩
            cases e1
            rw [ha2] at e4; cases e4
        | some a2 =>
          by_cases hd : axis < a1.ndim ∧ j < a2.ndim
          · simp only [hd, and_self, not_true, if_false, bind_eq_ok, pure_eq_ok, ok_bind]
            constructor
            · rintro ⟨arr, e1, name, e2, h2, e3, ⟨h3, info⟩, e4, e5⟩
              cases e5
              exact ⟨t2, j, a1, a2, arr, name, _, h2, h3, info, rfl, hax, rfl, ha2, hd.1, hd.2, e1,
                e2, rfl, e3, e4, rfl⟩
            · rintro ⟨t2', j', a1', a2', arr, name, h1, h2, h3, info, e1, e2, e3, e4, e5, e6, e7, e8,
                e9, e10, e11, e12⟩
              cases e1
              cases e3
              rw [ha2] at e4; cases e4
              refine ⟨arr, e7, name, e8, h2, ?_, (h3, info), ?_, ?_⟩
              · rw [e9]; exact e10
              · rw [e9]; exact e11
              · rw [e9, e12]
          · constructor
            · intro e; simp [hd] at e
            · rintro ⟨t2', j', a1', a2', arr, name, h1, h2, h3, info, e1, e2, e3, e4, e5, e6, -⟩
              cases e1
              cases e3
              rw [ha2] at e4; cases e4
              exact absurd ⟨e5, e6⟩ hd

/-! ### place -/

/-- Effect of creating a tensor or writing into an existing one. -/
theorem place_spec {h h' : Heap R} {t : Option ℕ} {name : Option (List Char)} {arr : Nd R}
    {axis : Option ℕ} {nrm : Bool} {r : ℕ} (e : h.place t name arr axis nrm = (h', r))
    (hw : h.Wf) (hf : h.Fresh) (ht : ∀ x, t = some x → x < h.next) :
    h'.Wf ∧ h'.Fresh ∧ (∀ c k, h'.acc c k = h.acc c k) ∧ r < h'.next ∧ h.next ≤ h'.next ∧
      (∀ x, t = some x → r = x ∧ h'.next = h.next) ∧
      (t = none → r = h.next ∧ h'.next = h.next + 1) := by
  cases t with
  | none =>
    simp only [place] at e
    have e1 : h' = (h.alloc (Node.tensor name (some arr) axis nrm)).1 := by rw [e]
    have e2 : r = h.next := by have := congrArg Prod.snd e; exact this.symm
    subst e1; subst e2
    refine ⟨wf_alloc hw _ Dict.wf_nil, ?_, ?_, Nat.lt_succ_self _, Nat.le_succ _, by simp, by simp [alloc]⟩
    · intro a ha
      change h.next + 1 ≤ a at ha
      have := hf a (by omega)
      simp only [access, alloc]
      rw [if_neg (by omega)]
      exact this
    · intro c k
      rw [acc_alloc]
      split
      · rename_i hc
        rw [acc_def, hf c (by omega)]; rfl
      · rfl
  | some x =>
    simp only [place, Prod.mk.injEq] at e
    obtain ⟨rfl, rfl⟩ := e
    have ha : ∀ c, ((h.setAxis x axis).setArray x (some arr)).access c = h.access c := by
      intro c
      simp only [setArray, setAxis, access_upd, node_upd]
      split <;> simp_all [access]
    refine ⟨fun a => by rw [ha]; exact hw a, fun a h1 => by rw [ha]; exact hf a h1, ?_,
      ht x rfl, le_refl _, ?_, by simp⟩
    · intro c k; rw [acc_def, acc_def, ha]
    · intro y hy; cases hy; exact ⟨rfl, rfl⟩

/-- Effect of `place` on everything but the links. -/
theorem place_core {h h' : Heap R} {t : Option ℕ} {name : Option (List Char)} {arr : Nd R}
    {axis : Option ℕ} {nrm : Bool} {r : ℕ} (e : h.place t name arr axis nrm = (h', r)) :
    (∀ c, c ≠ r → h'.node c = h.node c) ∧ h'.array r = some arr ∧ (h'.node r).axis = axis ∧
      (t = none → (h'.node r).isLeaf = false ∧ (h'.node r).name = name ∧
        (h'.node r).normalized = nrm) ∧
      (∀ x, t = some x → (h'.node r).isLeaf = (h.node r).isLeaf ∧
        (h'.node r).name = (h.node r).name ∧ (h'.node r).normalized = (h.node r).normalized ∧
        (h'.node r).aux = (h.node r).aux) := by
  cases t with
  | none =>
    simp only [place, alloc, Prod.mk.injEq] at e
    obtain ⟨rfl, rfl⟩ := e
    simp [Node.tensor, array]
    intro c hc1 hc2; exact absurd hc2 hc1
  | some x =>
    simp only [place, Prod.mk.injEq] at e
    obtain ⟨rfl, rfl⟩ := e
    simp [setArray, setAxis, node_upd, array]
    intro c hc1; simp [hc1]

end Heap
