import Verif.Lemmas.TermVisitor
import Verif.Props.C14

/-!
C29: visiting the terms of an operator leaves no operator behind.

`AtTerm s0 F useCache n term s` describes the state `s` the caller sees at `yield n`, `Clean s0 F s` the state afterwards
(`Spec/TermVisitor.lean`). The tree of the network is `F`.
-/

open Py

namespace ML

open Heap

variable {T R A : Type} [Zero T] [CommRing R]

/-- Whatever the caller does at each `yield` (within `BodyOk`: it computes with the network and changes at most `aux`, caches and
its own data): the terms are visited in order, each once, from the first one on (the first time-dependent one if `only_td`); at
`yield n` every leaf carries exactly the operator term `n` names for it; in the end no leaf carries an operator, and the other
arrays and the links are as before. `I` is an arbitrary assertion of the caller; it is carried from term to term. -/
theorem C29_term_visitor {s0 : Obj T R} {F : Forest} (ht : s0.heap.IsTTN s0.root F) {fuel : ℕ} (hf : F.depth < fuel)
    {useCache onlyTd : Bool} {op : Option (List (Term T R))} {body : ℕ → Obj T R × A → Res (Obj T R × A)}
    {I : ℕ → Obj T R → A → Prop}
    (hI : ∀ n (s : Obj T R) a h', Sim noOps s.heap h' → I n s a → I n { s with heap := h' } a)
    (hterm : ∀ term ∈ s0.allTerms op, ∀ p ∈ term, s0.heap.isLeaf p.1 = true)
    (hb : ∀ n term, (s0.allTerms op)[n]? = some term → firstTerm s0 op onlyTd ≤ n → BodyOk s0 F useCache body I n term)
    {a : A} (hi : I (firstTerm s0 op onlyTd) s0 a) :
    ∃ s' a', termVisitor fuel useCache op onlyTd body s0 a = .ok (s', a') ∧ Clean s0 F s' ∧
      I (s0.allTerms op).length s' a' :=
  termVisitor_ok ht hf hI hterm hb hi

/-- The states seen by a caller that only looks on: one for each term, in order. -/
theorem C29_trace {s0 : Obj T R} {F : Forest} (ht : s0.heap.IsTTN s0.root F) {fuel : ℕ} (hf : F.depth < fuel)
    {useCache onlyTd : Bool} {op : Option (List (Term T R))}
    (hterm : ∀ term ∈ s0.allTerms op, ∀ p ∈ term, s0.heap.isLeaf p.1 = true) :
    ∃ s' seen, termVisitor fuel useCache op onlyTd (fun n (x : Obj T R × List (ℕ × Obj T R)) =>
        .ok (x.1, x.2 ++ [(n, x.1)])) s0 [] = .ok (s', seen) ∧ Clean s0 F s' ∧
      seen.map Prod.fst = List.range' (firstTerm s0 op onlyTd) ((s0.allTerms op).length - firstTerm s0 op onlyTd) ∧
      ∀ p ∈ seen, ∃ term, (s0.allTerms op)[p.1]? = some term ∧ AtTerm s0 F useCache p.1 term p.2 := by
  obtain ⟨s', a', h1, h2, h3⟩ := termVisitor_ok (A := List (ℕ × Obj T R)) (useCache := useCache) (onlyTd := onlyTd) ht hf
    (body := fun n x => .ok (x.1, x.2 ++ [(n, x.1)]))
    (I := fun n _ a => firstTerm s0 op onlyTd ≤ n ∧
      a.map Prod.fst = List.range' (firstTerm s0 op onlyTd) (n - firstTerm s0 op onlyTd) ∧
      ∀ p ∈ a, ∃ term, (s0.allTerms op)[p.1]? = some term ∧ AtTerm s0 F useCache p.1 term p.2)
    (fun n s a h' _ h => h) hterm
    (fun n term hn hle s a hat _ hi => by
      refine ⟨s, a ++ [(n, s)], rfl, Sim.rfl' _, rfl, by omega, ?_, ?_⟩
      · rw [List.map_append, hi.2.1]
        obtain ⟨d, rfl⟩ : ∃ d, n = firstTerm s0 op onlyTd + d := ⟨n - firstTerm s0 op onlyTd, by omega⟩
        rw [Nat.add_assoc, Nat.add_sub_cancel_left, Nat.add_sub_cancel_left, List.range'_concat]
        simp
      · intro p hp
        rcases List.mem_append.1 hp with hp | hp
        · exact hi.2.2 p hp
        · rw [List.mem_singleton] at hp
          subst hp
          exact ⟨term, hn, hat⟩)
    (a := []) ⟨le_refl _, by simp, by simp⟩
  exact ⟨s', a', h1, h2, h3.2⟩

/-- A term that names something that is not a Leaf is an error, before the caller's code runs for it. -/
theorem C29_not_leaf {s0 : Obj T R} {F : Forest} (ht : s0.heap.IsTTN s0.root F) {fuel : ℕ} (hf : F.depth < fuel)
    {useCache onlyTd : Bool} {term : Term T R} {rest : List (Term T R)} (hterm : ∃ p ∈ term, s0.heap.isLeaf p.1 = false)
    (body : ℕ → Obj T R × A → Res (Obj T R × A)) (a : A) :
    termVisitor fuel useCache (some (term :: rest)) onlyTd body s0 a = .error .runtimeError := by
  have hset : ∀ (term : Term T R) (time : T) (h : Heap R), (∃ p ∈ term, h.isLeaf p.1 = false) →
      setTerm time term h = .error .runtimeError := by
    intro term time
    induction term with
    | nil => rintro h ⟨p, hp, -⟩; simp at hp
    | cons q term ih =>
      rintro h ⟨p, hp, hl⟩
      unfold setTerm
      rw [List.foldlM_cons]
      cases hq : h.isLeaf q.1 with
      | false => simp only [Bool.false_eq_true, if_false]; rfl
      | true =>
        simp only [if_true]
        refine ih (h.setArray q.1 (some (q.2.at time))) ⟨p, ?_, ?_⟩
        · rcases List.mem_cons.1 hp with rfl | hp
          · rw [hq] at hl; cases hl
          · exact hp
        · rw [(sim_setArray h hq _).ops.isLeaf]; exact hl
  have hv := visitor_tree ht.tree true hf
  simp only [Bool.true_or, if_true, List.filter_true, List.cons_append, List.nil_append] at hv
  have e1 : Sim noOps ((s0.root :: F.ids).foldl Heap.reset s0.heap) s0.heap := foldl_sim noOps_reset _ _
  have ht1 := Sim2.ttn (Sim.symm e1.ops) ht
  have hv1 := visitor_tree ht1.tree false hf
  rw [tensors_list ht1] at hv1
  unfold termVisitor
  simp only [hv, bind, Except.bind, Obj.allTerms, List.zipIdx_cons, List.foldlM_cons, Option.isNone_some, Bool.false_and,
    Bool.false_eq_true, if_false]
  unfold termPass
  simp only [hv1, bind, Except.bind]
  rw [hset]
  obtain ⟨p, hp, hl⟩ := hterm
  refine ⟨p, hp, ?_⟩
  rw [(foldl_sim (loadTensor_sim _ _ _) _ _).ops.isLeaf, e1.ops.isLeaf]
  exact hl

/-! Instance: the network of C14 (one leaf already carries an operator), two terms, one depending on the time; the leaf 2 is
named twice in the first one. -/

/-- A `MultiLayer` object for `exTwoAux`. -/
def exObj : Obj ℕ ℤ :=
  { heap := exTwoAux, root := 0,
    hList := [[(2, .mat ⟨[2, 2], [9, 9, 9, 9]⟩), (3, .mat ⟨[2, 2], [1, 2, 3, 4]⟩), (2, .mat ⟨[2, 2], [0, 1, 1, 0]⟩)]],
    fList := some [[(3, .fn fun t => ⟨[2, 2], [t, 0, 0, 2 * t]⟩)]], time := some 5, env := [] }

theorem exObj_terms : ∀ term ∈ exObj.allTerms none, ∀ p ∈ term, exObj.heap.isLeaf p.1 = true := by
  intro term h p hp
  simp only [exObj, Obj.allTerms, List.cons_append, List.nil_append, List.mem_cons, List.not_mem_nil, or_false] at h
  rcases h with rfl | rfl <;> simp only [List.mem_cons, List.not_mem_nil, or_false] at hp
  · rcases hp with rfl | rfl | rfl <;> rfl
  · subst hp; rfl

example : ∃ s' seen, termVisitor 3 false none false (fun n (x : Obj ℕ ℤ × List (ℕ × Obj ℕ ℤ)) =>
        .ok (x.1, x.2 ++ [(n, x.1)])) exObj [] = .ok (s', seen) ∧ Clean exObj exTwoForest s' ∧
      seen.map Prod.fst = [0, 1] ∧
      ∀ p ∈ seen, ∃ term, (exObj.allTerms none)[p.1]? = some term ∧ AtTerm exObj exTwoForest false p.1 term p.2 :=
  C29_trace exTwoAux_ttn (by decide) exObj_terms

/-- What is seen on the leaves 2 and 3, and after the visit. -/
example : ((termVisitor 3 false none false (fun n (x : Obj ℕ ℤ × List (ℕ × List (Option (List ℤ)))) =>
        .ok (x.1, x.2 ++ [(n, [2, 3].map fun l => (x.1.heap.array l).map Nd.data)])) exObj []).toOption.map fun r =>
      (r.2, [2, 3].map fun l => (r.1.heap.array l).map Nd.data)) =
    some ([(0, [some [0, 1, 1, 0], some [1, 2, 3, 4]]), (1, [none, some [5, 0, 0, 10]])], [none, none]) := by
  rfl

end ML
