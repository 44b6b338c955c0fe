import Verif.Model.MaxEntangled

/-!
C108: what `_local_matvec(leaf)` of `minitn/algorithms/ml.py` does: the Krylov vectors of `autocomplete(max_entangled=True)` are made with it.
-/

open Py
open scoped BigOperators

namespace ML

open Davidson

/-- Specification: an `n × n` matrix as a vector, row after row. -/
def rowMajor {n : ℕ} (V : Fin n → Fin n → ℝ) : Vec (n * n) := fun i =>
  V ⟨i / n, Nat.div_lt_of_lt_mul i.2⟩ ⟨i % n, Nat.mod_lt _ (Nat.pos_of_ne_zero fun q => by subst q; exact absurd i.2 (by simp))⟩

/-- The first term of `h_list` that acts on the leaf alone gives the Hamiltonian; the matrix `V` becomes the matrix product `H V`. If there is no such term
there, the one of `f_list` at time 0 counts. -/
theorem C108_matvec {s : Obj ℝ ℝ} {leaf : ℕ} {before after : List (Term ℝ ℝ)} {a : Nd ℝ} {n : ℕ} (ha : a.shape = [n, n])
    (hno : ∀ term ∈ before, ∀ op, term ≠ [(leaf, op)])
    (hs : s.hList = before ++ [(leaf, .mat a)] :: after ∨
      (∀ term ∈ s.hList, ∀ op, term ≠ [(leaf, op)]) ∧ ∃ f : ℝ → Nd ℝ, f 0 = a ∧ s.fList = some (before ++ [(leaf, .fn f)] :: after)) :
    localHamiltonian s leaf = .ok a ∧ ∃ A, localMatvec n a = .ok A ∧
      ∀ V : Fin n → Fin n → ℝ, A (rowMajor V) = rowMajor fun i j => ∑ k : Fin n, a.get [i, k] * V k j := by
  have hskip : ∀ (l r : List (Term ℝ ℝ)), (∀ term ∈ l, ∀ op, term ≠ [(leaf, op)]) → localTerm leaf (l ++ r) = localTerm leaf r := by
    intro l r
    induction l with
    | nil => exact fun _ => rfl
    | cons term l ih =>
      intro h
      unfold localTerm at ih ⊢
      rw [List.cons_append, List.findSome?_cons]
      match term, h with
      | [], h => exact ih fun t ht => h t (List.mem_cons_of_mem _ ht)
      | [p], h =>
        have hp : p.1 ≠ leaf := fun q => h [p] (by simp) p.2 (by rw [← q])
        simp only [if_neg hp]
        exact ih fun t ht => h t (List.mem_cons_of_mem _ ht)
      | _ :: _ :: _, h => exact ih fun t ht => h t (List.mem_cons_of_mem _ ht)
  have hhit : ∀ (op : TermOp ℝ ℝ) (r : List (Term ℝ ℝ)), localTerm leaf ([(leaf, op)] :: r) = some op := by
    intro op r
    unfold localTerm
    rw [List.findSome?_cons]
    simp
  refine ⟨?_, ?_⟩
  · unfold localHamiltonian
    rcases hs with hs | ⟨h1, f, rfl, h2⟩
    · rw [hs, hskip _ _ hno, hhit]
    · have h3 : localTerm leaf s.hList = none := by
        have := hskip s.hList [] h1
        rw [List.append_nil] at this
        rw [this]
        rfl
      rw [h3, h2]
      dsimp only
      rw [Option.getD_some, hskip _ _ hno, hhit]
  · unfold localMatvec
    rw [if_pos ha]
    refine ⟨_, rfl, fun V => ?_⟩
    funext i
    have hn : 0 < n := Nat.pos_of_ne_zero fun q => by subst q; exact absurd i.2 (by simp)
    have hi : i.1 % n < n := Nat.mod_lt _ hn
    change (∑ k : Fin n, a.get [i.1 / n, k] * rowMajor V ⟨k * n + i.1 % n, _⟩) = ∑ k : Fin n, a.get [i.1 / n, k] * V k _
    refine Finset.sum_congr rfl fun k _ => ?_
    congr 1
    unfold rowMajor
    congr 1
    · apply Fin.ext
      dsimp only
      rw [mul_comm, Nat.mul_add_div hn, Nat.div_eq_of_lt hi, add_zero]
    · apply Fin.ext
      dsimp only
      rw [mul_comm, Nat.mul_add_mod, Nat.mod_mod]

/-- Without a term for the leaf alone there is a `RuntimeError`. -/
theorem C108_matvec_error {s : Obj ℝ ℝ} {leaf : ℕ} (h : ∀ term ∈ s.hList ++ s.fList.getD [], ∀ op, term ≠ [(leaf, op)]) :
    localHamiltonian s leaf = .error .runtimeError := by
  have hskip : ∀ l : List (Term ℝ ℝ), (∀ term ∈ l, ∀ op, term ≠ [(leaf, op)]) → localTerm leaf l = none := by
    intro l
    induction l with
    | nil => exact fun _ => rfl
    | cons term l ih =>
      intro h
      unfold localTerm at ih ⊢
      rw [List.findSome?_cons]
      match term, h with
      | [], h => exact ih fun t ht => h t (List.mem_cons_of_mem _ ht)
      | [p], h =>
        have hp : p.1 ≠ leaf := fun q => h [p] (by simp) p.2 (by rw [← q])
        simp only [if_neg hp]
        exact ih fun t ht => h t (List.mem_cons_of_mem _ ht)
      | _ :: _ :: _, h => exact ih fun t ht => h t (List.mem_cons_of_mem _ ht)
  unfold localHamiltonian
  rw [hskip _ fun t ht => h t (List.mem_append_left _ ht), hskip _ fun t ht => h t (List.mem_append_right _ ht)]

/-- A matrix that is not symmetric, after a term with two leaves and a term for another leaf. -/
example : ∃ A, localMatvec 2 (⟨[2, 2], [0, 1, 5, 0]⟩ : Nd ℝ) = .ok A ∧ ∀ V : Fin 2 → Fin 2 → ℝ, A (rowMajor V) = rowMajor fun i j =>
    ∑ k : Fin 2, (⟨[2, 2], [0, 1, 5, 0]⟩ : Nd ℝ).get [i, k] * V k j :=
  (C108_matvec (s := ⟨⟨fun _ => Node.leaf none, 0⟩, 0, [[(1, .mat ⟨[2, 2], [1, 0, 0, 1]⟩), (2, .mat ⟨[2, 2], [1, 0, 0, 1]⟩)],
    [(2, .mat ⟨[2, 2], [1, 0, 0, 1]⟩)], [(1, .mat ⟨[2, 2], [0, 1, 5, 0]⟩)]], none, none, []⟩) (leaf := 1)
    (before := [[(1, .mat ⟨[2, 2], [1, 0, 0, 1]⟩), (2, .mat ⟨[2, 2], [1, 0, 0, 1]⟩)], [(2, .mat ⟨[2, 2], [1, 0, 0, 1]⟩)]]) (after := []) rfl
    (by
      intro term ht op
      simp only [List.mem_cons, List.not_mem_nil, or_false] at ht
      rcases ht with rfl | rfl <;> simp) (.inl rfl)).2

end ML
