import Verif.Lemmas.Sbm2
import Verif.Nd.Lemmas
import Mathlib.Algebra.BigOperators.GroupWithZero.Action

/-! The Hamiltonian of the spin-boson model as a matrix. -/

open scoped BigOperators
open Py

namespace Sbm

open SbmSpec

/-- The matrix of `hamiltonian`. -/
noncomputable def element (modes : List (ℝ × ℝ)) (h q : ℕ → ℕ → ℂ) (a : ℕ) (n : List ℕ) (b : ℕ) (m : List ℕ) : ℂ :=
  (if m = n then h a b else 0) +
  ∑ k ∈ Finset.range modes.length, ((if m = n ∧ b = a then (modes.getD k 0).1 * ((n.getD k 0 : ℂ) + 1 / 2) else 0) +
    (modes.getD k 0).2 * (q a b * ((if n.getD k 0 ≠ 0 ∧ m = n.set k (n.getD k 0 - 1) then ((Real.sqrt (n.getD k 0 : ℕ) : ℝ) : ℂ) else 0) +
      (if m = n.set k (n.getD k 0 + 1) then ((Real.sqrt (n.getD k 0 + 1 : ℕ) : ℝ) : ℂ) else 0))))

theorem sumIdx_single {sh : List ℕ} {p : List ℕ} (hp : Valid sh p) (f : List ℕ → ℂ) : (sumIdx sh fun q => if q = p then f q else 0) = f p := by
  induction hp generalizing f with
  | nil => simp
  | @cons i d is ds hi hv ih =>
    rw [sumIdx_cons, Finset.sum_eq_single i]
    · rw [← ih fun is => f (i :: is)]
      exact sumIdx_congr fun q _ => by simp
    · intro j _ hj
      rw [← sumIdx_zero (α := ℂ) ds]
      exact sumIdx_congr fun q _ => by simp [hj]
    · intro h; exact absurd (Finset.mem_range.2 hi) h

theorem sumIdx_none {sh : List ℕ} {p : List ℕ} (hp : ¬ Valid sh p) (f : List ℕ → ℂ) : (sumIdx sh fun q => if q = p then f q else 0) = 0 := by
  refine (sumIdx_congr fun q hq => if_neg ?_).trans (sumIdx_zero (α := ℂ) sh)
  rintro rfl
  exact hp hq

theorem hamiltonian_eq {d : ℕ} {dims : List ℕ} {modes : List (ℝ × ℝ)} (hl : modes.length = dims.length) (h q : ℕ → ℕ → ℂ) (psi : ℕ → List ℕ → ℂ)
    {a : ℕ} (ha : a < d) {n : List ℕ} (hn : Valid dims n) :
    hamiltonian d dims modes h q psi a n = ∑ b ∈ Finset.range d, sumIdx dims fun m => element modes h q a n b m * psi b m := by
  have e : ∀ b, (sumIdx dims fun m => element modes h q a n b m * psi b m) =
      h a b * psi b n + ∑ k ∈ Finset.range modes.length, ((if b = a then (modes.getD k 0).1 * ((n.getD k 0 : ℂ) + 1 / 2) * psi b n else 0) +
        (modes.getD k 0).2 * (q a b * (((Real.sqrt (n.getD k 0 : ℕ) : ℝ) : ℂ) * psiBelow psi n k b +
          ((Real.sqrt (n.getD k 0 + 1 : ℕ) : ℝ) : ℂ) * psiAbove dims psi n k b))) := by
    intro b
    have e1 : ∀ m, element modes h q a n b m * psi b m = (if m = n then h a b * psi b m else 0) + ∑ k ∈ Finset.range modes.length,
        ((if m = n then (if b = a then (modes.getD k 0).1 * ((n.getD k 0 : ℂ) + 1 / 2) * psi b m else 0) else 0) + (modes.getD k 0).2 * (q a b *
          ((if m = n.set k (n.getD k 0 - 1) then (if n.getD k 0 ≠ 0 then ((Real.sqrt (n.getD k 0 : ℕ) : ℝ) : ℂ) * psi b m else 0) else 0) +
          (if m = n.set k (n.getD k 0 + 1) then ((Real.sqrt (n.getD k 0 + 1 : ℕ) : ℝ) : ℂ) * psi b m else 0)))) := by
      intro m
      unfold element
      rw [add_mul, ite_mul, zero_mul, Finset.sum_mul]
      congr 1
      refine Finset.sum_congr rfl fun k _ => ?_
      rw [add_mul]
      congr 1
      · by_cases h1 : m = n <;> by_cases h2 : b = a <;> simp [h1, h2]
      · rw [mul_assoc, mul_assoc, add_mul]
        congr 3
        · by_cases h1 : m = n.set k (n.getD k 0 - 1)
          · by_cases h2 : n.getD k 0 = 0
            · rw [if_neg (fun e => e.1 h2), if_pos h1, if_neg (not_not.2 h2), zero_mul]
            · rw [if_pos ⟨h2, h1⟩, if_pos h1, if_pos h2]
          · rw [if_neg (fun e => h1 e.2), if_neg h1, zero_mul]
        · rw [ite_mul, zero_mul]
    rw [sumIdx_congr fun m _ => e1 m, sumIdx_add, sumIdx_single hn, sumIdx_sum]
    congr 1
    refine Finset.sum_congr rfl fun k hk => ?_
    have hk : k < dims.length := hl ▸ Finset.mem_range.1 hk
    rw [sumIdx_add, sumIdx_single hn, sumIdx_mul_left, sumIdx_mul_left, sumIdx_add]
    congr 4
    · unfold psiBelow
      by_cases h0 : n.getD k 0 = 0
      · simp only [h0, ne_eq, not_true_eq_false, if_false, ite_self, if_true, mul_zero, sumIdx_zero]
      · have hv : Valid dims (n.set k (n.getD k 0 - 1)) := Heom.valid_set hn (by have := hn.getD_lt hk 0 0; omega)
        rw [sumIdx_single hv, if_pos h0, if_neg h0]
    · unfold psiAbove
      by_cases h0 : n.getD k 0 + 1 < dims.getD k 0
      · rw [sumIdx_single (Heom.valid_set hn h0), if_pos h0]
      · rw [if_neg h0, mul_zero, sumIdx_none]
        intro hv
        have := hv.getD_lt hk 0 0
        have hk' : k < n.length := by rw [hn.length_eq]; exact hk
        rw [List.getD_eq_getElem _ _ (by simpa using hk'), List.getElem_set_self] at this
        exact h0 this
  unfold hamiltonian
  rw [Finset.sum_congr (s₁ := Finset.range d) rfl fun b _ => e b,
    Finset.sum_add_distrib (s := Finset.range d) (f := fun b => h a b * psi b n)]
  congr 1
  rw [Finset.sum_comm]
  refine Finset.sum_congr rfl fun k _ => ?_
  rw [Finset.sum_add_distrib, Finset.sum_ite_eq' , if_pos (Finset.mem_range.2 ha), Finset.mul_sum]

/-- The transposed matrix is that of the transposed operators. -/
theorem element_transpose {dims : List ℕ} {modes : List (ℝ × ℝ)} (hl : modes.length = dims.length) (h q : ℕ → ℕ → ℂ)
    (a b : ℕ) {n m : List ℕ} (hn : Valid dims n) (hm : Valid dims m) :
    element modes h q b m a n = element modes (fun a b => h b a) (fun a b => q b a) a n b m := by
  have key : ∀ {n m : List ℕ} (k : ℕ), Valid dims n → Valid dims m → k < dims.length →
      (if n.getD k 0 ≠ 0 ∧ m = n.set k (n.getD k 0 - 1) then ((Real.sqrt (n.getD k 0 : ℕ) : ℝ) : ℂ) else 0) =
      if n = m.set k (m.getD k 0 + 1) then ((Real.sqrt (m.getD k 0 + 1 : ℕ) : ℝ) : ℂ) else 0 := by
    intro n m k hn hm hk
    have hk1 : k < n.length := by rw [hn.length_eq]; exact hk
    have hk2 : k < m.length := by rw [hm.length_eq]; exact hk
    by_cases h : n.getD k 0 ≠ 0 ∧ m = n.set k (n.getD k 0 - 1)
    · obtain ⟨h1, h2⟩ := h
      have g : m.getD k 0 + 1 = n.getD k 0 := by
        rw [h2, List.getD_eq_getElem _ _ (by simpa using hk1), List.getElem_set_self]; omega
      rw [if_pos ⟨h1, h2⟩, if_pos, g]
      rw [g, h2, List.set_set, Heom.set_self hk1]
    · rw [if_neg h, if_neg]
      intro h2
      refine h ?_
      have g : n.getD k 0 = m.getD k 0 + 1 := by
        rw [h2, List.getD_eq_getElem _ _ (by simpa using hk2), List.getElem_set_self]
      refine ⟨by omega, ?_⟩
      rw [g, Nat.add_sub_cancel, h2, List.set_set, Heom.set_self hk2]
  unfold element
  congr 1
  · by_cases e : m = n
    · subst e; simp only [if_true]
    · rw [if_neg e, if_neg (Ne.symm e)]
  · refine Finset.sum_congr rfl fun k hk => ?_
    have hk : k < dims.length := hl ▸ Finset.mem_range.1 hk
    rw [key k hm hn hk, ← key k hn hm hk]
    congr 1
    · by_cases e : m = n
      · subst e
        by_cases e' : b = a
        · subst e'; simp
        · simp [e', Ne.symm e']
      · simp [e, Ne.symm e]
    · congr 2
      rw [add_comm]

theorem element_conj (modes : List (ℝ × ℝ)) (h q : ℕ → ℕ → ℂ) (a : ℕ) (n : List ℕ) (b : ℕ) (m : List ℕ) :
    (starRingEnd ℂ) (element modes h q a n b m) =
      element modes (fun a b => (starRingEnd ℂ) (h a b)) (fun a b => (starRingEnd ℂ) (q a b)) a n b m := by
  unfold element
  rw [map_add, map_sum]
  congr 1
  · split <;> simp
  · refine Finset.sum_congr rfl fun k _ => ?_
    rw [map_add, map_mul, map_mul, map_add, Complex.conj_ofReal]
    congr 1
    · split <;> simp [Complex.conj_ofNat]
    · congr 3
      · split <;> simp
      · split <;> simp

theorem element_congr (modes : List (ℝ × ℝ)) {h h' q q' : ℕ → ℕ → ℂ} {a b : ℕ} (n m : List ℕ) (e1 : h a b = h' a b) (e2 : q a b = q' a b) :
    element modes h q a n b m = element modes h' q' a n b m := by
  unfold element
  rw [e1, e2]

/-- The Hamiltonian of Hermitian operators is Hermitian. -/
theorem element_hermitian {d : ℕ} {dims : List ℕ} {modes : List (ℝ × ℝ)} (hl : modes.length = dims.length) {h q : ℕ → ℕ → ℂ}
    (hh : ∀ a b, a < d → b < d → h b a = (starRingEnd ℂ) (h a b)) (hq : ∀ a b, a < d → b < d → q b a = (starRingEnd ℂ) (q a b))
    {a b : ℕ} (ha : a < d) (hb : b < d) {n m : List ℕ} (hn : Valid dims n) (hm : Valid dims m) :
    element modes h q b m a n = (starRingEnd ℂ) (element modes h q a n b m) := by
  rw [element_transpose hl h q a b hn hm, element_conj]
  exact element_congr modes n m (hh a b ha hb) (hq a b ha hb)

/-- A Hermitian form is real. -/
theorem form_real {s : List ℕ} {Q : List ℕ → List ℕ → ℂ} (hQ : ∀ x y, Valid s x → Valid s y → Q y x = (starRingEnd ℂ) (Q x y)) (f : List ℕ → ℂ) :
    (starRingEnd ℂ) (sumIdx s fun x => (starRingEnd ℂ) (f x) * sumIdx s fun y => Q x y * f y) =
      sumIdx s fun x => (starRingEnd ℂ) (f x) * sumIdx s fun y => Q x y * f y := by
  have e : ∀ g : List ℕ → ℂ, (starRingEnd ℂ) (sumIdx s g) = sumIdx s fun x => (starRingEnd ℂ) (g x) := by
    intro g
    rw [sumIdx_eq_sum_range, sumIdx_eq_sum_range, map_sum]
  simp only [← sumIdx_mul_left]
  rw [e, sumIdx_congr fun x _ => e _]
  refine (sumIdx_comm s s _).trans (sumIdx_congr fun x hx => sumIdx_congr fun y hy => ?_)
  rw [map_mul, map_mul, Complex.conj_conj, ← hQ y x hy hx]
  ring

end Sbm
