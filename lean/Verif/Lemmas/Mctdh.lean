import Verif.Spec.Mctdh
import Verif.Nd.AddLemmas
import Verif.Nd.OpsLemmas
import Verif.Lemmas.Contract
import Verif.Py.Lemmas
import Verif.Props.C38
import Verif.Props.C51
import Mathlib.Algebra.BigOperators.Ring.Finset
import Mathlib.Algebra.BigOperators.Group.Finset.Piecewise
import Mathlib.Algebra.BigOperators.Pi
import Mathlib.Algebra.Star.BigOperators
import Mathlib.Tactic.Ring

/-!
Products of matrices, one for each coordinate.
-/

open Py
open scoped BigOperators

namespace Mctdh

variable {R : Type} [CommRing R] [StarRing R]

/-- The entry of a product of matrices, one for each of `n` coordinates. -/
def prodF (n : ℕ) (M : ℕ → ℕ → ℕ → R) (x y : List ℕ) : R := ∏ i ∈ Finset.range n, M i (x.getD i 0) (y.getD i 0)

omit [StarRing R] in
theorem prodF_cons (n : ℕ) (M : ℕ → ℕ → ℕ → R) (a b : ℕ) (x y : List ℕ) :
    prodF (n + 1) M (a :: x) (b :: y) = M 0 a b * prodF n (fun i => M (i + 1)) x y := by
  unfold prodF
  rw [Finset.prod_range_succ', mul_comm]
  simp

omit [StarRing R] in
/-- The product of products is the product of the products, coordinate by coordinate. -/
theorem prodF_comp (s : List ℕ) : ∀ (M N : ℕ → ℕ → ℕ → R) (x y : List ℕ), x.length = s.length → y.length = s.length →
    sumIdx s (fun k => prodF s.length M x k * prodF s.length N k y) =
      prodF s.length (fun i a b => ∑ k ∈ Finset.range (s.getD i 0), M i a k * N i k b) x y := by
  induction s with
  | nil => intro M N x y _ _; simp [sumIdx, prodF]
  | cons d s ih =>
    intro M N x y hx hy
    obtain ⟨a, x, rfl⟩ := List.exists_of_length_succ x hx
    obtain ⟨b, y, rfl⟩ := List.exists_of_length_succ y hy
    have hx : x.length = s.length := by simpa using hx
    have hy : y.length = s.length := by simpa using hy
    rw [sumIdx_cons, List.length_cons, prodF_cons]
    simp only [prodF_cons, List.getD_cons_zero, List.getD_cons_succ]
    rw [Finset.sum_mul]
    refine Finset.sum_congr rfl fun k _ => ?_
    rw [← ih _ _ x y hx hy, ← sumIdx_mul_left]
    exact sumIdx_congr fun idx _ => by ring

omit [StarRing R] in
theorem prodF_congr {n : ℕ} {M N : ℕ → ℕ → ℕ → R} {x y : List ℕ}
    (h : ∀ i < n, M i (x.getD i 0) (y.getD i 0) = N i (x.getD i 0) (y.getD i 0)) : prodF n M x y = prodF n N x y :=
  Finset.prod_congr rfl fun i hi => h i (Finset.mem_range.1 hi)

/-- The identity matrix. -/
def delta (a b : ℕ) : R := if a = b then 1 else 0

omit [StarRing R] in
theorem prodF_delta (s : List ℕ) : ∀ (x : List ℕ), Valid s x → ∀ f : List ℕ → R,
    sumIdx s (fun y => prodF s.length (fun _ => delta) x y * f y) = f x := by
  induction s with
  | nil =>
    intro x hx f
    cases valid_nil_iff.1 hx
    simp [sumIdx, prodF]
  | cons d s ih =>
    intro x hx f
    obtain ⟨a, x, rfl, ha, hx⟩ := valid_cons_iff.1 hx
    rw [sumIdx_cons, List.length_cons]
    simp only [prodF_cons]
    rw [Finset.sum_eq_single a]
    · simp only [delta, if_true, one_mul]
      exact ih x hx fun y => f (a :: y)
    · intro b _ hb
      have : (delta a b : R) = 0 := if_neg (Ne.symm hb)
      simp only [this, zero_mul]
      rw [sumIdx_eq_sum_range]
      simp
    · intro h
      exact absurd (Finset.mem_range.2 ha) h

/-- The matrix of a term for coordinate `i`. -/
def opAt (term : Term R) (i : ℕ) : ℕ → ℕ → R :=
  match term.lookup i with
  | some h => fun a b => h.get [a, b]
  | none => delta

omit [StarRing R] in
/-- One operator is a product with the identity at all other coordinates. -/
theorem actOn_eq_set (d' : ℕ) (s : List ℕ) : ∀ (i : ℕ) (h : Nd R), i < s.length → h.dim 1 = s.getD i 0 → ∀ x, Valid (s.set i d') x →
    ∀ f : List ℕ → R,
    actOn (i, h) f x = sumIdx s (fun y => prodF s.length (fun j => if j = i then fun a b => h.get [a, b] else delta) x y * f y) := by
  induction s with
  | nil => intro i h hi; simp at hi
  | cons d s ih =>
    intro i h hi hd x hx f
    rw [sumIdx_cons, List.length_cons]
    cases i with
    | zero =>
      obtain ⟨a, x, rfl, ha, hx⟩ := valid_cons_iff.1 hx
      simp only [prodF_cons]
      unfold actOn
      simp only [List.getD_cons_zero, List.set_cons_zero] at hd ⊢
      rw [hd]
      refine Finset.sum_congr rfl fun k _ => ?_
      have := prodF_delta s x hx fun y => f (k :: y)
      rw [← this, ← sumIdx_mul_left]
      refine sumIdx_congr fun y _ => ?_
      simp only [if_true, Nat.succ_ne_zero, if_false]
      ring
    | succ i =>
      obtain ⟨a, x, rfl, ha, hx⟩ := valid_cons_iff.1 hx
      simp only [prodF_cons]
      have e : actOn (i + 1, h) f (a :: x) = actOn (i, h) (fun y => f (a :: y)) x := by
        unfold actOn
        simp only [List.getD_cons_succ, List.set_cons_succ]
      rw [e, ih i h (by simpa using hi) (by simpa using hd) x hx]
      rw [Finset.sum_eq_single a]
      · refine sumIdx_congr fun y _ => ?_
        simp only [show (0 : ℕ) ≠ i + 1 by omega, if_false, delta, if_true, one_mul, Nat.add_right_cancel_iff]
      · intro b _ hb
        have : (delta a b : R) = 0 := if_neg (Ne.symm hb)
        simp only [show (0 : ℕ) ≠ i + 1 by omega, if_false, this, zero_mul]
        rw [sumIdx_eq_sum_range]
        simp
      · intro h
        exact absurd (Finset.mem_range.2 ha) h

omit [StarRing R] in
theorem actOn_eq (s : List ℕ) (i : ℕ) (h : Nd R) (hi : i < s.length) (hd : h.dim 1 = s.getD i 0) (x : List ℕ) (hx : Valid s x)
    (f : List ℕ → R) : actOn (i, h) f x =
      sumIdx s (fun y => prodF s.length (fun j => if j = i then fun a b => h.get [a, b] else delta) x y * f y) := by
  refine actOn_eq_set (s.getD i 0) s i h hi hd x ?_ f
  rwa [List.getD_eq_getElem _ _ hi, List.set_getElem_self]

omit [StarRing R] in
theorem sum_delta_right {n b : ℕ} (hb : b < n) (g : ℕ → R) : (∑ k ∈ Finset.range n, g k * delta k b) = g b := by
  rw [Finset.sum_eq_single b]
  · simp [delta]
  · intro k _ hk; simp [delta, hk]
  · intro h; exact absurd (Finset.mem_range.2 hb) h

omit [StarRing R] in
theorem sum_delta_left {n a : ℕ} (ha : a < n) (g : ℕ → R) : (∑ k ∈ Finset.range n, delta a k * g k) = g a := by
  rw [Finset.sum_eq_single a]
  · simp [delta]
  · intro k _ hk; simp [delta, Ne.symm hk]
  · intro h; exact absurd (Finset.mem_range.2 ha) h

omit [StarRing R] in
/-- A term is a product. -/
theorem actTerm_eq (s : List ℕ) (term : Term R) (hc : ∀ p ∈ term, p.1 < s.length ∧ p.2.dim 1 = s.getD p.1 0)
    (hn : (term.map Prod.fst).Nodup) (x : List ℕ) (hx : Valid s x) (f : List ℕ → R) :
    actTerm term f x = sumIdx s (fun y => prodF s.length (opAt term) x y * f y) := by
  induction term generalizing f with
  | nil =>
    have : opAt ([] : Term R) = fun _ => delta := rfl
    rw [this, prodF_delta s x hx]
    rfl
  | cons p term ih =>
    obtain ⟨i, h⟩ := p
    have hn' := List.nodup_cons.1 hn
    have e : actTerm ((i, h) :: term) f x = actTerm term (actOn (i, h) f) x := rfl
    rw [e, ih (fun q hq => hc q (List.mem_cons_of_mem _ hq)) hn'.2]
    obtain ⟨hi, hd⟩ := hc (i, h) List.mem_cons_self
    have e1 : sumIdx s (fun y => prodF s.length (opAt term) x y * actOn (i, h) f y) =
        sumIdx s (fun y => sumIdx s (fun z => prodF s.length (opAt term) x y *
          prodF s.length (fun j => if j = i then fun a b => h.get [a, b] else delta) y z * f z)) := by
      refine sumIdx_congr fun y hy => ?_
      rw [actOn_eq s i h hi hd y hy, ← sumIdx_mul_left]
      exact sumIdx_congr fun z _ => by ring
    rw [e1, sumIdx_comm]
    refine sumIdx_congr fun z hz => ?_
    rw [sumIdx_mul_right, prodF_comp s _ _ x z hx.length_eq hz.length_eq]
    congr 1
    refine prodF_congr fun j hj => ?_
    have hxj : x.getD j 0 < s.getD j 0 := hx.getD_lt hj 0 0
    have hzj : z.getD j 0 < s.getD j 0 := hz.getD_lt hj 0 0
    by_cases hji : j = i
    · subst hji
      have hnone : term.lookup j = none := by
        rw [List.lookup_eq_none_iff]
        intro q hq
        have : q.1 ≠ j := fun he => hn'.1 (List.mem_map.2 ⟨q, hq, he⟩)
        exact bne_iff_ne.2 (Ne.symm this)
      have h1 : opAt term j = delta := by unfold opAt; rw [hnone]
      have h2 : opAt ((j, h) :: term) j = fun a b => h.get [a, b] := by unfold opAt; simp [List.lookup]
      simp only [h1, h2, if_true]
      exact sum_delta_left hxj fun k => h.get [k, z.getD j 0]
    · have h2 : opAt ((i, h) :: term) j = opAt term j := by
        unfold opAt
        have : ((i, h) :: term).lookup j = term.lookup j := by
          rw [List.lookup_cons, beq_false_of_ne hji]
        rw [this]
      simp only [hji, if_false, h2]
      exact sum_delta_right hzj fun k => opAt term j (x.getD j 0) k

end Mctdh
