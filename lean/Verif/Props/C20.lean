import Verif.Lemmas.Contract

/-!
C20: `partial_product` and `partial_trace` compute the documented contractions.
-/

open scoped BigOperators
open Py

namespace Tensor

variable {R : Type*} [CommRing R]

/-- `partial_product(a, i, b, j)`: axis `i` of `a` is replaced by the axes of `b` other than `j`,
and entries are sums over the contracted index. -/
theorem C20_partial_product (a b : Nd R) {i j : ℕ} (hi : i < a.ndim) (hj : j < b.ndim)
    (hd : a.shape.getD i 1 = b.shape.getD j 1) :
    ∃ c, partialProduct a i (some b) j = .ok c ∧ c.Wf ∧
      c.shape = a.shape.take i ++ b.shape.eraseIdx j ++ a.shape.drop (i + 1) ∧
      ∀ p q r, Valid (a.shape.take i) p → Valid (b.shape.eraseIdx j) q →
        Valid (a.shape.drop (i + 1)) r →
        c.get (p ++ q ++ r) = ∑ k ∈ Finset.range (a.shape.getD i 1),
          a.get (p ++ k :: r) * b.get (q.insertIdx j k) :=
  partialProductAux_spec a b hi hj hd

/-- `None` is the identity. -/
theorem C20_partial_product_none (a : Nd R) (i j : ℕ) : partialProduct a i none j = .ok a := rfl

/-- Axes out of range raise `IndexError`, unequal dimensions raise `ValueError`. -/
theorem C20_partial_product_error (a b : Nd R) {i j : ℕ} :
    (¬ (i < a.ndim ∧ j < b.ndim) → partialProduct a i (some b) j = .error .indexError) ∧
    (i < a.ndim → j < b.ndim → a.shape.getD i 1 ≠ b.shape.getD j 1 →
      partialProduct a i (some b) j = .error .valueError) := by
  constructor
  · intro h
    simp only [partialProduct, partialProductAux, Nd.tensordot, if_neg h, error_bind]
  · intro h1 h2 h3
    simp only [partialProduct, partialProductAux, Nd.tensordot, if_pos (And.intro h1 h2),
      if_neg h3, error_bind]

/-- The unused implementation by reshaping gives the same array, unless an axis of `a` has length 0 (then NumPy cannot infer the length
`-1`). -/
theorem C20_reshape (a b : Nd R) {i j : ℕ} (hi : i < a.ndim) (hj : j < b.ndim) (hd : a.shape.getD i 1 = b.shape.getD j 1)
    (h0 : ∀ n ∈ a.shape, n ≠ 0) : partialProductReshape a i b j = partialProduct a i (some b) j :=
  partialProductReshape_eq a b hi hj hd fun h => h0 0 (List.prod_eq_zero_iff.1 h) rfl

/-- `partial_trace(a, i, b, j)`: the matrix of sums over all other indices. -/
theorem C20_partial_trace (a b : Nd R) {i j : ℕ} (hi : i < a.ndim) (hj : j < b.ndim)
    (hr : a.shape.eraseIdx i = b.shape.eraseIdx j)
    (h0 : a.shape.getD i 1 ≠ 0) (h0' : b.shape.getD j 1 ≠ 0) :
    ∃ c, partialTrace a (some i) b (some j) = .ok c ∧ c.Wf ∧
      c.shape = [a.shape.getD i 1, b.shape.getD j 1] ∧
      ∀ x y, x < a.shape.getD i 1 → y < b.shape.getD j 1 →
        c.get [x, y] = sumIdx (a.shape.eraseIdx i)
          (fun p => a.get (p.insertIdx i x) * b.get (p.insertIdx j y)) :=
  partialTrace_spec a b hi hj hr h0 h0'

/-- `partial_trace(a, None, b, None)`: the sum over all indices. -/
theorem C20_partial_trace_full (a b : Nd R) (hs : a.shape = b.shape) :
    partialTrace a none b none = .ok ⟨[], [sumIdx a.shape (fun p => a.get p * b.get p)]⟩ :=
  partialTrace_none_spec a b hs

/-- One axis given and the other not raises `TypeError`. -/
theorem C20_partial_trace_mixed (a b : Nd R) (i : ℕ) :
    partialTrace a (some i) b none = .error .typeError ∧
    partialTrace a none b (some i) = .error .typeError := ⟨rfl, rfl⟩

/-! Instances: a 2x3x2 array times a 3x2 matrix. -/

/-- A 2x3x2 array. -/
def exA : Nd ℤ := ⟨[2, 3, 2], [1, 2, 3, 4, 5, 6, 7, 8, 9, 10, 11, 12]⟩
/-- A 3x2 matrix. -/
def exB : Nd ℤ := ⟨[3, 2], [1, 0, 2, 1, 0, 3]⟩

example : (1 : ℕ) < exA.ndim ∧ 0 < exB.ndim ∧ exA.shape.getD 1 1 = exB.shape.getD 0 1 := by decide

example : partialProductReshape exA 1 exB 0 = partialProduct exA 1 (some exB) 0 :=
  C20_reshape exA exB (by decide) (by decide) (by decide) (by decide)

example : exA.shape.eraseIdx 1 = exA.shape.eraseIdx 1 ∧ exA.shape.getD 1 1 ≠ 0 := by decide

end Tensor
