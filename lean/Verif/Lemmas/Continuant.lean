import Mathlib.LinearAlgebra.Matrix.Charpoly.Basic
import Mathlib.Algebra.Polynomial.Derivative
import Mathlib.Algebra.Polynomial.Eval.Coeff
import Mathlib.Algebra.Order.Field.Basic
import Mathlib.Algebra.BigOperators.Intervals
import Mathlib.Data.Real.Sqrt
import Mathlib.Data.Real.Star
import Mathlib.Tactic.FieldSimp
import Mathlib.Tactic.LinearCombination
import Mathlib.Tactic.Positivity

/-!
Continuants (the numerators and denominators of continued fractions) and the characteristic polynomials of symmetric tridiagonal matrices with zero
diagonal.
-/

open scoped BigOperators
open Polynomial

namespace Pade

section
variable {R : Type*} [CommRing R]

/-- The continuant of `b 0, …, b (m - 1)` with partial numerators `w`. -/
def cont (w : R) : ℕ → (ℕ → R) → R
  | 0, _ => 1
  | 1, b => b 0
  | m + 2, b => b 0 * cont w (m + 1) (fun i => b (i + 1)) + w * cont w m (fun i => b (i + 2))

/-- Expansion from the other end. -/
theorem cont_last (w : R) : ∀ (m : ℕ) (b : ℕ → R), cont w (m + 2) b = b (m + 1) * cont w (m + 1) b + w * cont w m b
  | 0, b => by simp only [cont]; ring
  | 1, b => by simp only [cont]; ring
  | m + 2, b => by
    rw [cont, cont_last w (m + 1) (fun i => b (i + 1)), cont_last w m (fun i => b (i + 2)), cont.eq_3 w b m, cont.eq_3 w b (m + 1)]
    simp only [Nat.add_assoc, Nat.reduceAdd]
    ring

/-- A solution of the recurrence. -/
theorem cont_solution (w : R) {b g : ℕ → R} (hg : ∀ j, g j = b j * g (j + 1) + w * g (j + 2)) :
    ∀ m, g 0 = cont w (m + 1) b * g (m + 1) + w * cont w m b * g (m + 2)
  | 0 => by rw [hg 0]; simp only [cont]; ring
  | m + 1 => by
    rw [cont_solution w hg m, hg (m + 1), cont_last]
    simp only [Nat.add_assoc, Nat.reduceAdd]
    ring

theorem cont_det (w : R) (b : ℕ → R) : ∀ m, cont w (m + 2) b * cont w m (fun i => b (i + 1)) -
    cont w (m + 1) b * cont w (m + 1) (fun i => b (i + 1)) = -(-w) ^ (m + 1)
  | 0 => by simp only [cont]; ring
  | m + 1 => by
    rw [cont_last w (m + 1) b, cont_last w m (fun i => b (i + 1)), pow_succ, ← neg_mul, ← cont_det w b m]
    simp only [Nat.add_assoc, Nat.reduceAdd]
    ring

/-- The error of a convergent. -/
theorem cont_error (w : R) {b g : ℕ → R} (hg : ∀ j, g j = b j * g (j + 1) + w * g (j + 2)) (m : ℕ) :
    cont w (m + 2) b * g 1 - cont w (m + 1) (fun i => b (i + 1)) * g 0 = -(w * (-w) ^ (m + 1) * g (m + 3)) := by
  rw [cont_solution w hg (m + 1), cont_solution w (b := fun i => b (i + 1)) (g := fun i => g (i + 1)) (fun j => hg (j + 1)) m]
  have := cont_det w b m
  simp only [Nat.add_assoc, Nat.reduceAdd]
  linear_combination w * g (m + 3) * this

end

/-- The symmetric tridiagonal matrix of size `m` with zero diagonal and subdiagonal `a`. -/
def jacobi (m : ℕ) (a : ℕ → ℝ) : Matrix (Fin m) (Fin m) ℝ := fun i j =>
  if (i : ℕ) + 1 = j then a i else if (j : ℕ) + 1 = i then a j else 0

/-- The characteristic polynomial of `jacobi m a`. -/
noncomputable def jac : ℕ → (ℕ → ℝ) → ℝ[X]
  | 0, _ => 1
  | 1, _ => X
  | m + 2, a => X * jac (m + 1) (fun i => a (i + 1)) - C (a 0 ^ 2) * jac m (fun i => a (i + 2))

theorem jacobi_succ (m : ℕ) (a : ℕ → ℝ) (i j : Fin m) : jacobi (m + 1) a i.succ j.succ = jacobi m (fun i => a (i + 1)) i j := by
  unfold jacobi
  simp only [Fin.val_succ, Nat.add_right_cancel_iff]

theorem charpoly_jacobi : ∀ (m : ℕ) (a : ℕ → ℝ), (jacobi m a).charpoly = jac m a
  | 0, a => by simp [Matrix.charpoly, jac]
  | 1, a => by
    rw [Matrix.charpoly, Matrix.det_fin_one, Matrix.charmatrix_apply_eq, jac]
    simp [jacobi]
  | m + 2, a => by
    have h1 := charpoly_jacobi (m + 1) (fun i => a (i + 1))
    have h2 := charpoly_jacobi m (fun i => a (i + 2))
    have e1 : (jacobi (m + 2) a).charmatrix.submatrix Fin.succ Fin.succ = (jacobi (m + 1) (fun i => a (i + 1))).charmatrix := by
      ext1 i j
      simp only [Matrix.submatrix_apply, Matrix.charmatrix_apply, jacobi_succ, Matrix.diagonal_apply, Fin.succ_inj]
    have e2 : ((jacobi (m + 1) (fun i => a (i + 1))).charmatrix.submatrix Fin.succ Fin.succ) = (jacobi m (fun i => a (i + 2))).charmatrix := by
      ext1 i j
      simp only [Matrix.submatrix_apply, Matrix.charmatrix_apply, jacobi_succ, Matrix.diagonal_apply, Fin.succ_inj, Nat.add_assoc, Nat.reduceAdd]
    unfold Matrix.charpoly at h1 h2 ⊢
    rw [Matrix.det_succ_row_zero, Fin.sum_univ_succ, Fin.sum_univ_succ, Finset.sum_eq_zero (fun i _ => ?_)]
    · have s0 : (jacobi (m + 2) a).charmatrix.submatrix Fin.succ (Fin.succAbove 0) = (jacobi (m + 1) (fun i => a (i + 1))).charmatrix := by
        rw [← e1]; congr 1
      rw [s0, h1]
      have z1 : (jacobi (m + 2) a).charmatrix 0 (Fin.succ 0) = -C (a 0) := by
        rw [Matrix.charmatrix_apply_ne _ _ _ (by exact (Fin.succ_ne_zero 0).symm)]
        simp [jacobi]
      have z0 : (jacobi (m + 2) a).charmatrix 0 0 = X := by
        rw [Matrix.charmatrix_apply_eq]
        simp [jacobi]
      have s1 : ((jacobi (m + 2) a).charmatrix.submatrix Fin.succ (Fin.succAbove (Fin.succ 0))).det = -C (a 0) * jac m (fun i => a (i + 2)) := by
        rw [Matrix.det_succ_column_zero, Fin.sum_univ_succ, Finset.sum_eq_zero (fun i _ => ?_)]
        · have q1 : ((jacobi (m + 2) a).charmatrix.submatrix Fin.succ (Fin.succAbove (Fin.succ 0))) 0 0 = -C (a 0) := by
            rw [Matrix.submatrix_apply]
            have : Fin.succAbove (Fin.succ (0 : Fin (m + 1))) 0 = 0 := by simp
            rw [this, Matrix.charmatrix_apply_ne _ _ _ (Fin.succ_ne_zero 0)]
            simp [jacobi]
          have q2 : ((jacobi (m + 2) a).charmatrix.submatrix Fin.succ (Fin.succAbove (Fin.succ 0))).submatrix (Fin.succAbove 0) Fin.succ =
              (jacobi m (fun i => a (i + 2))).charmatrix := by
            rw [← e2, ← e1, Matrix.submatrix_submatrix, Matrix.submatrix_submatrix]
            congr 1
          rw [q1, q2, h2]
          simp
        · have : ((jacobi (m + 2) a).charmatrix.submatrix Fin.succ (Fin.succAbove (Fin.succ 0))) i.succ 0 = 0 := by
            rw [Matrix.submatrix_apply]
            have : Fin.succAbove (Fin.succ (0 : Fin (m + 1))) 0 = 0 := by simp
            rw [this, Matrix.charmatrix_apply_ne _ _ _ (Fin.succ_ne_zero _)]
            simp [jacobi]
          rw [this]; simp
      rw [z0, z1, s1, jac]
      simp only [Fin.val_zero, pow_zero, one_mul, Fin.val_succ, zero_add, pow_one, add_zero, map_pow]
      ring
    · have : (jacobi (m + 2) a).charmatrix 0 i.succ.succ = 0 := by
        rw [Matrix.charmatrix_apply_ne _ _ _ (Fin.succ_ne_zero _).symm]
        simp [jacobi]
      rw [this]; simp

/-- The subdiagonal `1 / sqrt(b i · b (i + 1))`. -/
noncomputable def sub (b : ℕ → ℝ) (i : ℕ) : ℝ := 1 / Real.sqrt (b i * b (i + 1))

theorem sub_sq {b : ℕ → ℝ} (hb : ∀ i, 0 < b i) (i : ℕ) : sub b i ^ 2 = 1 / (b i * b (i + 1)) := by
  unfold sub
  rw [div_pow, Real.sq_sqrt (mul_pos (hb i) (hb _)).le, one_pow]

/-- The characteristic polynomial and the continuant. -/
theorem jac_cont {K : Type*} [Field K] [Algebra ℝ K] {x w : K} (hw : w * x ^ 2 = -1) : ∀ (m : ℕ) {b : ℕ → ℝ}, (∀ i, 0 < b i) →
    aeval x (jac m (sub b)) * ∏ i ∈ Finset.range m, algebraMap ℝ K (b i) = x ^ m * cont w m (fun i => algebraMap ℝ K (b i))
  | 0, b, hb => by simp [jac, cont]
  | 1, b, hb => by simp [jac, cont]
  | m + 2, b, hb => by
    have h1 := jac_cont hw (m + 1) (b := fun i => b (i + 1)) (fun i => hb _)
    have h2 := jac_cont hw m (b := fun i => b (i + 2)) (fun i => hb _)
    have hx : x ≠ 0 := by rintro rfl; simp at hw
    rw [jac, cont, map_sub, map_mul, map_mul, aeval_X, aeval_C, sub_sq hb]
    change aeval x (jac (m + 1) (fun i => sub b (i + 1))) * _ = _ at h1
    change aeval x (jac m (fun i => sub b (i + 2))) * _ = _ at h2
    have b0 : algebraMap ℝ K (b 0) ≠ 0 := by simpa using (hb 0).ne'
    have b1 : algebraMap ℝ K (b 1) ≠ 0 := by simpa using (hb 1).ne'
    rw [Finset.prod_range_succ'] at h1
    simp only [zero_add, Nat.add_assoc, Nat.reduceAdd] at h1
    rw [Finset.prod_range_succ', Finset.prod_range_succ']
    simp only [zero_add, Nat.add_assoc, Nat.reduceAdd, map_div₀, map_one, map_mul]
    have e : (1 : K) = -(w * x ^ 2) := by rw [hw]; ring
    have e3 : (x * aeval x (jac (m + 1) fun i => sub b (i + 1)) - 1 / (algebraMap ℝ K (b 0) * algebraMap ℝ K (b 1)) * aeval x (jac m fun i => sub b (i + 2))) *
        ((∏ i ∈ Finset.range m, algebraMap ℝ K (b (i + 2))) * algebraMap ℝ K (b 1) * algebraMap ℝ K (b 0)) =
        x * algebraMap ℝ K (b 0) * (aeval x (jac (m + 1) fun i => sub b (i + 1)) * ((∏ i ∈ Finset.range m, algebraMap ℝ K (b (i + 2))) * algebraMap ℝ K (b 1))) -
        aeval x (jac m fun i => sub b (i + 2)) * ∏ i ∈ Finset.range m, algebraMap ℝ K (b (i + 2)) := by
      field_simp
    rw [e3, h1, h2]
    linear_combination (-(x ^ m * cont w m fun i => algebraMap ℝ K (b (i + 2)))) * hw

/-- The sign of the argument. -/
theorem jac_neg : ∀ (m : ℕ) (a : ℕ → ℝ) (x : ℝ), (jac m a).eval (-x) = (-1) ^ m * (jac m a).eval x
  | 0, a, x => by simp [jac]
  | 1, a, x => by simp [jac]
  | m + 2, a, x => by
    rw [jac, eval_sub, eval_sub, eval_mul, eval_mul, eval_mul, eval_mul, eval_X, eval_X, eval_C, eval_C, jac_neg (m + 1), jac_neg m]
    ring

theorem jac_zero : ∀ (n : ℕ) {b : ℕ → ℝ}, (∀ i, 0 < b i) → (jac (2 * n) (sub b)).coeff 0 * ∏ i ∈ Finset.range (2 * n), b i = (-1) ^ n
  | 0, b, hb => by simp [jac]
  | n + 1, b, hb => by
    have h := jac_zero n (b := fun i => b (i + 2)) (fun i => hb _)
    change (jac (2 * n) (fun i => sub b (i + 2))).coeff 0 * _ = _ at h
    rw [show 2 * (n + 1) = 2 * n + 2 by ring, jac, coeff_sub, mul_coeff_zero, mul_coeff_zero, coeff_X_zero, coeff_C_zero, sub_sq hb,
      Finset.prod_range_succ', Finset.prod_range_succ', pow_succ, ← h]
    have := (hb 0).ne'
    have := (hb 1).ne'
    simp only [zero_add, Nat.add_assoc, Nat.reduceAdd]
    field_simp
    ring

theorem jac_one : ∀ (n : ℕ) {b : ℕ → ℝ}, (∀ i, 0 < b i) → (jac (2 * n + 1) (sub b)).coeff 1 * ∏ i ∈ Finset.range (2 * n + 1), b i =
    (-1) ^ n * ∑ i ∈ Finset.range (n + 1), b (2 * i)
  | 0, b, hb => by simp [jac]
  | n + 1, b, hb => by
    have h := jac_one n (b := fun i => b (i + 2)) (fun i => hb _)
    have h0 := jac_zero (n + 1) (b := fun i => b (i + 1)) (fun i => hb _)
    change (jac (2 * n + 1) (fun i => sub b (i + 2))).coeff 1 * _ = _ at h
    change (jac (2 * (n + 1)) (fun i => sub b (i + 1))).coeff 0 * _ = _ at h0
    rw [show 2 * (n + 1) = 2 * n + 1 + 1 by ring] at h0 ⊢
    rw [jac, coeff_sub, coeff_X_mul, coeff_C_mul, sub_sq hb, Finset.sum_range_succ']
    rw [Finset.prod_range_succ'] at h0
    rw [Finset.prod_range_succ', Finset.prod_range_succ']
    simp only [zero_add, Nat.add_assoc, Nat.reduceAdd, mul_zero, Nat.mul_add, mul_one] at h h0 ⊢
    have := (hb 0).ne'
    have := (hb 1).ne'
    rw [mul_add, pow_succ (-1 : ℝ) n] at *
    have e : ((jac (2 * n + 2) fun i => sub b (i + 1)).coeff 0 - 1 / (b 0 * b 1) * (jac (2 * n + 1) fun i => sub b (i + 2)).coeff 1) *
        ((∏ i ∈ Finset.range (2 * n + 1), b (i + 2)) * b 1 * b 0) =
        b 0 * ((jac (2 * n + 2) fun i => sub b (i + 1)).coeff 0 * ((∏ i ∈ Finset.range (2 * n + 1), b (i + 2)) * b 1)) -
        (jac (2 * n + 1) fun i => sub b (i + 2)).coeff 1 * ∏ i ∈ Finset.range (2 * n + 1), b (i + 2) := by
      field_simp
    rw [e, h, h0]
    ring

/-- The roots are simple. -/
theorem jac_wronskian : ∀ (m : ℕ) {a : ℕ → ℝ} (_ : ∀ i, a i ≠ 0) (x : ℝ),
    0 < (derivative (jac (m + 1) a)).eval x * (jac m (fun i => a (i + 1))).eval x -
      (jac (m + 1) a).eval x * (derivative (jac m (fun i => a (i + 1)))).eval x
  | 0, a, _, x => by simp [jac]
  | m + 1, a, ha, x => by
    have h := jac_wronskian m (a := fun i => a (i + 1)) (fun i => ha _) x
    have h0 : 0 < a 0 ^ 2 := by have := ha 0; positivity
    have hne : 0 < (jac (m + 1) (fun i => a (i + 1))).eval x ^ 2 + a 0 ^ 2 *
        ((derivative (jac (m + 1) fun i => a (i + 1))).eval x * (jac m fun i => a (i + 1 + 1)).eval x -
          (jac (m + 1) fun i => a (i + 1)).eval x * (derivative (jac m fun i => a (i + 1 + 1))).eval x) := by
      have := mul_pos h0 h
      positivity
    rw [jac, derivative_sub, derivative_mul, derivative_mul, derivative_X, derivative_C]
    simp only [eval_sub, eval_mul, eval_add, eval_X, eval_C, zero_mul, one_mul, zero_add, Nat.add_assoc, Nat.reduceAdd] at hne ⊢
    nlinarith [hne]

end Pade
