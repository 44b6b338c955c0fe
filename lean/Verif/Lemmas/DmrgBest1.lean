import Verif.Lemmas.DmrgTrunc1
import Verif.Lemmas.EckartYoung

/-! Helper lemmas for C129: the truncation is the best one. -/

open scoped BigOperators
open Py

namespace Dmrg

/-- The rows of `V N`, for a right-canonical `N`, are orthonormal if those of `V` are. -/
theorem rows_mul {V : ℕ → ℕ → ℝ} {N : Nd ℝ} {j t k r : ℕ} (hN : N.shape = [t, j, k]) (cN : RightCanonical N)
    (hV : ∀ z < r, ∀ w < r, ∑ y ∈ Finset.range j, V z y * V w y = if z = w then 1 else 0) :
    ∀ z < r, ∀ w < r, ∑ q ∈ Finset.range (t * k), (∑ y ∈ Finset.range j, V z y * N.get [q / k, y, q % k]) *
      (∑ y ∈ Finset.range j, V w y * N.get [q / k, y, q % k]) = if z = w then 1 else 0 := by
  intro z hz w hw
  rw [← hV z hz w hw, sum_pair]
  have e1 : ∀ t' ∈ Finset.range t, ∀ k' ∈ Finset.range k, (∑ y ∈ Finset.range j, V z y * N.get [(t' * k + k') / k, y, (t' * k + k') % k]) * (∑ y ∈ Finset.range j, V w y * N.get [(t' * k + k') / k, y, (t' * k + k') % k]) =
      ∑ y ∈ Finset.range j, ∑ y' ∈ Finset.range j, V z y * V w y' * (N.get [t', y, k'] * N.get [t', y', k']) := by
    intro t' _ k' hk
    have hk' := Finset.mem_range.1 hk
    have d3 : (t' * k + k') / k = t' := by rw [mul_comm, Nat.mul_add_div (by omega), Nat.div_eq_of_lt hk', add_zero]
    have d4 : (t' * k + k') % k = k' := by rw [mul_comm, Nat.mul_add_mod, Nat.mod_eq_of_lt hk']
    rw [d3, d4]
    rw [Finset.sum_mul_sum]
    exact Finset.sum_congr rfl fun y _ => Finset.sum_congr rfl fun y' _ => by ring
  rw [Finset.sum_congr rfl fun t' ht => Finset.sum_congr rfl fun k' hk => e1 t' ht k' hk]
  have e2 : ∑ t' ∈ Finset.range t, ∑ k' ∈ Finset.range k, ∑ y ∈ Finset.range j, ∑ y' ∈ Finset.range j,
      V z y * V w y' * (N.get [t', y, k'] * N.get [t', y', k']) =
      ∑ y ∈ Finset.range j, ∑ y' ∈ Finset.range j, V z y * V w y' *
        ∑ t' ∈ Finset.range t, ∑ k' ∈ Finset.range k, N.get [t', y, k'] * N.get [t', y', k'] := by
    simp only [Finset.mul_sum]
    simp only [← Finset.sum_product']
    refine Finset.sum_bij' (fun q _ => (q.2.2.1, q.2.2.2, q.1, q.2.1)) (fun q _ => (q.2.2.1, q.2.2.2, q.1, q.2.1)) ?_ ?_ ?_ ?_ ?_ <;>
      first
        | (intro q hq; simp only [Finset.mem_product] at hq ⊢; tauto)
        | (intro q _; rfl)
  rw [e2]
  refine Finset.sum_congr rfl fun y hy => ?_
  have n0 : N.dim 0 = t := by simp [Nd.dim, hN]
  have n1 : N.dim 1 = j := by simp [Nd.dim, hN]
  have n2 : N.dim 2 = k := by simp [Nd.dim, hN]
  have hcan : ∀ x < j, ∀ y < j, ∑ t' ∈ Finset.range t, ∑ k' ∈ Finset.range k, N.get [t', x, k'] * N.get [t', y, k'] = if x = y then 1 else 0 := by
    unfold RightCanonical at cN
    rwa [n0, n1, n2] at cN
  rw [Finset.sum_congr rfl fun y' hy' => by rw [hcan y (Finset.mem_range.1 hy) y' (Finset.mem_range.1 hy')]]
  rw [Finset.sum_eq_single y]
  · rw [if_pos rfl, mul_one]
  · intro b _ hne; rw [if_neg (Ne.symm hne), mul_zero]
  · intro h; exact absurd hy h

end Dmrg
