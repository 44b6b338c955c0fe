import Mathlib.Analysis.Matrix.Spectrum
import Mathlib.Analysis.Normed.Algebra.MatrixExponential
import Mathlib.Analysis.SpecialFunctions.Complex.LogBounds
import Mathlib.Tactic.Linarith
import Mathlib.Tactic.FieldSimp

/-!
The Taylor polynomial of degree 4 of the exponential function at a Hermitian matrix, its powers, and their limit.
-/

open scoped BigOperators Matrix Topology
open Filter

namespace PartitionLimit

/-- The polynomial. -/
noncomputable def poly (x : ℝ) : ℝ := 1 + x + x ^ 2 / 2 + x ^ 3 / 6 + x ^ 4 / 24

theorem poly_pos (x : ℝ) : 0 < poly x := by
  unfold poly
  nlinarith [sq_nonneg (x ^ 2 + 4 * x), sq_nonneg (x + 2), sq_nonneg x]

/-- `p(t / n) ^ (2 n) → exp(2 t)` -/
theorem poly_limit (t : ℝ) : Tendsto (fun n : ℕ => poly (t / n) ^ (2 * n)) atTop (𝓝 (Real.exp (2 * t))) := by
  have h : Tendsto (fun n : ℕ => (1 + (poly (t / n) - 1)) ^ n) atTop (𝓝 (Real.exp t)) := by
    refine Real.tendsto_one_add_pow_exp_of_tendsto ?_
    have h0 : Tendsto (fun n : ℕ => t / (n : ℝ)) atTop (𝓝 0) := tendsto_const_div_atTop_nhds_zero_nat t
    have h1 : Tendsto (fun n : ℕ => t * (1 + (t / n) / 2 + (t / n) ^ 2 / 6 + (t / n) ^ 3 / 24)) atTop (𝓝 (t * (1 + 0 / 2 + 0 ^ 2 / 6 + 0 ^ 3 / 24))) :=
      (((tendsto_const_nhds.add (h0.div_const 2)).add ((h0.pow 2).div_const 6)).add ((h0.pow 3).div_const 24)).const_mul t
    have e : t * (1 + 0 / 2 + 0 ^ 2 / 6 + 0 ^ 3 / 24) = t := by ring
    rw [e] at h1
    refine h1.congr' ?_
    filter_upwards [eventually_gt_atTop 0] with n hn
    have : (n : ℝ) ≠ 0 := by exact_mod_cast hn.ne'
    unfold poly
    field_simp
    ring
  have h2 := (h.pow 2)
  rw [← Real.exp_nat_mul] at h2
  refine (h2.congr fun n => ?_)
  rw [show 1 + (poly (t / n) - 1) = poly (t / n) by ring, ← pow_mul, mul_comm]

variable {d : ℕ}

/-- The Taylor polynomial of `exp(dt G)`. -/
noncomputable def taylor (G : Matrix (Fin d) (Fin d) ℂ) (dt : ℝ) : Matrix (Fin d) (Fin d) ℂ :=
  1 + (dt : ℂ) • G + ((dt : ℂ) ^ 2 / 2) • G ^ 2 + ((dt : ℂ) ^ 3 / 6) • G ^ 3 + ((dt : ℂ) ^ 4 / 24) • G ^ 4

/-- A unitary matrix that makes `G` diagonal. -/
theorem diagonalise {G : Matrix (Fin d) (Fin d) ℂ} (hG : G.IsHermitian) :
    ∃ (U : Matrix (Fin d) (Fin d) ℂ) (l : Fin d → ℝ), U * Uᴴ = 1 ∧ Uᴴ * U = 1 ∧ G = U * Matrix.diagonal (fun i => (l i : ℂ)) * Uᴴ := by
  refine ⟨hG.eigenvectorUnitary, hG.eigenvalues, ?_, ?_, ?_⟩
  · exact Unitary.coe_mul_star_self _
  · exact Unitary.coe_star_mul_self _
  · have := hG.spectral_theorem
    rw [Unitary.conjStarAlgAut_apply] at this
    exact this

theorem conj_pow {U D : Matrix (Fin d) (Fin d) ℂ} (h1 : U * Uᴴ = 1) (h2 : Uᴴ * U = 1) (k : ℕ) : (U * D * Uᴴ) ^ k = U * D ^ k * Uᴴ := by
  induction k with
  | zero => simp [h1]
  | succ k ih =>
    rw [pow_succ, ih, pow_succ]
    calc U * D ^ k * Uᴴ * (U * D * Uᴴ) = U * D ^ k * (Uᴴ * U) * D * Uᴴ := by simp only [Matrix.mul_assoc]
      _ = _ := by rw [h2]; simp only [Matrix.mul_assoc, Matrix.mul_one, Matrix.one_mul]

theorem trace_conj {U D : Matrix (Fin d) (Fin d) ℂ} (h2 : Uᴴ * U = 1) : Matrix.trace (U * D * Uᴴ) = Matrix.trace D := by
  rw [Matrix.trace_mul_comm, ← Matrix.mul_assoc, h2, Matrix.one_mul]

theorem taylor_conj {U : Matrix (Fin d) (Fin d) ℂ} {l : Fin d → ℝ} (h1 : U * Uᴴ = 1) (h2 : Uᴴ * U = 1) (dt : ℝ) :
    taylor (U * Matrix.diagonal (fun i => (l i : ℂ)) * Uᴴ) dt = U * Matrix.diagonal (fun i => ((poly (dt * l i) : ℝ) : ℂ)) * Uᴴ := by
  have hd : Matrix.diagonal (fun i => ((poly (dt * l i) : ℝ) : ℂ)) = 1 + (dt : ℂ) • Matrix.diagonal (fun i => (l i : ℂ)) +
      ((dt : ℂ) ^ 2 / 2) • Matrix.diagonal (fun i => (l i : ℂ)) ^ 2 + ((dt : ℂ) ^ 3 / 6) • Matrix.diagonal (fun i => (l i : ℂ)) ^ 3 +
      ((dt : ℂ) ^ 4 / 24) • Matrix.diagonal (fun i => (l i : ℂ)) ^ 4 := by
    rw [Matrix.diagonal_pow, Matrix.diagonal_pow, Matrix.diagonal_pow]
    ext i j
    by_cases h : i = j
    · subst h
      simp [poly]
      ring
    · simp [h]
  unfold taylor
  rw [hd, conj_pow h1 h2, conj_pow h1 h2, conj_pow h1 h2]
  simp only [Matrix.mul_add, Matrix.add_mul, Matrix.mul_one, h1, Matrix.mul_smul, Matrix.smul_mul]

/-- `tr(E^k (E^k)†)` -/
theorem trace_taylor {U : Matrix (Fin d) (Fin d) ℂ} {l : Fin d → ℝ} (h1 : U * Uᴴ = 1) (h2 : Uᴴ * U = 1) (dt : ℝ) (k : ℕ) :
    Matrix.trace (taylor (U * Matrix.diagonal (fun i => (l i : ℂ)) * Uᴴ) dt ^ k *
      (taylor (U * Matrix.diagonal (fun i => (l i : ℂ)) * Uᴴ) dt ^ k)ᴴ) = ((∑ i, poly (dt * l i) ^ (2 * k) : ℝ) : ℂ) := by
  rw [taylor_conj h1 h2, conj_pow h1 h2, Matrix.diagonal_pow, Matrix.conjTranspose_mul, Matrix.conjTranspose_mul, Matrix.conjTranspose_conjTranspose,
    Matrix.diagonal_conjTranspose]
  generalize hA : Matrix.diagonal ((fun i => ((poly (dt * l i) : ℝ) : ℂ)) ^ k) = A
  generalize hB : Matrix.diagonal (star ((fun i => ((poly (dt * l i) : ℝ) : ℂ)) ^ k)) = B
  rw [show U * A * Uᴴ * (U * (B * Uᴴ)) = U * (A * (Uᴴ * U) * B) * Uᴴ by simp only [Matrix.mul_assoc], h2, Matrix.mul_one, trace_conj h2, ← hA, ← hB,
    Matrix.diagonal_mul_diagonal, Matrix.trace_diagonal]
  push_cast
  refine Finset.sum_congr rfl fun i _ => ?_
  simp [two_mul, pow_add]

/-- `tr exp(x G)` -/
theorem trace_exp {U : Matrix (Fin d) (Fin d) ℂ} {l : Fin d → ℝ} (h1 : U * Uᴴ = 1) (h2 : Uᴴ * U = 1) (x : ℝ) :
    Matrix.trace (NormedSpace.exp ((x : ℂ) • (U * Matrix.diagonal (fun i => (l i : ℂ)) * Uᴴ))) = ((∑ i, Real.exp (x * l i) : ℝ) : ℂ) := by
  have hi : U⁻¹ = Uᴴ := Matrix.inv_eq_right_inv h1
  have hu : IsUnit U := ⟨⟨U, Uᴴ, h1, h2⟩, rfl⟩
  have e : (x : ℂ) • (U * Matrix.diagonal (fun i => (l i : ℂ)) * Uᴴ) = U * Matrix.diagonal (fun i => ((x * l i : ℝ) : ℂ)) * U⁻¹ := by
    rw [hi, ← Matrix.smul_mul, ← Matrix.mul_smul, ← Matrix.diagonal_smul]
    congr 3
    funext i
    simp
  rw [e, Matrix.exp_conj U _ hu, hi, trace_conj h2, Matrix.exp_diagonal, Matrix.trace_diagonal]
  push_cast
  refine Finset.sum_congr rfl fun i _ => ?_
  rw [Pi.coe_exp, ← Complex.exp_eq_exp_ℂ]

/-- The limit of `tr(E^n (E^n)†)` for `dt = t / n`. -/
theorem trace_limit (l : Fin d → ℝ) (t : ℝ) :
    Tendsto (fun n : ℕ => ∑ i, poly (t / n * l i) ^ (2 * n)) atTop (𝓝 (∑ i, Real.exp (2 * t * l i))) := by
  refine tendsto_finsetSum _ fun i _ => ?_
  have := poly_limit (t * l i)
  rw [← mul_assoc] at this
  refine this.congr fun n => ?_
  rw [show t * l i / n = t / n * l i by ring]

end PartitionLimit
