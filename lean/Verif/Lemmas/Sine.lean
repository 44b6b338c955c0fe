import Verif.Model.SineDvr
import Verif.Lemmas.Phonon
import Verif.Lemmas.Heom2
import Mathlib.Analysis.SpecialFunctions.Trigonometric.Basic
import Mathlib.Algebra.BigOperators.Field

/-! The discrete orthogonality of the sine functions. -/

open scoped BigOperators

/-- The telescoping sum behind the Dirichlet kernel. -/
theorem cos_sum_mul (θ : ℝ) (n : ℕ) :
    (∑ k ∈ Finset.range n, Real.cos (k * θ)) * (2 * Real.sin (θ / 2)) = Real.sin ((n - 1 / 2) * θ) + Real.sin (θ / 2) := by
  induction n with
  | zero =>
    have : ((0 : ℕ) - 1 / 2 : ℝ) * θ = -(θ / 2) := by push_cast; ring
    rw [this, Real.sin_neg]; simp
  | succ n ih =>
    rw [Finset.sum_range_succ, add_mul, ih]
    have e1 : ((n : ℝ) - 1 / 2) * θ = n * θ - θ / 2 := by ring
    have e2 : (((n + 1 : ℕ) : ℝ) - 1 / 2) * θ = n * θ + θ / 2 := by push_cast; ring
    rw [e1, e2, Real.sin_sub, Real.sin_add]
    ring

/-- For an integer `m` that is not a multiple of `2N`, the sum of `cos (k m π / N)` over a period depends only on the parity of `m`. -/
theorem cos_sum {N : ℕ} (hN : 0 < N) (m : ℤ) (hs : Real.sin (m * Real.pi / N / 2) ≠ 0) :
    (∑ k ∈ Finset.range N, Real.cos (k * (m * Real.pi / N))) = (1 - Real.cos (m * Real.pi)) / 2 := by
  have h := cos_sum_mul (m * Real.pi / N) N
  have e : ((N : ℝ) - 1 / 2) * (m * Real.pi / N) = m * Real.pi - m * Real.pi / N / 2 := by
    have : (N : ℝ) ≠ 0 := by exact_mod_cast hN.ne'
    field_simp
  rw [e, Real.sin_sub, Real.sin_int_mul_pi, zero_mul, zero_sub] at h
  have h2 : (∑ k ∈ Finset.range N, Real.cos (k * (m * Real.pi / N))) * (2 * Real.sin (m * Real.pi / N / 2)) =
      (1 - Real.cos (m * Real.pi)) / 2 * (2 * Real.sin (m * Real.pi / N / 2)) := by rw [h]; ring
  exact mul_right_cancel₀ (mul_ne_zero two_ne_zero hs) h2

theorem sin_half_ne {N : ℕ} {m : ℤ} (h0 : m ≠ 0) (h1 : -(2 * N : ℤ) < m) (h2 : m < 2 * N) : Real.sin (m * Real.pi / N / 2) ≠ 0 := by
  have hN : (0 : ℝ) < N := by
    have : 0 < N := by omega
    exact_mod_cast this
  have hp := Real.pi_pos
  have l1 : -(2 * (N : ℝ)) < m := by exact_mod_cast h1
  have l2 : (m : ℝ) < 2 * N := by exact_mod_cast h2
  have e : (m : ℝ) * Real.pi / N / 2 = (m / (2 * N)) * Real.pi := by field_simp
  have u1 : -1 < (m : ℝ) / (2 * N) := by rw [lt_div_iff₀ (by positivity)]; linarith
  have u2 : (m : ℝ) / (2 * N) < 1 := by rw [div_lt_iff₀ (by positivity)]; linarith
  intro h
  rw [e, Real.sin_eq_zero_iff_of_lt_of_lt (by nlinarith) (by nlinarith)] at h
  rcases mul_eq_zero.1 h with h | h
  · rcases div_eq_zero_iff.1 h with h | h
    · exact h0 (by exact_mod_cast h)
    · linarith
  · exact hp.ne' h

/-- The sine functions are orthogonal on the grid `1 … n`, with norm `(n + 1) / 2`. -/
theorem sine_orthogonal {n j l : ℕ} (hj : j < n) (hl : l < n) :
    (∑ k ∈ Finset.range n, Real.sin ((j + 1) * (k + 1) * Real.pi / (n + 1)) * Real.sin ((l + 1) * (k + 1) * Real.pi / (n + 1))) =
      if j = l then ((n : ℝ) + 1) / 2 else 0 := by
  have hN : ((n + 1 : ℕ) : ℝ) = (n : ℝ) + 1 := by push_cast; ring
  have h0 : (∑ k ∈ Finset.range n, Real.sin ((j + 1) * (k + 1) * Real.pi / (n + 1)) * Real.sin ((l + 1) * (k + 1) * Real.pi / (n + 1))) =
      ∑ k ∈ Finset.range (n + 1), Real.sin ((j + 1) * k * Real.pi / (n + 1)) * Real.sin ((l + 1) * k * Real.pi / (n + 1)) := by
    rw [Finset.sum_range_succ']
    simp
  have h1 : ∀ k ∈ Finset.range (n + 1), Real.sin ((j + 1) * k * Real.pi / (n + 1)) * Real.sin ((l + 1) * k * Real.pi / (n + 1)) =
      (Real.cos (k * ((((j : ℤ) - l : ℤ) : ℝ) * Real.pi / (n + 1 : ℕ))) -
        Real.cos (k * ((((j : ℤ) + l + 2 : ℤ) : ℝ) * Real.pi / (n + 1 : ℕ)))) / 2 := by
    intro k _
    have e1 : (k : ℝ) * ((((j : ℤ) - l : ℤ) : ℝ) * Real.pi / (n + 1 : ℕ)) =
        (j + 1) * k * Real.pi / (n + 1) - (l + 1) * k * Real.pi / (n + 1) := by push_cast; ring
    have e2 : (k : ℝ) * ((((j : ℤ) + l + 2 : ℤ) : ℝ) * Real.pi / (n + 1 : ℕ)) =
        (j + 1) * k * Real.pi / (n + 1) + (l + 1) * k * Real.pi / (n + 1) := by push_cast; ring
    rw [e1, e2, Real.cos_sub, Real.cos_add]
    ring
  rw [h0, Finset.sum_congr rfl h1, ← Finset.sum_div, Finset.sum_sub_distrib,
    cos_sum (by omega) _ (sin_half_ne (m := (j : ℤ) + l + 2) (by omega) (by push_cast; omega) (by push_cast; omega))]
  by_cases h : j = l
  · subst h
    have e3 : (((j : ℤ) + j + 2 : ℤ) : ℝ) * Real.pi = ((j : ℤ) + 1 : ℤ) * (2 * Real.pi) := by push_cast; ring
    rw [if_pos rfl, e3, Real.cos_int_mul_two_pi]
    simp
  · rw [if_neg h, cos_sum (by omega) _ (sin_half_ne (m := (j : ℤ) - l) (by omega) (by push_cast; omega) (by push_cast; omega))]
    have e4 : (((j : ℤ) + l + 2 : ℤ) : ℝ) * Real.pi = (((j : ℤ) - l : ℤ) : ℝ) * Real.pi + ((l : ℤ) + 1 : ℤ) * (2 * Real.pi) := by
      push_cast; ring
    rw [e4, Real.cos_add_int_mul_two_pi]
    simp

namespace SineDVR

open Py Phonon

variable (D : SineDVR)

theorem uMat_shape : D.uMat.shape = [D.n, D.n] := rfl
theorem uMat_wf : D.uMat.Wf := Nd.ofFn_wf _ _

theorem uMat_get {a b : ℕ} (ha : a < D.n) (hb : b < D.n) : D.uMat.get [a, b] =
    ((Real.sqrt (2 / (D.n + 1)) * Real.sin (((a : ℝ) + 1) * ((b : ℝ) + 1) * Real.pi / (D.n + 1)) : ℝ) : ℂ) :=
  Nd.get_ofFn _ (valid2 ha hb)

theorem uMat_symm {a b : ℕ} (ha : a < D.n) (hb : b < D.n) : D.uMat.get [a, b] = D.uMat.get [b, a] := by
  rw [D.uMat_get ha hb, D.uMat_get hb ha, mul_comm ((a : ℝ) + 1)]

/-- The rows of the transformation are orthonormal. -/
theorem uMat_rows {a b : ℕ} (ha : a < D.n) (hb : b < D.n) :
    (∑ s ∈ Finset.range D.n, D.uMat.get [a, s] * D.uMat.get [b, s]) = if a = b then 1 else 0 := by
  have e : ∀ s ∈ Finset.range D.n, D.uMat.get [a, s] * D.uMat.get [b, s] = ((2 / ((D.n : ℝ) + 1) *
      (Real.sin (((a : ℝ) + 1) * ((s : ℝ) + 1) * Real.pi / (D.n + 1)) * Real.sin (((b : ℝ) + 1) * ((s : ℝ) + 1) * Real.pi / (D.n + 1))) : ℝ) : ℂ) := by
    intro s hs
    have hs := Finset.mem_range.1 hs
    rw [D.uMat_get ha hs, D.uMat_get hb hs, ← Complex.ofReal_mul]
    congr 1
    have h2 : Real.sqrt (2 / ((D.n : ℝ) + 1)) * Real.sqrt (2 / ((D.n : ℝ) + 1)) = 2 / ((D.n : ℝ) + 1) :=
      Real.mul_self_sqrt (by positivity)
    rw [mul_mul_mul_comm, h2]
  rw [Finset.sum_congr rfl e, ← Complex.ofReal_sum, ← Finset.mul_sum, sine_orthogonal ha hb]
  split
  · have : ((D.n : ℝ) + 1) ≠ 0 := by positivity
    rw [show 2 / ((D.n : ℝ) + 1) * (((D.n : ℝ) + 1) / 2) = 1 by field_simp]
    simp
  · simp

theorem uMat_cols {a b : ℕ} (ha : a < D.n) (hb : b < D.n) :
    (∑ s ∈ Finset.range D.n, D.uMat.get [s, a] * D.uMat.get [s, b]) = if a = b then 1 else 0 := by
  rw [← D.uMat_rows ha hb]
  refine Finset.sum_congr rfl fun s hs => ?_
  have hs := Finset.mem_range.1 hs
  rw [D.uMat_symm hs ha, D.uMat_symm hs hb]

theorem uMat_real {a b : ℕ} (ha : a < D.n) (hb : b < D.n) : (starRingEnd ℂ) (D.uMat.get [a, b]) = D.uMat.get [a, b] := by
  rw [D.uMat_get ha hb]; exact Complex.conj_ofReal _

theorem uT_shape : (Heom.transpose D.uMat).shape = [D.n, D.n] := Heom.transpose_shape D.uMat_shape

theorem uT_get {a b : ℕ} (ha : a < D.n) (hb : b < D.n) : (Heom.transpose D.uMat).get [a, b] = D.uMat.get [b, a] :=
  Heom.transpose_get D.uMat_shape ha hb

/-- The transposed matrix is the matrix itself. -/
theorem uT_eq : ∀ {a b : ℕ}, a < D.n → b < D.n → (Heom.transpose D.uMat).get [a, b] = D.uMat.get [a, b] := fun ha hb => by
  rw [D.uT_get ha hb, D.uMat_symm hb ha]

theorem sum_delta (n a : ℕ) (ha : a < n) (f : ℕ → ℂ) : (∑ s ∈ Finset.range n, (if a = s then 1 else 0) * f s) = f a := by
  simp only [eq_comm (a := a)]
  rw [sum_pick n a f 1, if_pos ha, one_mul]

/-- A matrix with orthonormal rows applied after its transpose is the identity. -/
theorem ortho_apply {n : ℕ} {U : ℕ → ℕ → ℂ} (h : ∀ a b, a < n → b < n → (∑ s ∈ Finset.range n, U a s * U b s) = if a = b then 1 else 0)
    (f : ℕ → ℂ) {a : ℕ} (ha : a < n) : (∑ s ∈ Finset.range n, U a s * ∑ b ∈ Finset.range n, U b s * f b) = f a := by
  have : (∑ s ∈ Finset.range n, U a s * ∑ b ∈ Finset.range n, U b s * f b) =
      ∑ b ∈ Finset.range n, (∑ s ∈ Finset.range n, U a s * U b s) * f b := by
    simp only [Finset.mul_sum, Finset.sum_mul]
    rw [Finset.sum_comm]
    exact Finset.sum_congr rfl fun b _ => Finset.sum_congr rfl fun s _ => by ring
  rw [this, Finset.sum_congr rfl fun b hb => by rw [h a b ha (Finset.mem_range.1 hb)]]
  exact sum_delta n a ha f

theorem lapDiag_shape : D.lapDiag.shape = [D.n, D.n] := by simp [lapDiag, npDiagK, Nd.ofFn]

theorem lapDiag_get {a b : ℕ} (ha : a < D.n) (hb : b < D.n) : D.lapDiag.get [a, b] =
    if a = b then ((-((((a : ℝ) + 1) * Real.pi / D.length) ^ 2) : ℝ) : ℂ) else 0 := by
  unfold lapDiag
  rw [Phonon.diag_get (by simpa) (by simpa), map_getD _ ha]

/-- The entries of `fbr2dvr_mat`. -/
theorem fbr2dvrMat_ok {M : Nd ℂ} (hM : M.shape = [D.n, D.n]) : ∃ T, D.fbr2dvrMat M = .ok T ∧ T.Wf ∧ T.shape = [D.n, D.n] ∧
    ∀ a b, a < D.n → b < D.n → T.get [a, b] =
      ∑ s ∈ Finset.range D.n, D.uMat.get [s, a] * ∑ t ∈ Finset.range D.n, M.get [s, t] * D.uMat.get [t, b] := by
  obtain ⟨c, c1, c2, c3, c4⟩ := Tensor.matmul_spec M D.uMat hM D.uMat_shape
  obtain ⟨e, e1, e2, e3, e4⟩ := Tensor.matmul_spec (Heom.transpose D.uMat) c D.uT_shape c3
  refine ⟨e, by unfold fbr2dvrMat; rw [c1, ok_bind, e1], e2, e3, fun a b ha hb => ?_⟩
  rw [e4 a b ha hb]
  refine Finset.sum_congr rfl fun s hs => ?_
  have hs := Finset.mem_range.1 hs
  rw [D.uT_get ha hs, c4 s b hs hb]

/-- The entries of `dvr2fbr_mat`. -/
theorem dvr2fbrMat_ok {M : Nd ℂ} (hM : M.shape = [D.n, D.n]) : ∃ T, D.dvr2fbrMat M = .ok T ∧ T.Wf ∧ T.shape = [D.n, D.n] ∧
    ∀ a b, a < D.n → b < D.n → T.get [a, b] =
      ∑ s ∈ Finset.range D.n, D.uMat.get [a, s] * ∑ t ∈ Finset.range D.n, M.get [s, t] * D.uMat.get [b, t] := by
  obtain ⟨c, c1, c2, c3, c4⟩ := Tensor.matmul_spec M (Heom.transpose D.uMat) hM D.uT_shape
  obtain ⟨e, e1, e2, e3, e4⟩ := Tensor.matmul_spec D.uMat c D.uMat_shape c3
  refine ⟨e, by unfold dvr2fbrMat; rw [c1, ok_bind, e1], e2, e3, fun a b ha hb => ?_⟩
  rw [e4 a b ha hb]
  refine Finset.sum_congr rfl fun s hs => ?_
  have hs := Finset.mem_range.1 hs
  rw [c4 s b hs hb]
  refine congrArg _ (Finset.sum_congr rfl fun t ht => ?_)
  rw [D.uT_get (Finset.mem_range.1 ht) hb]

/-- The entries of the kinetic energy. -/
theorem tMat_ok : ∃ T, D.tMat = .ok T ∧ T.Wf ∧ T.shape = [D.n, D.n] ∧ ∀ a b, a < D.n → b < D.n → T.get [a, b] =
    ((-(D.hbar ^ 2) / (2 * D.me) : ℝ) : ℂ) *
      ∑ s ∈ Finset.range D.n, D.uMat.get [s, a] * (((-((((s : ℝ) + 1) * Real.pi / D.length) ^ 2) : ℝ) : ℂ) * D.uMat.get [s, b]) := by
  obtain ⟨T, h1, h2, h3, h4⟩ := D.fbr2dvrMat_ok D.lapDiag_shape
  refine ⟨Nd.smul _ T, by unfold tMat; rw [h1, ok_bind]; rfl, ?_, h3, fun a b ha hb => ?_⟩
  · simpa [Nd.Wf, Nd.smul] using h2
  · rw [Heom.smul_get, h4 a b ha hb]
    refine congrArg _ (Finset.sum_congr rfl fun s hs => ?_)
    have hs := Finset.mem_range.1 hs
    rw [Finset.sum_congr rfl fun t ht => by rw [D.lapDiag_get hs (Finset.mem_range.1 ht)]]
    simp only [eq_comm (a := s)]
    rw [sum_pick D.n s (fun t => D.uMat.get [t, b]), if_pos hs]

end SineDVR
