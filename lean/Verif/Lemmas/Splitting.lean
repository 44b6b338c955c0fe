import Mathlib.Analysis.SpecialFunctions.Exp
import Mathlib.Analysis.Complex.Exponential
import Mathlib.Analysis.Normed.Ring.Lemmas
import Mathlib.Analysis.Normed.Operator.ContinuousLinearMap
import Mathlib.Analysis.Normed.Operator.Basic
import Mathlib.Tactic.Linarith
import Mathlib.Tactic.Ring

/-! The error of a splitting `exp(α/2) G exp(β) F exp(α/2)` on vectors, with multiplications by functions and `G F = 1`. -/

namespace Splitting

variable {n : ℕ}

/-- The error after `j` steps. -/
theorem telescope {E : Type*} [NormedAddCommGroup E] {S : ℕ → E → E} {y z : ℕ → E} {c η : ℝ} (hη : 0 ≤ η) (hc : 0 ≤ c) {N : ℕ}
    (hz : ∀ j < N, ‖z (j + 1) - S j (z j)‖ ≤ η) (hy : ∀ j < N, y (j + 1) = S j (y j)) (hs : ∀ j < N, ‖S j (y j) - S j (z j)‖ ≤ Real.exp c * ‖y j - z j‖)
    (h0 : y 0 = z 0) : ∀ j ≤ N, ‖y j - z j‖ ≤ j * η * Real.exp (c * j) := by
  intro j
  induction j with
  | zero => intro _; simp [h0]
  | succ j ih =>
    intro hj
    have h1 := ih (by omega)
    have h2 := hz j (by omega)
    have h3 := hs j (by omega)
    have e : y (j + 1) - z (j + 1) = (S j (y j) - S j (z j)) - (z (j + 1) - S j (z j)) := by rw [hy j (by omega)]; abel
    have h4 : Real.exp c * ‖y j - z j‖ ≤ j * η * Real.exp (c * (j + 1 : ℕ)) := by
      calc Real.exp c * ‖y j - z j‖ ≤ Real.exp c * (j * η * Real.exp (c * j)) := mul_le_mul_of_nonneg_left h1 (Real.exp_pos c).le
        _ = j * η * Real.exp (c * (j + 1 : ℕ)) := by
          rw [show c * ((j + 1 : ℕ) : ℝ) = c + c * j by push_cast; ring, Real.exp_add]; ring
    have h5 : η ≤ η * Real.exp (c * (j + 1 : ℕ)) := le_mul_of_one_le_right hη (Real.one_le_exp (by positivity))
    calc ‖y (j + 1) - z (j + 1)‖ ≤ ‖S j (y j) - S j (z j)‖ + ‖z (j + 1) - S j (z j)‖ := by rw [e]; exact norm_sub_le _ _
      _ ≤ j * η * Real.exp (c * (j + 1 : ℕ)) + η * Real.exp (c * (j + 1 : ℕ)) := by linarith
      _ = ((j + 1 : ℕ) : ℝ) * η * Real.exp (c * (j + 1 : ℕ)) := by push_cast; ring

/-- The exponential of each entry. -/
noncomputable def expE (z : Fin n → ℂ) : Fin n → ℂ := fun i => Complex.exp (z i)

theorem expE_sub_one {z : Fin n → ℂ} {u : ℝ} (hz : ‖z‖ ≤ u) (hu : u ≤ 1) : ‖expE z - 1‖ ≤ 2 * u := by
  refine (pi_norm_le_iff_of_nonneg (by have := norm_nonneg z; linarith)).2 fun i => ?_
  have h := (norm_le_pi_norm z i).trans hz
  exact (Complex.norm_exp_sub_one_le (h.trans hu)).trans (by linarith)

theorem expE_sub {z : Fin n → ℂ} {u : ℝ} (hz : ‖z‖ ≤ u) (hu : u ≤ 1) : ‖expE z - 1 - z‖ ≤ u ^ 2 := by
  refine (pi_norm_le_iff_of_nonneg (by positivity)).2 fun i => ?_
  have h := (norm_le_pi_norm z i).trans hz
  exact (Complex.norm_exp_sub_one_sub_id_le (h.trans hu)).trans (pow_le_pow_left₀ (norm_nonneg _) h 2)

/-- One step. -/
noncomputable def split (F G : (Fin n → ℂ) →L[ℂ] (Fin n → ℂ)) (α β x : Fin n → ℂ) : Fin n → ℂ :=
  expE ((1 / 2 : ℂ) • α) * G (expE β * F (expE ((1 / 2 : ℂ) • α) * x))

theorem split_sub (F G : (Fin n → ℂ) →L[ℂ] (Fin n → ℂ)) (α β x y : Fin n → ℂ) : split F G α β x - split F G α β y = split F G α β (x - y) := by
  unfold split
  rw [mul_sub, map_sub, mul_sub, map_sub, mul_sub]

variable {F G : (Fin n → ℂ) →L[ℂ] (Fin n → ℂ)} {α β : Fin n → ℂ} {u : ℝ}

theorem split_form (hGF : ∀ x, G (F x) = x) (x : Fin n → ℂ) : split F G α β x =
    expE ((1 / 2 : ℂ) • α) * (expE ((1 / 2 : ℂ) • α) * x) + expE ((1 / 2 : ℂ) • α) * G ((expE β - 1) * F (expE ((1 / 2 : ℂ) • α) * x)) := by
  unfold split
  rw [sub_mul, one_mul, map_sub, hGF]
  ring

private theorem half_norm (hα : ‖α‖ ≤ u) : ‖(1 / 2 : ℂ) • α‖ ≤ u / 2 := by
  rw [norm_smul]; norm_num; linarith

private theorem nrm (L : (Fin n → ℂ) →L[ℂ] (Fin n → ℂ)) {x : Fin n → ℂ} {r : ℝ} (h : ‖x‖ ≤ r) : ‖L x‖ ≤ ‖L‖ * r :=
  (L.le_opNorm x).trans (mul_le_mul_of_nonneg_left h (norm_nonneg _))

private theorem mulb {x y : Fin n → ℂ} {r s : ℝ} (hx : ‖x‖ ≤ r) (hy : ‖y‖ ≤ s) : ‖x * y‖ ≤ r * s :=
  (norm_mul_le x y).trans (mul_le_mul hx hy (norm_nonneg _) ((norm_nonneg _).trans hx))

theorem split_bound (hGF : ∀ x, G (F x) = x) (hα : ‖α‖ ≤ u) (hβ : ‖β‖ ≤ u) (hu : u ≤ 1) (x : Fin n → ℂ) :
    ‖split F G α β x‖ ≤ Real.exp (u * (2 + 2 * (‖G‖ * ‖F‖))) * ‖x‖ := by
  have u0 : 0 ≤ u := (norm_nonneg _).trans hα
  have a1 : ‖expE ((1 / 2 : ℂ) • α) - 1‖ ≤ u := (expE_sub_one (half_norm hα) (by linarith)).trans (by linarith)
  set A := expE ((1 / 2 : ℂ) • α) with hA
  have b1 : ‖expE β - 1‖ ≤ 2 * u := expE_sub_one hβ hu
  have a2 : ∀ {y : Fin n → ℂ} {r}, ‖y‖ ≤ r → ‖A * y‖ ≤ (1 + u) * r := by
    intro y r hy
    have : A * y = y + (A - 1) * y := by ring
    rw [this]
    have h := mulb a1 hy
    exact (norm_add_le _ _).trans (by linarith)
  rw [split_form hGF, ← hA]
  set g := ‖G‖ * ‖F‖ with hg
  have g0 : 0 ≤ g := mul_nonneg (norm_nonneg _) (norm_nonneg _)
  have e1 : ‖A * (A * x)‖ ≤ (1 + u) * ((1 + u) * ‖x‖) := a2 (a2 le_rfl)
  have e2 : ‖A * G ((expE β - 1) * F (A * x))‖ ≤ (1 + u) * (‖G‖ * (2 * u * (‖F‖ * ((1 + u) * ‖x‖)))) :=
    a2 (nrm G (mulb b1 (nrm F (a2 le_rfl))))
  have k1 : 1 + u ≤ Real.exp u := by have := Real.add_one_le_exp u; linarith
  have k2 : 1 + 2 * u * g ≤ Real.exp (2 * u * g) := by have := Real.add_one_le_exp (2 * u * g); linarith
  have ee : Real.exp (u * (2 + 2 * g)) = Real.exp u * Real.exp u * Real.exp (2 * u * g) := by
    rw [← Real.exp_add, ← Real.exp_add]; congr 1; ring
  calc ‖A * (A * x) + A * G ((expE β - 1) * F (A * x))‖ ≤ (1 + u) * ((1 + u) * ‖x‖) + (1 + u) * (‖G‖ * (2 * u * (‖F‖ * ((1 + u) * ‖x‖)))) :=
        (norm_add_le _ _).trans (add_le_add e1 e2)
    _ = (1 + u) * (1 + u) * (1 + 2 * u * g) * ‖x‖ := by rw [hg]; ring
    _ ≤ Real.exp u * Real.exp u * Real.exp (2 * u * g) * ‖x‖ := by
        refine mul_le_mul_of_nonneg_right ?_ (norm_nonneg _)
        refine mul_le_mul (mul_le_mul k1 k1 (by positivity) (by positivity)) k2 (by positivity) (by positivity)
    _ = Real.exp (u * (2 + 2 * g)) * ‖x‖ := by rw [ee]

theorem split_error (hGF : ∀ x, G (F x) = x) (hα : ‖α‖ ≤ u) (hβ : ‖β‖ ≤ u) (hu : u ≤ 1) (x : Fin n → ℂ) :
    ‖split F G α β x - x - (α * x + G (β * F x))‖ ≤ (2 + 7 * (‖G‖ * ‖F‖)) * u ^ 2 * ‖x‖ := by
  have u0 : 0 ≤ u := (norm_nonneg _).trans hα
  have a1 : ‖expE ((1 / 2 : ℂ) • α) - 1‖ ≤ u := (expE_sub_one (half_norm hα) (by linarith)).trans (by linarith)
  have a3 : ‖expE ((1 / 2 : ℂ) • α) - 1 - (1 / 2 : ℂ) • α‖ ≤ (u / 2) ^ 2 := expE_sub (half_norm hα) (by linarith)
  have b1 : ‖expE β - 1‖ ≤ 2 * u := expE_sub_one hβ hu
  have b3 : ‖expE β - 1 - β‖ ≤ u ^ 2 := expE_sub hβ hu
  rw [split_form hGF]
  set A := expE ((1 / 2 : ℂ) • α) with hA
  set B := expE β with hB
  have a2 : ∀ {y : Fin n → ℂ} {r}, ‖y‖ ≤ r → ‖A * y‖ ≤ (1 + u) * r := by
    intro y r hy
    have : A * y = y + (A - 1) * y := by ring
    rw [this]
    have h := mulb a1 hy
    exact (norm_add_le _ _).trans (by linarith)
  have two : α = (2 : ℂ) • ((1 / 2 : ℂ) • α) := by rw [smul_smul]; norm_num
  have e : A * (A * x) + A * G ((B - 1) * F (A * x)) - x - (α * x + G (β * F x)) =
      (2 : ℂ) • ((A - 1 - (1 / 2 : ℂ) • α) * x) + (A - 1) * ((A - 1) * x) + (A - 1) * G ((B - 1) * F (A * x)) +
        G ((B - 1) * F ((A - 1) * x)) + G ((B - 1 - β) * F x) := by
    have f1 : F (A * x) = F ((A - 1) * x) + F x := by rw [← map_add]; congr 1; ring
    have f2 : G ((B - 1) * F (A * x)) = G ((B - 1) * F ((A - 1) * x)) + G ((B - 1) * F x) := by rw [f1, mul_add, map_add]
    have f3 : G ((B - 1 - β) * F x) = G ((B - 1) * F x) - G (β * F x) := by rw [← map_sub, ← sub_mul]
    have f4 : (2 : ℂ) • ((A - 1 - (1 / 2 : ℂ) • α) * x) = 2 * ((A - 1) * x) - α * x := by
      rw [sub_mul, smul_sub, smul_mul_assoc, smul_smul]
      norm_num
      ext i
      simp [two_smul]
    rw [f3, f4, sub_mul A 1 (G ((B - 1) * F (A * x))), f2]
    ring
  rw [e]
  have x0 := norm_nonneg x
  have t1 : ‖(2 : ℂ) • ((A - 1 - (1 / 2 : ℂ) • α) * x)‖ ≤ 2 * ((u / 2) ^ 2 * ‖x‖) := by
    rw [norm_smul]
    have := mulb a3 (le_refl ‖x‖)
    norm_num
    norm_num at this
    linarith
  have t2 : ‖(A - 1) * ((A - 1) * x)‖ ≤ u * (u * ‖x‖) := mulb a1 (mulb a1 le_rfl)
  have t3 : ‖(A - 1) * G ((B - 1) * F (A * x))‖ ≤ u * (‖G‖ * (2 * u * (‖F‖ * ((1 + u) * ‖x‖)))) := mulb a1 (nrm G (mulb b1 (nrm F (a2 le_rfl))))
  have t4 : ‖G ((B - 1) * F ((A - 1) * x))‖ ≤ ‖G‖ * (2 * u * (‖F‖ * (u * ‖x‖))) := nrm G (mulb b1 (nrm F (mulb a1 le_rfl)))
  have t5 : ‖G ((B - 1 - β) * F x)‖ ≤ ‖G‖ * (u ^ 2 * (‖F‖ * ‖x‖)) := nrm G (mulb b3 (nrm F le_rfl))
  have s : ∀ a b c d e : Fin n → ℂ, ‖a + b + c + d + e‖ ≤ ‖a‖ + ‖b‖ + ‖c‖ + ‖d‖ + ‖e‖ := fun a b c d e =>
    (norm_add_le _ _).trans (add_le_add ((norm_add_le _ _).trans (add_le_add ((norm_add_le _ _).trans (add_le_add (norm_add_le _ _) le_rfl)) le_rfl)) le_rfl)
  have g0 : 0 ≤ ‖G‖ * ‖F‖ := mul_nonneg (norm_nonneg _) (norm_nonneg _)
  have t3' : u * (‖G‖ * (2 * u * (‖F‖ * ((1 + u) * ‖x‖)))) ≤ 4 * (‖G‖ * ‖F‖) * u ^ 2 * ‖x‖ := by
    have : 0 ≤ (1 - u) * ((‖G‖ * ‖F‖) * u ^ 2 * ‖x‖) := mul_nonneg (by linarith) (by positivity)
    nlinarith
  have hx2 : 0 ≤ u ^ 2 * ‖x‖ := by positivity
  refine (s _ _ _ _ _).trans ?_
  nlinarith

end Splitting
