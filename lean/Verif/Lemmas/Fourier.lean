import Verif.Model.Grids
import Verif.Py.Lemmas
import Mathlib.Data.List.GetD
import Mathlib.RingTheory.RootsOfUnity.Complex
import Mathlib.Algebra.BigOperators.Field

/-! The discrete Fourier transform is inverted by `ifft`, the shifts are inverse to each other. -/

open Py
open scoped BigOperators

namespace Grids

theorem ifftshift_fftshift (v : List ℂ) : ifftshift (fftshift v) = v := by
  have hl : (fftshift v).length = v.length := by unfold fftshift; simp; omega
  have e : v.length / 2 = (v.drop ((v.length + 1) / 2)).length := by simp; omega
  unfold ifftshift
  rw [hl, e]
  unfold fftshift
  rw [List.drop_left, List.take_left, List.take_append_drop]

theorem fftshift_ifftshift (v : List ℂ) : fftshift (ifftshift v) = v := by
  have hl : (ifftshift v).length = v.length := by unfold ifftshift; simp; omega
  have e : (v.length + 1) / 2 = (v.drop (v.length / 2)).length := by simp; omega
  unfold fftshift
  rw [hl, e]
  unfold ifftshift
  rw [List.drop_left, List.take_left, List.take_append_drop]

theorem length_fftshift (v : List ℂ) : (fftshift v).length = v.length := by unfold fftshift; simp; omega
theorem length_ifftshift (v : List ℂ) : (ifftshift v).length = v.length := by unfold ifftshift; simp; omega

theorem map_fftshift (v : List ℂ) (f : ℂ → ℂ) : fftshift (v.map f) = (fftshift v).map f := by
  unfold fftshift
  rw [List.length_map, List.map_append, List.map_drop, List.map_take]

theorem map_ifftshift (v : List ℂ) (f : ℂ → ℂ) : ifftshift (v.map f) = (ifftshift v).map f := by
  unfold ifftshift
  rw [List.length_map, List.map_append, List.map_drop, List.map_take]

/-- The root of unity. -/
noncomputable def zeta (n : ℕ) : ℂ := Complex.exp (2 * Real.pi * Complex.I / n)

theorem exp_pow (n j k : ℕ) : Complex.exp (2 * Real.pi * Complex.I * j * k / n) = zeta n ^ (j * k) := by
  rw [zeta, ← Complex.exp_nat_mul]
  congr 1
  push_cast
  ring

theorem exp_neg_pow (n j k : ℕ) : Complex.exp (-(2 * Real.pi * Complex.I * j * k / n)) = (zeta n)⁻¹ ^ (j * k) := by
  rw [Complex.exp_neg, exp_pow, inv_pow]

theorem zeta_prim {n : ℕ} (hn : n ≠ 0) : IsPrimitiveRoot (zeta n) n := Complex.isPrimitiveRoot_exp n hn

/-- The orthogonality of the Fourier basis. -/
theorem zeta_sum {n j l : ℕ} (hj : j < n) (hl : l < n) :
    (∑ k ∈ Finset.range n, zeta n ^ (j * k) * (zeta n)⁻¹ ^ (l * k)) = if j = l then (n : ℂ) else 0 := by
  have hn : n ≠ 0 := by omega
  have hz : zeta n ≠ 0 := (zeta_prim hn).ne_zero hn
  have key : ∀ k ∈ Finset.range n, zeta n ^ (j * k) * (zeta n)⁻¹ ^ (l * k) = (zeta n ^ j * (zeta n)⁻¹ ^ l) ^ k := by
    intro k _
    rw [mul_pow, ← pow_mul, ← pow_mul]
  rw [Finset.sum_congr rfl key]
  by_cases h : j = l
  · subst h
    rw [if_pos rfl, ← mul_pow, mul_inv_cancel₀ hz, one_pow]
    simp
  · rw [if_neg h]
    set w := zeta n ^ j * (zeta n)⁻¹ ^ l with hw
    have h1 : w ≠ 1 := by
      intro h1
      apply h
      refine (zeta_prim hn).pow_inj hj hl ?_
      have : w * zeta n ^ l = zeta n ^ j := by
        rw [hw, mul_assoc, ← mul_pow, inv_mul_cancel₀ hz, one_pow, mul_one]
      rw [← this, h1, one_mul]
    have h2 : w ^ n = 1 := by
      rw [hw, mul_pow, ← pow_mul, ← pow_mul, mul_comm j, mul_comm l, pow_mul, pow_mul, inv_pow, (zeta_prim hn).pow_eq_one, one_pow,
        inv_one, one_pow, mul_one]
    have h3 := mul_geom_sum w n
    rw [h2, sub_self] at h3
    exact (mul_eq_zero.1 h3).resolve_left (sub_ne_zero.2 h1)

theorem map_getD {n a : ℕ} (f : ℕ → ℂ) (ha : a < n) : ((List.range n).map f).getD a 0 = f a := by
  rw [List.getD_eq_getElem _ _ (by simpa)]; simp

theorem range_self (v : List ℂ) : v = (List.range v.length).map fun a => v.getD a 0 := by
  refine List.ext_getElem (by simp) fun a h1 h2 => ?_
  rw [List.getElem_map, List.getElem_range, List.getD_eq_getElem _ _ h1]

/-- `ifft` of a multiple of `fft`. -/
theorem ifft_fft {v : List ℂ} (hv : v.length ≠ 0) (c : ℂ) : ∃ f, fft v = .ok f ∧ f.length = v.length ∧ ifft (f.map (c * ·)) = .ok (v.map (c * ·)) := by
  refine ⟨_, if_neg hv, by simp, ?_⟩
  unfold ifft
  rw [if_neg (by simpa using hv)]
  refine congrArg Except.ok ?_
  rw [show v.map (c * ·) = (List.range v.length).map fun a => c * v.getD a 0 by
    conv_lhs => rw [range_self v]
    rw [List.map_map]; rfl]
  simp only [List.length_map, List.length_range]
  refine List.map_congr_left fun a ha => ?_
  have ha : a < v.length := by simpa using ha
  have hn : (v.length : ℂ) ≠ 0 := by exact_mod_cast hv
  rw [div_eq_iff hn]
  have e : ∀ k ∈ Finset.range v.length, (((List.range v.length).map fun k : ℕ => ∑ j ∈ Finset.range v.length,
      v.getD j 0 * Complex.exp (-(2 * Real.pi * Complex.I * j * k / v.length))).map (c * ·)).getD k 0 *
      Complex.exp (2 * Real.pi * Complex.I * a * k / v.length) =
      ∑ j ∈ Finset.range v.length, c * v.getD j 0 * (zeta v.length ^ (a * k) * (zeta v.length)⁻¹ ^ (j * k)) := by
    intro k hk
    rw [List.map_map, map_getD _ (Finset.mem_range.1 hk), exp_pow]
    simp only [Function.comp_apply]
    rw [Finset.mul_sum, Finset.sum_mul]
    refine Finset.sum_congr rfl fun j _ => ?_
    rw [exp_neg_pow]
    ring
  rw [Finset.sum_congr rfl e, Finset.sum_comm]
  have e2 : ∀ j ∈ Finset.range v.length, (∑ k ∈ Finset.range v.length, c * v.getD j 0 * (zeta v.length ^ (a * k) * (zeta v.length)⁻¹ ^ (j * k))) =
      if j = a then c * v.getD a 0 * v.length else 0 := by
    intro j hj
    rw [← Finset.mul_sum, zeta_sum ha (Finset.mem_range.1 hj)]
    by_cases h : a = j
    · subst h; rw [if_pos rfl, if_pos rfl]
    · rw [if_neg h, if_neg (Ne.symm h), mul_zero]
  rw [Finset.sum_congr rfl e2, Finset.sum_ite_eq' (Finset.range v.length) a, if_pos (Finset.mem_range.2 ha)]

/-- `fft` of a multiple of `ifft`. -/
theorem fft_ifft {v : List ℂ} (hv : v.length ≠ 0) (c : ℂ) : ∃ f, ifft v = .ok f ∧ f.length = v.length ∧ fft (f.map (c * ·)) = .ok (v.map (c * ·)) := by
  refine ⟨_, if_neg hv, by simp, ?_⟩
  unfold fft
  rw [if_neg (by simpa using hv)]
  refine congrArg Except.ok ?_
  rw [show v.map (c * ·) = (List.range v.length).map fun a => c * v.getD a 0 by
    conv_lhs => rw [range_self v]
    rw [List.map_map]; rfl]
  simp only [List.length_map, List.length_range]
  refine List.map_congr_left fun a ha => ?_
  have ha : a < v.length := by simpa using ha
  have hn : (v.length : ℂ) ≠ 0 := by exact_mod_cast hv
  have e : ∀ k ∈ Finset.range v.length, (((List.range v.length).map fun j : ℕ => (∑ k ∈ Finset.range v.length,
      v.getD k 0 * Complex.exp (2 * Real.pi * Complex.I * j * k / v.length)) / v.length).map (c * ·)).getD k 0 *
      Complex.exp (-(2 * Real.pi * Complex.I * k * a / v.length)) =
      ∑ j ∈ Finset.range v.length, c * v.getD j 0 / v.length * (zeta v.length ^ (j * k) * (zeta v.length)⁻¹ ^ (a * k)) := by
    intro k hk
    rw [List.map_map, map_getD _ (Finset.mem_range.1 hk), exp_neg_pow, mul_comm k a]
    simp only [Function.comp_apply]
    rw [Finset.sum_div, Finset.mul_sum, Finset.sum_mul]
    refine Finset.sum_congr rfl fun j _ => ?_
    rw [exp_pow, mul_comm k j]
    ring
  rw [Finset.sum_congr rfl e, Finset.sum_comm]
  have e2 : ∀ j ∈ Finset.range v.length, (∑ k ∈ Finset.range v.length, c * v.getD j 0 / v.length * (zeta v.length ^ (j * k) * (zeta v.length)⁻¹ ^ (a * k))) =
      if j = a then c * v.getD a 0 else 0 := by
    intro j hj
    rw [← Finset.mul_sum, zeta_sum (Finset.mem_range.1 hj) ha]
    by_cases h : j = a
    · subst h; rw [if_pos rfl, if_pos rfl, div_mul_cancel₀ _ hn]
    · rw [if_neg h, if_neg h, mul_zero]
  rw [Finset.sum_congr rfl e2, Finset.sum_ite_eq' (Finset.range v.length) a, if_pos (Finset.mem_range.2 ha)]

/-- The width of a new basis. -/
theorem width_new {kind : Kind} {a b : ℂ} {n : ℕ} {hbar : ℝ} (hn : 2 ≤ n) : (Basis.new kind a b n hbar).width = .ok (b - a) := by
  unfold Basis.width Basis.new linspace
  dsimp only
  rw [if_neg (by omega)]
  obtain ⟨m, rfl⟩ : ∃ m, n = m + 2 := ⟨n - 2, by omega⟩
  have h1 : ((List.range (m + 2)).map fun i : ℕ => a + i * ((b - a) / ((m + 2 : ℕ) - 1))).head? = some a := by
    rw [List.range_succ_eq_map]; simp
  have h2 : ((List.range (m + 2)).map fun i : ℕ => a + i * ((b - a) / ((m + 2 : ℕ) - 1))).getLast? = some b := by
    rw [List.range_succ, List.map_append, List.map_cons, List.map_nil, List.getLast?_concat]
    refine congrArg some ?_
    have : ((m : ℂ) + 1) ≠ 0 := by exact_mod_cast Nat.succ_ne_zero m
    push_cast
    have e : (m : ℂ) + 2 - 1 = m + 1 := by ring
    rw [e, mul_div_cancel₀ _ this]
    ring
  rw [h1, h2]

theorem length_new {kind : Kind} {a b : ℂ} {n : ℕ} {hbar : ℝ} : (Basis.new kind a b n hbar).xs.length = n := by
  unfold Basis.new linspace
  split <;> simp_all

theorem div_ok {a b : ℂ} (h : b ≠ 0) : div a b = .ok (a / b) := if_neg h

/-- The conjugate of a coordinate basis has the width `2πħn / width`. -/
theorem conj_coordinate {b : Basis} {w : ℂ} (hw : b.width = .ok w) (h0 : w ≠ 0) (hn : 2 ≤ b.xs.length) : ∃ c, conjOfCoordinate b = .ok c ∧
    c.kind = .momentum ∧ c.hbar = b.hbar ∧ c.xs.length = b.xs.length ∧ c.width = .ok (2 * Real.pi * b.hbar * b.xs.length / w) := by
  have hn1 : ((b.xs.length : ℂ) - 1) ≠ 0 := by
    intro h
    have : (b.xs.length : ℂ) = 1 := by linear_combination h
    have : b.xs.length = 1 := by exact_mod_cast this
    omega
  have key : ∀ half : ℂ, ∃ c, (pure (Basis.new .momentum ((half - 1) * (2 * Real.pi * b.hbar * b.xs.length / w))
      (half * (2 * Real.pi * b.hbar * b.xs.length / w)) b.xs.length b.hbar) : Res Basis) = .ok c ∧
      c.kind = .momentum ∧ c.hbar = b.hbar ∧ c.xs.length = b.xs.length ∧ c.width = .ok (2 * Real.pi * b.hbar * b.xs.length / w) := by
    intro half
    refine ⟨_, rfl, rfl, rfl, length_new, ?_⟩
    rw [width_new hn]
    congr 1
    ring
  unfold conjOfCoordinate
  dsimp only
  rw [hw, ok_bind, div_ok h0, ok_bind]
  split
  · exact key _
  · rw [div_ok hn1]
    exact key _

/-- The conjugate of a momentum basis has the width `2πħn / width`. -/
theorem conj_momentum {b : Basis} {w : ℂ} (hw : b.width = .ok w) (h0 : w ≠ 0) (hn : 2 ≤ b.xs.length) : ∃ c, conjOfMomentum b = .ok c ∧
    c.kind = .coordinate ∧ c.hbar = b.hbar ∧ c.xs.length = b.xs.length ∧ c.width = .ok (2 * Real.pi * b.hbar * b.xs.length / w) := by
  unfold conjOfMomentum
  dsimp only
  rw [hw, ok_bind, div_ok h0, ok_bind]
  refine ⟨_, rfl, rfl, rfl, length_new, ?_⟩
  rw [width_new hn]
  congr 1
  ring

end Grids
