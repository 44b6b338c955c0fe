import Verif.Lemmas.DmrgExact
import Verif.Lemmas.DmrgTrunc
import Verif.Lemmas.EckartYoung
import Mathlib.Data.Fin.Tuple.Sort

/-!
Singular value decompositions with falling singular values.
-/

open scoped BigOperators
open Py

namespace Dmrg

theorem svd_sorted (m n : ℕ) (a : ℕ → ℕ → ℝ) :
    ∃ (U : ℕ → ℕ → ℝ) (S : ℕ → ℝ) (V : ℕ → ℕ → ℝ),
      (∀ x < m, ∀ y < n, ∑ z ∈ Finset.range (min m n), U x z * S z * V z y = a x y) ∧
      (∀ z < min m n, ∀ w < min m n, ∑ x ∈ Finset.range m, U x z * U x w = if z = w then 1 else 0) ∧
      (∀ z < min m n, ∀ w < min m n, ∑ y ∈ Finset.range n, V z y * V w y = if z = w then 1 else 0) ∧
      (∀ z, 0 ≤ S z) ∧ ∀ z w, z ≤ w → w < min m n → S w ≤ S z := by
  obtain ⟨U, S, V, h1, h2, h3⟩ := svd_any m n a
  let f : Fin (min m n) → ℝ := fun z => -|S z|
  let π := Tuple.sort f
  let ρ : ℕ → ℕ := fun z => if h : z < min m n then π ⟨z, h⟩ else z
  have hρ : ∀ z, ∀ h : z < min m n, ρ z = π ⟨z, h⟩ := fun z h => by simp only [ρ, dif_pos h]
  have hlt : ∀ z < min m n, ρ z < min m n := fun z h => by rw [hρ z h]; exact (π ⟨z, h⟩).2
  have hinj : ∀ z < min m n, ∀ w < min m n, (ρ z = ρ w ↔ z = w) := by
    intro z hz w hw
    rw [hρ z hz, hρ w hw, ← Fin.ext_iff, π.injective.eq_iff, Fin.mk.injEq]
  have hsum : ∀ g : ℕ → ℝ, ∑ z ∈ Finset.range (min m n), g (ρ z) = ∑ z ∈ Finset.range (min m n), g z := by
    intro g
    rw [Finset.sum_range, Finset.sum_range, ← Equiv.sum_comp π fun z : Fin (min m n) => g z]
    exact Finset.sum_congr rfl fun z _ => by rw [hρ z z.2]
  let sg : ℕ → ℝ := fun z => if 0 ≤ S z then 1 else -1
  have sg1 : ∀ z, sg z * sg z = 1 := fun z => by simp only [sg]; split <;> ring
  have sgS : ∀ z, S z = |S z| * sg z := by
    intro z
    simp only [sg]
    split
    · rename_i h; rw [abs_of_nonneg h, mul_one]
    · rename_i h; rw [abs_of_neg (not_le.1 h)]; ring
  refine ⟨fun x z => U x (ρ z), fun z => |S (ρ z)|, fun z y => sg (ρ z) * V (ρ z) y, ?_, ?_, ?_, fun z => abs_nonneg _, ?_⟩
  · intro x hx y hy
    rw [← h1 x hx y hy, ← hsum fun z => U x z * S z * V z y]
    refine Finset.sum_congr rfl fun z _ => ?_
    conv_rhs => rw [sgS (ρ z)]
    ring
  · intro z hz w hw
    rw [h2 _ (hlt z hz) _ (hlt w hw)]
    exact if_congr (hinj z hz w hw) rfl rfl
  · intro z hz w hw
    have : ∑ y ∈ Finset.range n, sg (ρ z) * V (ρ z) y * (sg (ρ w) * V (ρ w) y) =
        sg (ρ z) * sg (ρ w) * ∑ y ∈ Finset.range n, V (ρ z) y * V (ρ w) y := by
      rw [Finset.mul_sum]
      exact Finset.sum_congr rfl fun y _ => by ring
    rw [this, h3 _ (hlt z hz) _ (hlt w hw)]
    by_cases h : z = w
    · subst h; rw [if_pos rfl, if_pos rfl, sg1, one_mul]
    · rw [if_neg h, if_neg fun h' => h ((hinj z hz w hw).1 h'), mul_zero]
  · intro z w hzw hw
    have := Tuple.monotone_sort f (show (⟨z, by omega⟩ : Fin (min m n)) ≤ ⟨w, hw⟩ from hzw)
    simp only [Function.comp, f] at this
    dsimp only
    rw [hρ z (by omega), hρ w hw]
    linarith

/-- There is an exact decomposition with falling singular values. -/
theorem exists_svd_sorted : ∃ svd : SvdFn ℝ, SvdShape svd ∧ SvdExact svd ∧ SvdIso svd ∧ SvdSorted svd := by
  choose U S V h1 h2 h3 h4 h5 using svd_sorted
  let svd : SvdFn ℝ := fun a =>
    let m := a.dim 0
    let n := a.dim 1
    let f : ℕ → ℕ → ℝ := fun x y => a.get [x, y]
    (Nd.ofFn [m, min m n] fun p => U m n f (p.getD 0 0) (p.getD 1 0), (List.range (min m n)).map (S m n f),
      Nd.ofFn [min m n, n] fun p => V m n f (p.getD 0 0) (p.getD 1 0))
  have dims : ∀ {a : Nd ℝ} {m n : ℕ}, a.shape = [m, n] → a.dim 0 = m ∧ a.dim 1 = n := by
    intro a m n h
    simp [Nd.dim, h]
  have gU : ∀ {a : Nd ℝ} {m n : ℕ}, a.shape = [m, n] → ∀ x < m, ∀ z < min m n,
      (svd a).1.get [x, z] = U m n (fun x y => a.get [x, y]) x z := by
    intro a m n ha x hx z hz
    obtain ⟨d0, d1⟩ := dims ha
    simp only [svd, d0, d1]
    rw [Nd.get_ofFn _ (valid2 hx hz)]
    rfl
  have gV : ∀ {a : Nd ℝ} {m n : ℕ}, a.shape = [m, n] → ∀ z < min m n, ∀ y < n,
      (svd a).2.2.get [z, y] = V m n (fun x y => a.get [x, y]) z y := by
    intro a m n ha x hx z hz
    obtain ⟨d0, d1⟩ := dims ha
    simp only [svd, d0, d1]
    rw [Nd.get_ofFn _ (valid2 hx hz)]
    rfl
  refine ⟨svd, fun a m n _ ha => ?_, fun a m n _ ha x hx y hy => ?_, fun a m n _ ha z hz w hw => ⟨?_, ?_⟩, fun a m n _ ha => ?_⟩
  · obtain ⟨d0, d1⟩ := dims ha
    simp [svd, d0, d1, Nd.ofFn_wf]
  · rw [← h1 m n (fun x y => a.get [x, y]) x hx y hy]
    refine Finset.sum_congr rfl fun z hz => ?_
    have hz' := Finset.mem_range.1 hz
    rw [gU ha x hx z hz', gV ha z hz' y hy]
    obtain ⟨d0, d1⟩ := dims ha
    have : (svd a).2.1.getD z 0 = S m n (fun x y => a.get [x, y]) z := by
      simp [svd, d0, d1, List.getD_eq_getElem?_getD, lt_min_iff.1 hz']
    rw [this]
  · rw [← h2 m n (fun x y => a.get [x, y]) z hz w hw]
    refine Finset.sum_congr rfl fun x hx => ?_
    rw [gU ha x (Finset.mem_range.1 hx) z hz, gU ha x (Finset.mem_range.1 hx) w hw]
  · rw [← h3 m n (fun x y => a.get [x, y]) z hz w hw]
    refine Finset.sum_congr rfl fun x hx => ?_
    rw [gV ha z hz x (Finset.mem_range.1 hx), gV ha w hw x (Finset.mem_range.1 hx)]
  · obtain ⟨d0, d1⟩ := dims ha
    have e : (svd a).2.1 = (List.range (min m n)).map (S m n fun x y => a.get [x, y]) := by simp [svd, d0, d1]
    rw [e]
    constructor
    · intro s hs
      obtain ⟨z, -, rfl⟩ := List.mem_map.1 hs
      exact h4 _ _ _ _
    · rw [List.pairwise_map]
      refine List.Pairwise.imp_of_mem ?_ List.pairwise_lt_range
      intro z w _ hw h
      exact h5 _ _ _ _ _ h.le (List.mem_range.1 hw)

end Dmrg
