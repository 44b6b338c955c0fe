import Verif.Spec.Complete
import Mathlib.Analysis.InnerProductSpace.GramSchmidtOrtho
import Mathlib.Analysis.InnerProductSpace.PiL2

/-! A decomposition as C134 assumes it exists. -/

open scoped BigOperators
open Py

namespace Heap

theorem lq_wide {m n : ℕ} (h : m ≤ n) (a : ℕ → ℕ → ℂ) :
    ∃ U V : ℕ → ℕ → ℂ, (∀ x < m, ∀ y < n, ∑ z ∈ Finset.range m, U x z * V z y = a x y) ∧
      ∀ z < m, ∀ w < m, ∑ y ∈ Finset.range n, V z y * star (V w y) = if z = w then 1 else 0 := by
  let f : Fin n → EuclideanSpace ℂ (Fin n) := fun i => WithLp.toLp 2 fun y => if i.1 < m then a i y else 0
  have hc : Module.finrank ℂ (EuclideanSpace ℂ (Fin n)) = Fintype.card (Fin n) := finrank_euclideanSpace
  let b := InnerProductSpace.gramSchmidtOrthonormalBasis hc f
  refine ⟨fun x z => if hx : x < n then if hz : z < n then b.repr (f ⟨x, hx⟩) ⟨z, hz⟩ else 0 else 0,
    fun z y => if hz : z < n then if hy : y < n then b ⟨z, hz⟩ ⟨y, hy⟩ else 0 else 0, ?_, ?_⟩
  · intro x hx y hy
    have hxn : x < n := by omega
    have e1 : (f ⟨x, hxn⟩) ⟨y, hy⟩ = a x y := by simp [f, hx]
    rw [← e1]
    conv_rhs => rw [← b.sum_repr (f ⟨x, hxn⟩)]
    have e2 : (∑ i, b.repr (f ⟨x, hxn⟩) i • b i) ⟨y, hy⟩ = ∑ i, b.repr (f ⟨x, hxn⟩) i * b i ⟨y, hy⟩ := by
      simp [Finset.sum_apply]
    rw [e2]
    have e3 := Fin.sum_univ_eq_sum_range (fun z => (if hz : z < n then b.repr (f ⟨x, hxn⟩) ⟨z, hz⟩ else 0) * (if hz : z < n then b ⟨z, hz⟩ ⟨y, hy⟩ else 0)) n
    simp only [Fin.is_lt, dif_pos, Fin.eta] at e3
    rw [e3]
    simp only [hxn, hy, dif_pos]
    refine Finset.sum_subset (fun z hz => Finset.mem_range.2 (by have := Finset.mem_range.1 hz; omega)) fun z hz hz' => ?_
    have hzn := Finset.mem_range.1 hz
    have hzm : ¬ z < m := fun q => hz' (Finset.mem_range.2 q)
    rw [dif_pos hzn, InnerProductSpace.gramSchmidtOrthonormalBasis_inv_triangular' hc f (i := ⟨x, hxn⟩) (j := ⟨z, hzn⟩) (by simp [Fin.lt_def]; omega), zero_mul]
  · intro z hz w hw
    have hzn : z < n := by omega
    have hwn : w < n := by omega
    have e := orthonormal_iff_ite.1 b.orthonormal ⟨w, hwn⟩ ⟨z, hzn⟩
    rw [PiLp.inner_apply] at e
    have e3 := Fin.sum_univ_eq_sum_range (fun y => (if hy : y < n then b ⟨z, hzn⟩ ⟨y, hy⟩ else 0) * star (if hy : y < n then b ⟨w, hwn⟩ ⟨y, hy⟩ else 0)) n
    simp only [Fin.is_lt, dif_pos, Fin.eta] at e3
    simp only [hzn, hwn, dif_pos]
    rw [← e3]
    simp only [Fin.mk.injEq] at e
    rw [show (if z = w then (1 : ℂ) else 0) = if w = z then 1 else 0 by simp [eq_comm], ← e]
    refine Finset.sum_congr rfl fun y _ => ?_
    simp [mul_comm]

theorem lq {m n : ℕ} (a : ℕ → ℕ → ℂ) :
    ∃ U V : ℕ → ℕ → ℂ, (∀ x < m, ∀ y < n, ∑ z ∈ Finset.range (min m n), U x z * V z y = a x y) ∧
      ∀ z < min m n, ∀ w < min m n, ∑ y ∈ Finset.range n, V z y * star (V w y) = if z = w then 1 else 0 := by
  by_cases h : m ≤ n
  · rw [min_eq_left h]; exact lq_wide h a
  · rw [min_eq_right (by omega)]
    refine ⟨a, fun z y => if z = y then 1 else 0, fun x _ y hy => ?_, fun z hz w hw => ?_⟩
    · simp [hy]
    · have : ∀ y ∈ Finset.range n, (if z = y then (1 : ℂ) else 0) * star (if w = y then (1 : ℂ) else 0) = if z = y then (if w = y then 1 else 0) else 0 := by
        intro y _
        by_cases q1 : z = y <;> by_cases q2 : w = y <;> simp [q1, q2]
      rw [Finset.sum_congr rfl this]
      simp [hz, eq_comm]

theorem exists_fullSvd : ∃ csvd : Svd ℂ, SvdShape csvd ∧ SvdIso csvd ∧ SvdExact csvd ∧ SvdFull csvd := by
  have key : ∀ a : Nd ℂ, ∃ t : Nd ℂ × Nd ℂ × Nd ℂ, ∀ m n, a.shape = [m, n] →
      (t.1.Wf ∧ t.1.shape = [m, min m n]) ∧ (t.2.1.Wf ∧ t.2.1.shape = [min m n, min m n]) ∧ (t.2.2.Wf ∧ t.2.2.shape = [min m n, n]) ∧
      (∀ x y, x < m → y < n → ∑ z ∈ Finset.range (min m n), (∑ w ∈ Finset.range (min m n), t.1.get [x, w] * t.2.1.get [w, z]) * t.2.2.get [z, y] = a.get [x, y]) ∧
      ∀ z w, z < min m n → w < min m n → ∑ y ∈ Finset.range n, t.2.2.get [z, y] * star (t.2.2.get [w, y]) = if z = w then 1 else 0 := by
    intro a
    by_cases h : ∃ m n, a.shape = [m, n]
    · obtain ⟨m, n, h⟩ := h
      obtain ⟨U, V, h1, h2⟩ := lq (m := m) (n := n) fun x y => a.get [x, y]
      have hg : ∀ (p q : ℕ) (g : ℕ → ℕ → ℂ) (x y : ℕ), x < p → y < q → (Nd.ofFn [p, q] fun idx => g (idx.getD 0 0) (idx.getD 1 0)).get [x, y] = g x y := by
        intro p q g x y hx hy
        exact Nd.get_ofFn (fun idx => g (idx.getD 0 0) (idx.getD 1 0)) (.cons hx (.cons hy .nil))
      refine ⟨(Nd.ofFn [m, min m n] fun idx => U (idx.getD 0 0) (idx.getD 1 0),
        Nd.ofFn [min m n, min m n] fun idx => (fun i j => if i = j then 1 else 0) (idx.getD 0 0) (idx.getD 1 0),
        Nd.ofFn [min m n, n] fun idx => V (idx.getD 0 0) (idx.getD 1 0)), fun m' n' h' => ?_⟩
      rw [h] at h'
      obtain ⟨rfl, rfl⟩ : m = m' ∧ n = n' := by simpa using h'
      refine ⟨⟨Nd.ofFn_wf _ _, rfl⟩, ⟨Nd.ofFn_wf _ _, rfl⟩, ⟨Nd.ofFn_wf _ _, rfl⟩, fun x y hx hy => ?_, fun z w hz hw => ?_⟩
      · rw [← h1 x hx y hy]
        refine Finset.sum_congr rfl fun z hz => ?_
        have hz := Finset.mem_range.1 hz
        dsimp only
        rw [hg _ _ V z y hz hy]
        congr 1
        have : ∀ w ∈ Finset.range (min m n), (Nd.ofFn [m, min m n] fun idx => U (idx.getD 0 0) (idx.getD 1 0)).get [x, w] *
            (Nd.ofFn [min m n, min m n] fun idx => (if idx.getD 0 0 = idx.getD 1 0 then (1 : ℂ) else 0)).get [w, z] = if w = z then U x w else 0 := by
          intro w hw
          have hw := Finset.mem_range.1 hw
          rw [hg _ _ U x w hx hw, hg _ _ (fun i j => if i = j then (1 : ℂ) else 0) w z hw hz]
          simp
        rw [Finset.sum_congr rfl this]
        simp only [Finset.sum_ite_eq', Finset.mem_range, hz, if_true]
      · rw [← h2 z hz w hw]
        refine Finset.sum_congr rfl fun y hy => ?_
        have hy := Finset.mem_range.1 hy
        rw [hg _ _ V z y hz hy, hg _ _ V w y hw hy]
    · exact ⟨(a, a, a), fun m n q => absurd ⟨m, n, q⟩ h⟩
  choose f hf using key
  refine ⟨fun a => .ok (f a), ?_, ?_, ?_, ?_⟩
  · intro a m n hw hs hm hn
    obtain ⟨h1, h2, h3, -⟩ := hf a m n hs
    exact ⟨min m n, _, _, _, rfl, by omega, h1.1, h1.2, h2.1, h2.2, h3.1, h3.2⟩
  · intro a m n u s vh r hw hs e hr
    obtain ⟨h1, h2, h3, h4, h5⟩ := hf a m n hs
    have e := Except.ok.inj e
    rw [e] at h3 h5
    obtain rfl : min m n = r := by
      have := h3.2.symm.trans hr
      simpa using this
    exact h5
  · intro a m n u s vh r hw hs e hr
    obtain ⟨h1, h2, h3, h4, h5⟩ := hf a m n hs
    have e := Except.ok.inj e
    rw [e] at h2 h4
    obtain rfl : min m n = r := by
      have := h2.2.symm.trans hr
      simpa using this
    exact h4
  · intro a m n u s vh hw hs e
    obtain ⟨h1, h2, h3, -⟩ := hf a m n hs
    have e := Except.ok.inj e
    rw [e] at h3
    exact h3.2

end Heap
