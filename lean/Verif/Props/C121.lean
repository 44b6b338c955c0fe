import Verif.Lemmas.Twin
import Mathlib.Data.Real.Star
import Mathlib.Algebra.Order.BigOperators.Ring.Finset
import Mathlib.Tactic.FieldSimp
import Mathlib.Tactic.LinearCombination
import Mathlib.Tactic.Linarith
import Mathlib.Tactic.IntervalCases
import Verif.Props.C10

/-!
C121: `global_norm()` and `hilbert_angle(r1, r2)` of tree tensor networks.

`h.stateVec r F k` is entry `k` of the dense state vector of the network rooted at `r`, `h.stateDim r F` its length. `Twin` says that two networks have the
same form (Spec/Twin.lean): they may be made of different objects, and have different bond dimensions.
-/

open scoped BigOperators
open Py

namespace Heap

section

variable {R : Type} [CommRing R] [StarRing R] {h : Heap R} {r1 r2 : ℕ} {F1 F2 : Forest} {φ : ℕ → ℕ}

theorem square_sum {h : Heap R} {r : ℕ} {F : Forest} (ht : h.IsTTN r F) (hax : (h.node r).axis = none) {fuel : ℕ} (hf : F.depth < fuel) :
    ∃ h', globalSquare fuel h r = .ok (h', some ⟨[], [∑ k ∈ Finset.range (h.stateDim r F), h.stateVec r F k * star (h.stateVec r F k)]⟩) ∧ Sim noAux h' h := by
  obtain ⟨h', e⟩ := C14_global_square ht hax hf
  refine ⟨h', ?_, globalSquare_sim e⟩
  rw [e, sumLeaves_range]
  rfl

theorem Sim.vec {h h' : Heap R} (e : Sim noAux h' h) {r : ℕ} {F : Forest} (ht : h.IsTTN r F) :
    h'.stateDim r F = h.stateDim r F ∧ ∀ k, h'.stateVec r F k = h.stateVec r F k := by
  have ht' : h'.IsTTN r F := Sim2.ttn (Sim.symm e.aux) ht
  unfold stateDim stateVec
  rw [Sim2.leafList e.aux ht']
  exact ⟨rfl, fun k => (Sim2.treeAmp e.aux ht' _).symm⟩

/-- The three contractions of `hilbert_angle` are the inner product of the two state vectors and their squared norms. No array, link, axis or
name is changed. -/
theorem C121_overlap (tw : Twin h r1 F1 r2 F2 φ) (a1 : (h.node r1).axis = none) (a2 : (h.node r2).axis = none) {fuel : ℕ} (hf : F1.depth < fuel) :
    h.stateDim r1 F1 = h.stateDim r2 F2 ∧ ∃ h', overlaps fuel h r1 r2 = .ok (h',
      ∑ k ∈ Finset.range (h.stateDim r1 F1), h.stateVec r1 F1 k * star (h.stateVec r2 F2 k),
      ∑ k ∈ Finset.range (h.stateDim r1 F1), h.stateVec r1 F1 k * star (h.stateVec r1 F1 k),
      ∑ k ∈ Finset.range (h.stateDim r1 F1), h.stateVec r2 F2 k * star (h.stateVec r2 F2 k)) ∧
      ∀ t, h'.array t = h.array t ∧ h'.access t = h.access t ∧ (h'.node t).axis = (h.node t).axis ∧ (h'.node t).name = (h.node t).name := by
  have hf2 : F2.depth < fuel := by rw [tw.forest, relabel_depth]; exact hf
  have hdim : h.stateDim r1 F1 = h.stateDim r2 F2 := by unfold stateDim; rw [tw.dims]
  refine ⟨hdim, ?_⟩
  obtain ⟨h1, e1, s1, b1, l1, m1⟩ := zipAux_tree tw
  have t1 : h1.IsTTN r1 F1 := Sim2.ttn (Sim.symm s1.aux) tw.one
  have hl1 : h1.leafList r1 F1 = h.leafList r1 F1 := Sim2.leafList s1.aux t1
  obtain ⟨h2, e2⟩ := C14_inner_product t1 b1 (by rw [s1.aux.axis]; exact a1) (by rw [l1, hl1]) hf
  have s2 : Sim noAux h2 h := (globalInnerProduct_sim e2).trans s1
  obtain ⟨h3, e3, s3⟩ := square_sum (Sim2.ttn (Sim.symm s2.aux) tw.one) (by rw [s2.aux.axis]; exact a1) hf
  have s3' : Sim noAux h3 h := s3.trans s2
  obtain ⟨h4, e4, s4⟩ := square_sum (Sim2.ttn (Sim.symm s3'.aux) tw.two) (by rw [s3'.aux.axis]; exact a2) hf2
  have s4' : Sim noAux h4 h := s4.trans s3'
  refine ⟨h4, ?_, fun t => ⟨by have := congrArg Node.array (s4'.2 t); exact this, s4'.aux.access t, s4'.aux.axis t, s4'.aux.name t⟩⟩
  obtain ⟨v1, v2⟩ := s2.vec tw.one
  obtain ⟨w1, w2⟩ := s3'.vec tw.two
  rw [v1] at e3
  simp only [v2] at e3
  rw [w1, ← hdim] at e4
  simp only [w2] at e4
  unfold overlaps
  rw [visitor_nonleaf tw.one a1 hf, visitor_nonleaf tw.two a2 hf2]
  simp only [ok_bind, e1, e2, e3, e4, ML.scalar]
  show Except.ok _ = Except.ok _
  congr 3
  rw [hl1, sumLeaves_range]
  refine Finset.sum_congr rfl fun k hk => ?_
  congr 1
  · exact (s1.vec tw.one).2 k ▸ by unfold stateVec; rw [hl1]
  · refine m1 _ _ fun y hy => ?_
    rw [tw.leafList, List.map_map]
    have : (h.leafList r1 F1).map (Prod.snd ∘ fun p => (φ p.1, p.2)) = (h.leafList r1 F1).map Prod.snd := rfl
    rw [this]
    refine Twin.leafPoint_relabel tw.inj _ _ (fun _ => 0) (fun _ => 0) (fun p hp => ?_) (fun _ _ => rfl) y hy
    have : p.1 ∈ (h.leafList r1 F1).map Prod.fst := List.mem_map_of_mem hp
    rw [leafList_fst] at this
    exact List.mem_cons_of_mem _ (List.mem_filter.1 this).1

end

section

variable {h : Heap ℝ} {r1 r2 : ℕ} {F1 F2 : Forest} {φ : ℕ → ℕ}

/-- The squared norm of a real state vector. -/
noncomputable def vecSq (h : Heap ℝ) (r : ℕ) (F : Forest) : ℝ := ∑ k ∈ Finset.range (h.stateDim r F), h.stateVec r F k ^ 2

/-- The inner product of two real state vectors. -/
noncomputable def vecDot (h : Heap ℝ) (r1 : ℕ) (F1 : Forest) (r2 : ℕ) (F2 : Forest) : ℝ :=
  ∑ k ∈ Finset.range (h.stateDim r1 F1), h.stateVec r1 F1 k * h.stateVec r2 F2 k

theorem vecSq_nonneg (h : Heap ℝ) (r : ℕ) (F : Forest) : 0 ≤ h.vecSq r F := Finset.sum_nonneg fun _ _ => sq_nonneg _

theorem vecSq_eq_zero {h : Heap ℝ} {r : ℕ} {F : Forest} : h.vecSq r F = 0 ↔ ∀ k < h.stateDim r F, h.stateVec r F k = 0 := by
  unfold vecSq
  rw [Finset.sum_eq_zero_iff_of_nonneg fun _ _ => sq_nonneg _]
  simp [Finset.mem_range]

/-- `global_norm()` is the norm of the state vector; it is 0 only for the zero vector. -/
theorem C121_norm {h : Heap ℝ} {r : ℕ} {F : Forest} (ht : h.IsTTN r F) (hax : (h.node r).axis = none) {fuel : ℕ} (hf : F.depth < fuel) :
    ∃ h' v, globalNorm fuel h r = .ok (h', v) ∧ 0 ≤ v ∧ v ^ 2 = h.vecSq r F ∧ (v = 0 ↔ ∀ k < h.stateDim r F, h.stateVec r F k = 0) := by
  obtain ⟨h', e, -⟩ := square_sum ht hax hf
  have e2 : ∑ k ∈ Finset.range (h.stateDim r F), h.stateVec r F k * star (h.stateVec r F k) = h.vecSq r F :=
    Finset.sum_congr rfl fun k _ => by rw [star_trivial, sq]
  rw [e2] at e
  refine ⟨h', Real.sqrt (h.vecSq r F), ?_, Real.sqrt_nonneg _, Real.sq_sqrt (vecSq_nonneg _ _ _), ?_⟩
  · unfold globalNorm
    simp only [e, ok_bind, ML.scalar]
    rfl
  · rw [Real.sqrt_eq_zero (vecSq_nonneg _ _ _), vecSq_eq_zero]

theorem angle_run (tw : Twin h r1 F1 r2 F2 φ) (a1 : (h.node r1).axis = none) (a2 : (h.node r2).axis = none) {fuel : ℕ} (hf : F1.depth < fuel) :
    h.stateDim r1 F1 = h.stateDim r2 F2 ∧ ∃ h', hilbertAngle fuel h r1 r2 = .ok (h',
      if Real.sqrt (h.vecSq r1 F1) * Real.sqrt (h.vecSq r2 F2) = 0 then none else
        if 1 < |h.vecDot r1 F1 r2 F2 / (Real.sqrt (h.vecSq r1 F1) * Real.sqrt (h.vecSq r2 F2))| then none else
          some (Real.arccos (h.vecDot r1 F1 r2 F2 / (Real.sqrt (h.vecSq r1 F1) * Real.sqrt (h.vecSq r2 F2))) / Real.pi * 180)) := by
  obtain ⟨hd, h', e, -⟩ := C121_overlap tw a1 a2 hf
  refine ⟨hd, h', ?_⟩
  have e1 : ∑ k ∈ Finset.range (h.stateDim r1 F1), h.stateVec r1 F1 k * star (h.stateVec r1 F1 k) = h.vecSq r1 F1 :=
    Finset.sum_congr rfl fun k _ => by rw [star_trivial, sq]
  have e2 : ∑ k ∈ Finset.range (h.stateDim r1 F1), h.stateVec r2 F2 k * star (h.stateVec r2 F2 k) = h.vecSq r2 F2 := by
    rw [hd]
    exact Finset.sum_congr rfl fun k _ => by rw [star_trivial, sq]
  have e3 : ∑ k ∈ Finset.range (h.stateDim r1 F1), h.stateVec r1 F1 k * star (h.stateVec r2 F2 k) = h.vecDot r1 F1 r2 F2 :=
    Finset.sum_congr rfl fun k _ => by rw [star_trivial]
  rw [e1, e2, e3] at e
  unfold hilbertAngle
  rw [e]
  rfl

/-- With a zero state the result is `nan`. -/
theorem C121_zero (tw : Twin h r1 F1 r2 F2 φ) (a1 : (h.node r1).axis = none) (a2 : (h.node r2).axis = none) {fuel : ℕ} (hf : F1.depth < fuel)
    (hz : (∀ k < h.stateDim r1 F1, h.stateVec r1 F1 k = 0) ∨ ∀ k < h.stateDim r2 F2, h.stateVec r2 F2 k = 0) :
    ∃ h', hilbertAngle fuel h r1 r2 = .ok (h', none) := by
  obtain ⟨-, h', e⟩ := angle_run tw a1 a2 hf
  refine ⟨h', ?_⟩
  rw [e, if_pos]
  rcases hz with hz | hz
  · rw [vecSq_eq_zero.2 hz]; simp
  · rw [vecSq_eq_zero.2 hz]; simp

/-- Two vectors with the largest possible inner product are parallel. -/
theorem parallel {n : ℕ} {a b : ℕ → ℝ} {α β : ℝ} (ha : 0 < α) (hb : 0 < β) (hA : ∑ k ∈ Finset.range n, a k ^ 2 = α ^ 2)
    (hB : ∑ k ∈ Finset.range n, b k ^ 2 = β ^ 2) :
    ∑ k ∈ Finset.range n, a k * b k = α * β ↔ ∃ c : ℝ, 0 < c ∧ ∀ k < n, a k = c * b k := by
  constructor
  · intro h0
    have h1 : ∑ k ∈ Finset.range n, (β * a k - α * b k) ^ 2 = 0 := by
      have : ∀ k, (β * a k - α * b k) ^ 2 = β ^ 2 * a k ^ 2 - 2 * α * β * (a k * b k) + α ^ 2 * b k ^ 2 := fun k => by ring
      simp only [this]
      rw [Finset.sum_add_distrib, Finset.sum_sub_distrib, ← Finset.mul_sum, ← Finset.mul_sum, ← Finset.mul_sum, hA, hB, h0]
      ring
    rw [Finset.sum_eq_zero_iff_of_nonneg fun _ _ => sq_nonneg _] at h1
    refine ⟨α / β, div_pos ha hb, fun k hk => ?_⟩
    have := pow_eq_zero_iff (two_ne_zero) |>.1 (h1 k (Finset.mem_range.2 hk))
    field_simp
    linarith
  · rintro ⟨c, hc, hk⟩
    have h1 : ∑ k ∈ Finset.range n, a k * b k = c * β ^ 2 := by
      rw [← hB, Finset.mul_sum]
      exact Finset.sum_congr rfl fun k hk' => by rw [hk k (Finset.mem_range.1 hk')]; ring
    have h2 : α ^ 2 = (c * β) ^ 2 := by
      rw [← hA, mul_pow, ← hB, Finset.mul_sum]
      exact Finset.sum_congr rfl fun k hk' => by rw [hk k (Finset.mem_range.1 hk')]; ring
    have h3 : α = c * β := by
      have := (pow_left_inj₀ ha.le (mul_pos hc hb).le (two_ne_zero)).1 h2
      exact this
    rw [h1, h3]; ring

/-- For two nonzero states `hilbert_angle` is the angle between the state vectors in degrees: a number in [0, 180] whose cosine is the normalised inner
product. It is 0 exactly if the states differ by a positive factor and 180 exactly if they differ by a negative one. -/
theorem C121_angle (tw : Twin h r1 F1 r2 F2 φ) (a1 : (h.node r1).axis = none) (a2 : (h.node r2).axis = none) {fuel : ℕ} (hf : F1.depth < fuel)
    (n1 : ∃ k < h.stateDim r1 F1, h.stateVec r1 F1 k ≠ 0) (n2 : ∃ k < h.stateDim r2 F2, h.stateVec r2 F2 k ≠ 0) :
    ∃ h' θ, hilbertAngle fuel h r1 r2 = .ok (h', some θ) ∧ 0 ≤ θ ∧ θ ≤ 180 ∧
      Real.cos (θ * Real.pi / 180) * (Real.sqrt (h.vecSq r1 F1) * Real.sqrt (h.vecSq r2 F2)) = h.vecDot r1 F1 r2 F2 ∧
      (θ = 0 ↔ ∃ c : ℝ, 0 < c ∧ ∀ k < h.stateDim r1 F1, h.stateVec r1 F1 k = c * h.stateVec r2 F2 k) ∧
      (θ = 180 ↔ ∃ c : ℝ, c < 0 ∧ ∀ k < h.stateDim r1 F1, h.stateVec r1 F1 k = c * h.stateVec r2 F2 k) ∧
      (θ = 90 ↔ h.vecDot r1 F1 r2 F2 = 0) := by
  obtain ⟨hd, h', e⟩ := angle_run tw a1 a2 hf
  have p1 : 0 < h.vecSq r1 F1 := lt_of_le_of_ne (vecSq_nonneg _ _ _) fun q => by
    obtain ⟨k, hk, hk'⟩ := n1
    exact hk' (vecSq_eq_zero.1 q.symm k hk)
  have p2 : 0 < h.vecSq r2 F2 := lt_of_le_of_ne (vecSq_nonneg _ _ _) fun q => by
    obtain ⟨k, hk, hk'⟩ := n2
    exact hk' (vecSq_eq_zero.1 q.symm k hk)
  set α := Real.sqrt (h.vecSq r1 F1) with hα
  set β := Real.sqrt (h.vecSq r2 F2) with hβ
  have q1 : 0 < α := Real.sqrt_pos.2 p1
  have q2 : 0 < β := Real.sqrt_pos.2 p2
  have s1 : α ^ 2 = h.vecSq r1 F1 := Real.sq_sqrt p1.le
  have s2 : β ^ 2 = h.vecSq r2 F2 := Real.sq_sqrt p2.le
  have hpos : 0 < α * β := mul_pos q1 q2
  have cs : h.vecDot r1 F1 r2 F2 ^ 2 ≤ (α * β) ^ 2 := by
    rw [mul_pow, s1, s2]
    unfold vecDot vecSq
    rw [← hd]
    exact Finset.sum_mul_sq_le_sq_mul_sq _ _ _
  have cs' : |h.vecDot r1 F1 r2 F2| ≤ α * β := abs_le_of_sq_le_sq cs hpos.le
  have hc1 : |h.vecDot r1 F1 r2 F2 / (α * β)| ≤ 1 := by
    rw [abs_div, abs_of_pos hpos]
    exact (div_le_one hpos).2 cs'
  obtain ⟨hc2, hc3⟩ := abs_le.1 hc1
  have hpi := Real.pi_pos
  have B : ∑ k ∈ Finset.range (h.stateDim r1 F1), h.stateVec r2 F2 k ^ 2 = β ^ 2 := by rw [s2, hd]; rfl
  have par := parallel q1 q2 (a := h.stateVec r1 F1) (b := h.stateVec r2 F2) (n := h.stateDim r1 F1) s1.symm B
  have par' := parallel q1 q2 (a := h.stateVec r1 F1) (b := fun k => - h.stateVec r2 F2 k) (n := h.stateDim r1 F1) s1.symm (by simpa using B)
  refine ⟨h', Real.arccos (h.vecDot r1 F1 r2 F2 / (α * β)) / Real.pi * 180, ?_, ?_, ?_, ?_, ?_, ?_, ?_⟩
  · rw [e, if_neg hpos.ne', if_neg (not_lt.2 hc1)]
  · have := Real.arccos_nonneg (h.vecDot r1 F1 r2 F2 / (α * β))
    positivity
  · have := Real.arccos_le_pi (h.vecDot r1 F1 r2 F2 / (α * β))
    have : Real.arccos (h.vecDot r1 F1 r2 F2 / (α * β)) / Real.pi ≤ 1 := (div_le_one hpi).2 this
    linarith
  · have : Real.arccos (h.vecDot r1 F1 r2 F2 / (α * β)) / Real.pi * 180 * Real.pi / 180 = Real.arccos (h.vecDot r1 F1 r2 F2 / (α * β)) := by
      field_simp
    rw [this, Real.cos_arccos hc2 hc3, div_mul_cancel₀ _ hpos.ne']
  · rw [← par]
    change _ ↔ h.vecDot r1 F1 r2 F2 = _
    constructor
    · intro q
      have : Real.arccos (h.vecDot r1 F1 r2 F2 / (α * β)) = 0 := by
        rcases mul_eq_zero.1 q with q | q
        · exact (div_eq_zero_iff.1 q).resolve_right hpi.ne'
        · norm_num at q
      have := (Real.arccos_eq_zero).1 this
      have := le_antisymm hc3 this
      rwa [div_eq_one_iff_eq hpos.ne'] at this
    · intro q
      rw [q, div_self hpos.ne', Real.arccos_one]; simp
  · have ex : (∃ c : ℝ, c < 0 ∧ ∀ k < h.stateDim r1 F1, h.stateVec r1 F1 k = c * h.stateVec r2 F2 k) ↔
        ∃ c : ℝ, 0 < c ∧ ∀ k < h.stateDim r1 F1, h.stateVec r1 F1 k = c * (- h.stateVec r2 F2 k) :=
      ⟨fun ⟨c, hc, hk⟩ => ⟨-c, by linarith, fun k h' => by rw [hk k h']; ring⟩, fun ⟨c, hc, hk⟩ => ⟨-c, by linarith, fun k h' => by rw [hk k h']; ring⟩⟩
    rw [ex, ← par']
    have : ∑ k ∈ Finset.range (h.stateDim r1 F1), h.stateVec r1 F1 k * - h.stateVec r2 F2 k = - h.vecDot r1 F1 r2 F2 := by
      unfold vecDot; rw [← Finset.sum_neg_distrib]; exact Finset.sum_congr rfl fun _ _ => by ring
    rw [this]
    constructor
    · intro q
      have : Real.arccos (h.vecDot r1 F1 r2 F2 / (α * β)) = Real.pi := by
        field_simp at q; linarith
      have := (Real.arccos_eq_pi).1 this
      have := le_antisymm this hc2
      rw [div_eq_iff hpos.ne'] at this
      rw [this]; ring
    · intro q
      have : h.vecDot r1 F1 r2 F2 / (α * β) = -1 := by
        rw [div_eq_iff hpos.ne']; linarith
      rw [this, Real.arccos_neg_one]
      field_simp
  · constructor
    · intro q
      have : Real.arccos (h.vecDot r1 F1 r2 F2 / (α * β)) = Real.pi / 2 := by
        field_simp at q ⊢; linarith
      have := (Real.arccos_eq_pi_div_two).1 this
      exact (div_eq_zero_iff.1 this).resolve_right hpos.ne'
    · intro q
      rw [q, zero_div, Real.arccos_zero]
      field_simp
      norm_num

/-- The angle does not depend on the order of the two networks. -/
theorem C121_symmetric {ψ : ℕ → ℕ} (tw : Twin h r1 F1 r2 F2 φ) (tw' : Twin h r2 F2 r1 F1 ψ) (a1 : (h.node r1).axis = none) (a2 : (h.node r2).axis = none)
    {fuel : ℕ} (hf : F1.depth < fuel) :
    ∃ h' h'' v, hilbertAngle fuel h r1 r2 = .ok (h', v) ∧ hilbertAngle fuel h r2 r1 = .ok (h'', v) := by
  obtain ⟨hd, h', e⟩ := angle_run tw a1 a2 hf
  obtain ⟨-, h'', e'⟩ := angle_run (fuel := fuel) tw' a2 a1 (by rw [tw.forest, relabel_depth]; exact hf)
  refine ⟨h', h'', _, e, ?_⟩
  rw [e']
  have : h.vecDot r2 F2 r1 F1 = h.vecDot r1 F1 r2 F2 := by
    unfold vecDot; rw [hd]; exact Finset.sum_congr rfl fun _ _ => mul_comm _ _
  rw [this, mul_comm (Real.sqrt (h.vecSq r2 F2))]

/-! Instance: two networks of two tensors with different bond dimensions. The first state is (1, 0, 0, 1), the second (1, 1, 1, 1). -/

/-- The two networks. -/
noncomputable def exDuo : Heap ℝ :=
  let h := (empty.alloc (Node.tensor (some ['a']) (some ⟨[2, 2], [1, 0, 0, 1]⟩) none)).1
  let h := (h.alloc (Node.tensor (some ['b']) (some ⟨[2, 2], [1, 0, 0, 1]⟩) (some 1))).1
  let h := (h.alloc (Node.leaf (some ['x']))).1
  let h := (h.alloc (Node.leaf (some ['y']))).1
  let h := ((h.link 0 0 1 1).link 0 1 2 0).link 1 0 3 0
  let h := (h.alloc (Node.tensor (some ['a']) (some ⟨[1, 2], [1, 1]⟩) none)).1
  let h := (h.alloc (Node.tensor (some ['b']) (some ⟨[2, 1], [1, 1]⟩) (some 1))).1
  let h := (h.alloc (Node.leaf (some ['x']))).1
  let h := (h.alloc (Node.leaf (some ['y']))).1
  ((h.link 4 0 5 1).link 4 1 6 0).link 5 0 7 0

/-- The tree of the second network. -/
def exDuoForest : Forest := .cons 0 1 5 (.cons 0 0 7 .nil .nil) (.cons 1 0 6 .nil .nil)

theorem exDuo_reachable : Reachable exDuo := by
  unfold exDuo
  refine .link (.link (.link (.new _ (.new _ (.new _ (.new _ (.link (.link (.link (.new _ (.new _ (.new _ (.new _ .empty rfl) rfl) rfl) rfl)
    ?_ ?_ ?_ ?_) ?_ ?_ ?_ ?_) ?_ ?_ ?_ ?_) rfl) rfl) rfl) rfl) ?_ ?_ ?_ ?_) ?_ ?_ ?_ ?_) ?_ ?_ ?_ ?_ <;> decide +kernel

theorem exDuo_acc (k : ℕ) : exDuo.acc 0 (k + 2) = none ∧ exDuo.acc 1 (k + 2) = none ∧ exDuo.acc 4 (k + 2) = none ∧ exDuo.acc 5 (k + 2) = none := by
  simp [exDuo, Heap.acc_def, Heap.access, Heap.link, Heap.alloc, Heap.upd, Heap.empty, Node.tensor, Node.leaf,
    Dict.get?, Dict.set]

theorem exDuo_full (t : ℕ) (A : Nd ℝ) (hA : exDuo.array t = some A) (hl : exDuo.isLeaf t = false) (hw : A.Wf) (hp : ∀ d ∈ A.shape, 0 < d) (hn : A.ndim = 2)
    (h0 : exDuo.acc t 0 ≠ none) (h1 : exDuo.acc t 1 ≠ none) (h2 : ∀ k, exDuo.acc t (k + 2) = none) : exDuo.Full t A := by
  refine ⟨hl, hA, hw, hp, fun k => ?_⟩
  rw [hn]
  rcases k with _ | _ | k
  · exact ⟨fun _ => by omega, fun _ => h0⟩
  · exact ⟨fun _ => by omega, fun _ => h1⟩
  · exact ⟨fun q => absurd (h2 k) q, fun q => absurd q (by omega)⟩

theorem exDuo_one : exDuo.IsTTN 0 exTwoForest where
  links := linkInv_of_reachable exDuo_reachable
  tree := ⟨by decide +kernel, ⟨by decide +kernel, ⟨by decide +kernel, trivial, trivial⟩, by decide +kernel, trivial, trivial⟩, by decide +kernel,
    ⟨by decide +kernel, ⟨fun _ => rfl, trivial, trivial⟩, fun _ => rfl, trivial, trivial⟩⟩
  leaf := rfl
  lt := by decide +kernel
  full := by
    have : exDuo.tensors 0 exTwoForest = [0, 1] := by decide +kernel
    rw [this]
    intro t ht
    simp only [List.mem_cons, List.not_mem_nil, or_false] at ht
    rcases ht with rfl | rfl
    · exact ⟨_, exDuo_full 0 ⟨[2, 2], [1, 0, 0, 1]⟩ rfl rfl rfl (by decide) rfl (by decide +kernel) (by decide +kernel) fun k => (exDuo_acc k).1⟩
    · exact ⟨_, exDuo_full 1 ⟨[2, 2], [1, 0, 0, 1]⟩ rfl rfl rfl (by decide) rfl (by decide +kernel) (by decide +kernel) fun k => (exDuo_acc k).2.1⟩
  dims := by decide +kernel
  names := by
    have : exDuo.tensors 0 exTwoForest = [0, 1] := by decide +kernel
    rw [this]
    intro t ht
    simp only [List.mem_cons, List.not_mem_nil, or_false] at ht
    rcases ht with rfl | rfl
    · exact ⟨['a'], rfl⟩
    · exact ⟨['b'], rfl⟩

theorem exDuo_two : exDuo.IsTTN 4 exDuoForest where
  links := linkInv_of_reachable exDuo_reachable
  tree := ⟨by decide +kernel, ⟨by decide +kernel, ⟨by decide +kernel, trivial, trivial⟩, by decide +kernel, trivial, trivial⟩, by decide +kernel,
    ⟨by decide +kernel, ⟨fun _ => rfl, trivial, trivial⟩, fun _ => rfl, trivial, trivial⟩⟩
  leaf := rfl
  lt := by decide +kernel
  full := by
    have : exDuo.tensors 4 exDuoForest = [4, 5] := by decide +kernel
    rw [this]
    intro t ht
    simp only [List.mem_cons, List.not_mem_nil, or_false] at ht
    rcases ht with rfl | rfl
    · exact ⟨_, exDuo_full 4 ⟨[1, 2], [1, 1]⟩ rfl rfl rfl (by decide) rfl (by decide +kernel) (by decide +kernel) fun k => (exDuo_acc k).2.2.1⟩
    · exact ⟨_, exDuo_full 5 ⟨[2, 1], [1, 1]⟩ rfl rfl rfl (by decide) rfl (by decide +kernel) (by decide +kernel) fun k => (exDuo_acc k).2.2.2⟩
  dims := by decide +kernel
  names := by
    have : exDuo.tensors 4 exDuoForest = [4, 5] := by decide +kernel
    rw [this]
    intro t ht
    simp only [List.mem_cons, List.not_mem_nil, or_false] at ht
    rcases ht with rfl | rfl
    · exact ⟨['a'], rfl⟩
    · exact ⟨['b'], rfl⟩

theorem exDuo_twin : Twin exDuo 0 exTwoForest 4 exDuoForest (· + 4) where
  one := exDuo_one
  two := exDuo_two
  root := rfl
  forest := rfl
  leaf := by decide +kernel
  dims := by decide +kernel

theorem exDuo_twin' : Twin exDuo 4 exDuoForest 0 exTwoForest (· - 4) where
  one := exDuo_two
  two := exDuo_one
  root := rfl
  forest := rfl
  leaf := by decide +kernel
  dims := by decide +kernel

theorem exDuo_vec : (∀ k < 4, exDuo.stateVec 0 exTwoForest k = if k = 0 ∨ k = 3 then 1 else 0) ∧ ∀ k < 4, exDuo.stateVec 4 exDuoForest k = 1 := by
  have l1 : exDuo.leafList 0 exTwoForest = [(3, 2), (2, 2)] := by decide +kernel
  have l2 : exDuo.leafList 4 exDuoForest = [(7, 2), (6, 2)] := by decide +kernel
  have t1 : exDuo.tensors 0 exTwoForest = [0, 1] := by decide +kernel
  have t2 : exDuo.tensors 4 exDuoForest = [4, 5] := by decide +kernel
  have b1 : exDuo.bonds 0 exTwoForest = [(0, 0, 1, 1)] := by decide +kernel
  have b2 : exDuo.bonds 4 exDuoForest = [(4, 0, 5, 1)] := by decide +kernel
  have d1 : exDuo.hdim (0, 0) = 2 := by decide +kernel
  have d2 : exDuo.hdim (4, 0) = 1 := by decide +kernel
  have a0 : exDuo.array 0 = some ⟨[2, 2], [1, 0, 0, 1]⟩ := rfl
  have a1 : exDuo.array 1 = some ⟨[2, 2], [1, 0, 0, 1]⟩ := rfl
  have a4 : exDuo.array 4 = some ⟨[1, 2], [1, 1]⟩ := rfl
  have a5 : exDuo.array 5 = some ⟨[2, 1], [1, 1]⟩ := rfl
  have c01 : exDuo.acc 0 1 = some (2, 0) := by decide +kernel
  have c10 : exDuo.acc 1 0 = some (3, 0) := by decide +kernel
  have c41 : exDuo.acc 4 1 = some (6, 0) := by decide +kernel
  have c50 : exDuo.acc 5 0 = some (7, 0) := by decide +kernel
  have u : unravel [2, 2] 0 = [0, 0] ∧ unravel [2, 2] 1 = [0, 1] ∧ unravel [2, 2] 2 = [1, 0] ∧ unravel [2, 2] 3 = [1, 1] := by decide +kernel
  constructor
  · intro k hk
    unfold stateVec treeAmp amp
    rw [l1, t1, b1]
    simp only [sumBonds, d1, entry, a0, a1, List.map_cons, List.map_nil, List.prod_cons, List.prod_nil, Nd.ndim, List.length_cons, List.length_nil]
    interval_cases k <;>
      simp [u, leafPoint, setBond, Nd.upd, leafAssign, c01, c10, Finset.sum_range_succ, List.range_succ, Nd.get, ravel]
  · intro k hk
    unfold stateVec treeAmp amp
    rw [l2, t2, b2]
    simp only [sumBonds, d2, entry, a4, a5, List.map_cons, List.map_nil, List.prod_cons, List.prod_nil, Nd.ndim, List.length_cons, List.length_nil]
    interval_cases k <;>
      simp [u, leafPoint, setBond, Nd.upd, leafAssign, c41, c50, Finset.sum_range_succ, List.range_succ, Nd.get, ravel]

theorem exDuo_dim : exDuo.stateDim 0 exTwoForest = 4 ∧ exDuo.stateDim 4 exDuoForest = 4 := by decide +kernel

example : ∃ h' v, globalNorm 3 exDuo 4 = .ok (h', v) ∧ 0 ≤ v ∧ v ^ 2 = exDuo.vecSq 4 exDuoForest ∧
    (v = 0 ↔ ∀ k < exDuo.stateDim 4 exDuoForest, exDuo.stateVec 4 exDuoForest k = 0) :=
  C121_norm exDuo_two rfl (by decide)

/-- The angle between (1, 0, 0, 1) and (1, 1, 1, 1) is more than 0 and less than 90 degrees. -/
example : ∃ h' h'' θ, hilbertAngle 3 exDuo 0 4 = .ok (h', some θ) ∧ hilbertAngle 3 exDuo 4 0 = .ok (h'', some θ) ∧ 0 < θ ∧ θ < 180 ∧ θ ≠ 90 := by
  obtain ⟨v1, v2⟩ := exDuo_vec
  obtain ⟨d1, d2⟩ := exDuo_dim
  obtain ⟨h', θ, e, g1, g2, -, g3, g4, g5⟩ := C121_angle (fuel := 3) exDuo_twin rfl rfl (by decide)
    ⟨0, by rw [d1]; omega, by rw [v1 0 (by omega)]; simp⟩ ⟨0, by rw [d2]; omega, by rw [v2 0 (by omega)]; simp⟩
  obtain ⟨h1, h2, v, e1, e2⟩ := C121_symmetric (fuel := 3) exDuo_twin exDuo_twin' rfl rfl (by decide)
  rw [e] at e1
  cases e1
  refine ⟨h', h2, θ, e, e2, lt_of_le_of_ne g1 (Ne.symm ?_), lt_of_le_of_ne g2 ?_, ?_⟩
  · intro q
    obtain ⟨c, hc, hk⟩ := g3.1 q
    have := hk 1 (by rw [d1]; omega)
    rw [v1 1 (by omega), v2 1 (by omega)] at this
    simp at this
    linarith
  · intro q
    obtain ⟨c, hc, hk⟩ := g4.1 q
    have := hk 1 (by rw [d1]; omega)
    rw [v1 1 (by omega), v2 1 (by omega)] at this
    simp at this
    linarith
  · intro q
    have := g5.1 q
    unfold vecDot at this
    rw [d1] at this
    simp only [Finset.sum_range_succ, Finset.sum_range_zero] at this
    rw [v1 0 (by omega), v1 1 (by omega), v1 2 (by omega), v1 3 (by omega), v2 0 (by omega), v2 1 (by omega), v2 2 (by omega), v2 3 (by omega)] at this
    norm_num at this

end

end Heap
