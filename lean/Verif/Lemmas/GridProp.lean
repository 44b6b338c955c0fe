import Verif.Model.GridProp
import Verif.Lemmas.Fourier

/-! The transformation between a grid and its conjugate grid is a multiple of a unitary map, on vectors with the length of the grid. -/

open Py
open scoped BigOperators

namespace Grids

/-- The sum of the squares of the absolute values. -/
noncomputable def sq (v : List ℂ) : ℝ := (v.map Complex.normSq).sum

theorem sq_append (u v : List ℂ) : sq (u ++ v) = sq u + sq v := by unfold sq; rw [List.map_append, List.sum_append]

theorem sq_cons (x : ℂ) (v : List ℂ) : sq (x :: v) = Complex.normSq x + sq v := by unfold sq; rw [List.map_cons, List.sum_cons]

theorem sq_nil : sq [] = 0 := rfl

theorem sq_fftshift (v : List ℂ) : sq (fftshift v) = sq v := by
  unfold fftshift
  rw [sq_append, add_comm, ← sq_append, List.take_append_drop]

theorem sq_ifftshift (v : List ℂ) : sq (ifftshift v) = sq v := by
  unfold ifftshift
  rw [sq_append, add_comm, ← sq_append, List.take_append_drop]

theorem sq_map (k : ℂ) (v : List ℂ) : sq (v.map (k * ·)) = Complex.normSq k * sq v := by
  induction v with
  | nil => rw [List.map_nil, sq_nil, mul_zero]
  | cons x v ih => rw [List.map_cons, sq_cons, sq_cons, ih, Complex.normSq_mul]; ring

theorem sq_nonneg' (v : List ℂ) : 0 ≤ sq v := by
  induction v with
  | nil => exact le_rfl
  | cons x v ih => rw [sq_cons]; exact add_nonneg (Complex.normSq_nonneg _) ih

theorem sq_range (v : List ℂ) : ((sq v : ℝ) : ℂ) = ∑ i ∈ Finset.range v.length, (starRingEnd ℂ) (v.getD i 0) * v.getD i 0 := by
  induction v with
  | nil => simp [sq_nil]
  | cons x v ih =>
    rw [sq_cons, List.length_cons, Finset.sum_range_succ']
    simp only [List.getD_cons_succ, List.getD_cons_zero]
    rw [← ih, Complex.normSq_eq_conj_mul_self.symm]
    push_cast
    ring

theorem conj_zeta (n : ℕ) : (starRingEnd ℂ) (zeta n) = (zeta n)⁻¹ := by
  unfold zeta
  rw [← Complex.exp_conj, ← Complex.exp_neg]
  congr 1
  simp [neg_div, Complex.conj_ofNat]

/-- Parseval. -/
theorem sq_fft {v f : List ℂ} (hf : fft v = .ok f) : f.length = v.length ∧ sq f = v.length * sq v := by
  unfold fft at hf
  split at hf
  · cases hf
  rename_i hv
  injection hf with hf
  subst hf
  refine ⟨by simp, ?_⟩
  set n := v.length with hn
  have key : ((sq ((List.range n).map fun k : ℕ => ∑ j ∈ Finset.range n, v.getD j 0 * Complex.exp (-(2 * Real.pi * Complex.I * j * k / n))) : ℝ) : ℂ) =
      n * (sq v : ℝ) := by
    rw [sq_range, sq_range, ← hn]
    have e : ∀ k ∈ Finset.range n, (starRingEnd ℂ) (((List.range n).map fun k : ℕ => ∑ j ∈ Finset.range n,
        v.getD j 0 * Complex.exp (-(2 * Real.pi * Complex.I * j * k / n))).getD k 0) *
        (((List.range n).map fun k : ℕ => ∑ j ∈ Finset.range n, v.getD j 0 * Complex.exp (-(2 * Real.pi * Complex.I * j * k / n))).getD k 0) =
        ∑ j ∈ Finset.range n, ∑ l ∈ Finset.range n, (starRingEnd ℂ) (v.getD j 0) * v.getD l 0 * (zeta n ^ (j * k) * (zeta n)⁻¹ ^ (l * k)) := by
      intro k hk
      rw [map_getD _ (Finset.mem_range.1 hk), map_sum, Finset.sum_mul_sum]
      refine Finset.sum_congr rfl fun j _ => Finset.sum_congr rfl fun l _ => ?_
      rw [exp_neg_pow, exp_neg_pow, map_mul, map_pow, map_inv₀, conj_zeta, inv_inv]
      ring
    rw [List.length_map, List.length_range, Finset.sum_congr rfl e, Finset.sum_comm, Finset.mul_sum]
    refine Finset.sum_congr rfl fun j hj => ?_
    rw [Finset.sum_comm]
    have e2 : ∀ l ∈ Finset.range n, (∑ k ∈ Finset.range n, (starRingEnd ℂ) (v.getD j 0) * v.getD l 0 * (zeta n ^ (j * k) * (zeta n)⁻¹ ^ (l * k))) =
        if l = j then (starRingEnd ℂ) (v.getD j 0) * v.getD j 0 * n else 0 := by
      intro l hl
      rw [← Finset.mul_sum, zeta_sum (Finset.mem_range.1 hj) (Finset.mem_range.1 hl)]
      by_cases h : j = l
      · subst h; rw [if_pos rfl, if_pos rfl]
      · rw [if_neg h, if_neg (Ne.symm h), mul_zero]
    rw [Finset.sum_congr rfl e2, Finset.sum_ite_eq' (Finset.range n) j, if_pos hj]
    ring
  exact_mod_cast key

theorem sq_ifft {v f : List ℂ} (hf : ifft v = .ok f) : f.length = v.length ∧ sq v = v.length * sq f := by
  by_cases hv : v.length = 0
  · unfold ifft at hf; rw [if_pos hv] at hf; cases hf
  obtain ⟨g, g1, g2, g3⟩ := fft_ifft hv 1
  rw [hf] at g1
  injection g1 with g1
  subst g1
  simp only [one_mul, List.map_id'] at g3
  exact ⟨g2, by rw [(sq_fft g3).2, g2]⟩

theorem getD_map_mul (a : ℂ) (v : List ℂ) (j : ℕ) : (v.map (a * ·)).getD j 0 = a * v.getD j 0 := by
  rcases lt_or_ge j v.length with h | h
  · rw [List.getD_eq_getElem _ _ (by simpa), List.getD_eq_getElem _ _ h, List.getElem_map]
  · rw [List.getD_eq_default _ _ (by simpa), List.getD_eq_default _ _ h, mul_zero]

theorem fft_smul {v f : List ℂ} (a : ℂ) (hf : fft v = .ok f) : fft (v.map (a * ·)) = .ok (f.map (a * ·)) := by
  unfold fft at hf ⊢
  rw [List.length_map]
  split at hf
  · cases hf
  rename_i hv
  injection hf with hf
  subst hf
  rw [if_neg hv, List.map_map]
  refine congrArg Except.ok (List.map_congr_left fun k _ => ?_)
  simp only [Function.comp_apply]
  rw [Finset.mul_sum]
  refine Finset.sum_congr rfl fun j _ => ?_
  rw [getD_map_mul, mul_assoc]

theorem ifft_smul {v f : List ℂ} (a : ℂ) (hf : ifft v = .ok f) : ifft (v.map (a * ·)) = .ok (f.map (a * ·)) := by
  unfold ifft at hf ⊢
  rw [List.length_map]
  split at hf
  · cases hf
  rename_i hv
  injection hf with hf
  subst hf
  rw [if_neg hv, List.map_map]
  refine congrArg Except.ok (List.map_congr_left fun k _ => ?_)
  simp only [Function.comp_apply]
  rw [← mul_div_assoc, Finset.mul_sum]
  congr 1
  refine Finset.sum_congr rfl fun j _ => ?_
  rw [getD_map_mul, mul_assoc]

theorem map_mul_mul (a b : ℂ) (v : List ℂ) : (v.map (a * ·)).map (b * ·) = v.map ((b * a) * ·) := by
  rw [List.map_map]
  refine List.map_congr_left fun x _ => ?_
  simp only [Function.comp_apply]
  ring

theorem map_mul_comm (a b : ℂ) (v : List ℂ) : (v.map (a * ·)).map (b * ·) = (v.map (b * ·)).map (a * ·) := by
  rw [map_mul_mul, map_mul_mul, mul_comm]

theorem map_one_mul {a : ℂ} (h : a = 1) (v : List ℂ) : v.map (a * ·) = v := by
  subst h; simp

/-- What two transformations that are inverse to each other and multiples of unitary maps do to vectors of length `n`. -/
structure Dual (n : ℕ) (S T : List ℂ → Res (List ℂ)) : Prop where
  rescale : ∃ κ : ℝ, 0 < κ ∧ ∀ v, v.length = n → ∃ f, S v = .ok f ∧ f.length = n ∧ sq f = κ * sq v ∧ T f = .ok v ∧
    ∀ a, S (v.map (a * ·)) = .ok (f.map (a * ·))

theorem Dual.fft {n : ℕ} (hn : n ≠ 0) {k k' : ℂ} (h : k * k' = 1) :
    Dual n (fun v => fft (ifftshift v) >>= fun f => pure ((fftshift f).map (k * ·))) (fun v => ifft (ifftshift v) >>= fun f => pure ((fftshift f).map (k' * ·))) := by
  have hk : k ≠ 0 := left_ne_zero_of_mul_eq_one h
  refine ⟨Complex.normSq k * n, mul_pos (Complex.normSq_pos.2 hk) (by exact_mod_cast Nat.pos_of_ne_zero hn), fun v hv => ?_⟩
  have hl : (ifftshift v).length ≠ 0 := by rw [length_ifftshift, hv]; exact hn
  obtain ⟨f, f1, f2, f3⟩ := ifft_fft hl k
  refine ⟨(fftshift f).map (k * ·), ?_, ?_, ?_, ?_, fun a => ?_⟩
  · rw [f1]; rfl
  · rw [List.length_map, length_fftshift, f2, length_ifftshift, hv]
  · rw [sq_map, sq_fftshift, (sq_fft f1).2, sq_ifftshift, length_ifftshift, hv]; ring
  · rw [← map_fftshift, ifftshift_fftshift, f3, ok_bind, map_fftshift, fftshift_ifftshift, map_mul_mul, map_one_mul (by rw [mul_comm]; exact h)]
    rfl
  · rw [map_ifftshift, fft_smul a f1, ok_bind, map_fftshift, map_mul_comm]
    rfl

theorem Dual.ifft {n : ℕ} (hn : n ≠ 0) {k k' : ℂ} (h : k * k' = 1) :
    Dual n (fun v => Grids.ifft (ifftshift v) >>= fun f => pure ((fftshift f).map (k * ·)))
      (fun v => Grids.fft (ifftshift v) >>= fun f => pure ((fftshift f).map (k' * ·))) := by
  have hk : k ≠ 0 := left_ne_zero_of_mul_eq_one h
  have hn' : (0 : ℝ) < n := by exact_mod_cast Nat.pos_of_ne_zero hn
  refine ⟨Complex.normSq k / n, div_pos (Complex.normSq_pos.2 hk) hn', fun v hv => ?_⟩
  have hl : (ifftshift v).length ≠ 0 := by rw [length_ifftshift, hv]; exact hn
  obtain ⟨f, f1, f2, f3⟩ := fft_ifft hl k
  refine ⟨(fftshift f).map (k * ·), ?_, ?_, ?_, ?_, fun a => ?_⟩
  · rw [f1]; rfl
  · rw [List.length_map, length_fftshift, f2, length_ifftshift, hv]
  · have := (sq_ifft f1).2
    rw [sq_ifftshift, length_ifftshift, hv] at this
    rw [sq_map, sq_fftshift, this]
    field_simp
  · rw [← map_fftshift, ifftshift_fftshift, f3, ok_bind, map_fftshift, fftshift_ifftshift, map_mul_mul, map_one_mul (by rw [mul_comm]; exact h)]
    rfl
  · rw [map_ifftshift, ifft_smul a f1, ok_bind, map_fftshift, map_mul_comm]
    rfl

private theorem root_mul {hbar : ℝ} (hh : 0 < hbar) : ((Real.sqrt (2 * Real.pi * hbar) : ℝ) : ℂ) * ((Real.sqrt (2 * Real.pi * hbar) : ℝ) : ℂ) =
    2 * Real.pi * hbar := by
  rw [← Complex.ofReal_mul, Real.mul_self_sqrt (by have := Real.pi_pos; positivity)]
  push_cast
  rfl

theorem ft_coordinate {o c : Obj} {w : ℂ} (hc : o.getConj = .ok c) (hk : o.basis.kind = .coordinate) (hw : c.basis.width = .ok w) (h0 : w ≠ 0) :
    o.ft = fun v => Grids.fft (ifftshift v) >>= fun f => pure ((fftshift f).map (((Real.sqrt (2 * Real.pi * o.basis.hbar) : ℝ) : ℂ) / w * ·)) := by
  funext v
  unfold Obj.ft
  rw [hc, ok_bind]
  dsimp only
  rw [hk]
  dsimp only
  rw [hw, ok_bind, div_ok h0, ok_bind]

theorem ft_momentum {o c : Obj} {w : ℂ} (hc : o.getConj = .ok c) (hk : o.basis.kind = .momentum) (hw : c.basis.width = .ok w) (h0 : w ≠ 0) :
    o.ft = fun v => Grids.ifft (ifftshift v) >>= fun f =>
      pure ((fftshift f).map (((Real.sqrt (2 * Real.pi * o.basis.hbar) : ℝ) : ℂ) / w * o.basis.xs.length * ·)) := by
  funext v
  unfold Obj.ft
  rw [hc, ok_bind]
  dsimp only
  rw [hk]
  dsimp only
  rw [hw, ok_bind, div_ok h0, ok_bind]

/-- The transformations of a new object and of its conjugate are inverse to each other, both ways. -/
theorem dual_new (b : Basis) {w : ℂ} (hw : b.width = .ok w) (h0 : w ≠ 0) (hn : 2 ≤ b.xs.length) (hh : 0 < b.hbar) :
    ∃ c, (Obj.new b).getConj = .ok c ∧ c.basis.xs.length = b.xs.length ∧ Dual b.xs.length (Obj.new b).ft c.ft ∧ Dual b.xs.length c.ft (Obj.new b).ft := by
  have hp : (Real.pi : ℂ) ≠ 0 := by exact_mod_cast Real.pi_ne_zero
  have hb : (b.hbar : ℂ) ≠ 0 := by exact_mod_cast hh.ne'
  have hn0 : b.xs.length ≠ 0 := by omega
  have hN : (b.xs.length : ℂ) ≠ 0 := by exact_mod_cast hn0
  have hw' : 2 * (Real.pi : ℂ) * b.hbar * b.xs.length / w ≠ 0 := div_ne_zero (by simp [hp, hb, hN]) h0
  have hr := root_mul hh
  cases hk : b.kind with
  | coordinate =>
    obtain ⟨c, c1, c2, c3, c4, c5⟩ := conj_coordinate hw h0 hn
    have hc : (Obj.new b).getConj = .ok ⟨c, some b⟩ := by
      unfold Obj.new Obj.getConj
      dsimp only
      rw [hk]
      dsimp only
      rw [c1]
      rfl
    refine ⟨⟨c, some b⟩, hc, c4, ?_⟩
    have e1 := ft_coordinate hc hk c5 hw'
    have e2 := ft_momentum (o := ⟨c, some b⟩) (c := ⟨b, some c⟩) rfl c2 hw h0
    rw [e1, e2]
    have h : ((Real.sqrt (2 * Real.pi * (Obj.new b).basis.hbar) : ℝ) : ℂ) / (2 * Real.pi * b.hbar * b.xs.length / w) *
        (((Real.sqrt (2 * Real.pi * (Obj.mk c (some b)).basis.hbar) : ℝ) : ℂ) / w * (Obj.mk c (some b)).basis.xs.length) = 1 := by
      have : (Obj.new b).basis.hbar = b.hbar := rfl
      rw [this]
      dsimp only
      rw [c3, c4]
      generalize ((Real.sqrt (2 * Real.pi * b.hbar) : ℝ) : ℂ) = r at hr
      field_simp
      linear_combination hr
    exact ⟨Dual.fft hn0 h, Dual.ifft hn0 (by rw [mul_comm]; exact h)⟩
  | momentum =>
    obtain ⟨c, c1, c2, c3, c4, c5⟩ := conj_momentum hw h0 hn
    have hc : (Obj.new b).getConj = .ok ⟨c, some b⟩ := by
      unfold Obj.new Obj.getConj
      dsimp only
      rw [hk]
      dsimp only
      rw [c1]
      rfl
    refine ⟨⟨c, some b⟩, hc, c4, ?_⟩
    have e1 := ft_momentum hc hk c5 hw'
    have e2 := ft_coordinate (o := ⟨c, some b⟩) (c := ⟨b, some c⟩) rfl c2 hw h0
    rw [e1, e2]
    have h : ((Real.sqrt (2 * Real.pi * (Obj.new b).basis.hbar) : ℝ) : ℂ) / (2 * Real.pi * b.hbar * b.xs.length / w) * (Obj.new b).basis.xs.length *
        (((Real.sqrt (2 * Real.pi * (Obj.mk c (some b)).basis.hbar) : ℝ) : ℂ) / w) = 1 := by
      have h1 : (Obj.new b).basis.hbar = b.hbar := rfl
      have h2 : (Obj.new b).basis.xs.length = b.xs.length := rfl
      rw [h1, h2]
      dsimp only
      rw [c3]
      generalize ((Real.sqrt (2 * Real.pi * b.hbar) : ℝ) : ℂ) = r at hr
      field_simp
      linear_combination hr
    exact ⟨Dual.ifft hn0 h, Dual.fft hn0 (by rw [mul_comm]; exact h)⟩

/-! ### The exponentials -/

theorem length_mulExp {c : ℂ} {v : ℂ → ℂ} {xs f : List ℂ} (h : f.length = xs.length) : (mulExp c v xs f).length = xs.length := by
  unfold mulExp; rw [List.length_zipWith, h, min_self]

theorem mulExp_smul (c : ℂ) (v : ℂ → ℂ) (xs f : List ℂ) (a : ℂ) : mulExp c v xs (f.map (a * ·)) = (mulExp c v xs f).map (a * ·) := by
  unfold mulExp
  induction xs generalizing f with
  | nil => rfl
  | cons x xs ih =>
    cases f with
    | nil => rfl
    | cons y f =>
      simp only [List.map_cons, List.zipWith_cons_cons, ih]
      congr 1
      ring

theorem sq_mulExp {c : ℂ} {v : ℂ → ℂ} {xs f : List ℂ} (h : f.length = xs.length) (hv : ∀ x ∈ xs, (c * v x).re = 0) : sq (mulExp c v xs f) = sq f := by
  unfold mulExp
  induction xs generalizing f with
  | nil =>
    cases f with
    | nil => rfl
    | cons y f => simp at h
  | cons x xs ih =>
    cases f with
    | nil => simp at h
    | cons y f =>
      rw [List.zipWith_cons_cons, sq_cons, sq_cons, ih (by simpa using h) fun x hx => hv x (List.mem_cons_of_mem _ hx), Complex.normSq_mul,
        Complex.normSq_eq_norm_sq, Complex.norm_exp, hv x (List.mem_cons_self ..)]
      simp

theorem mulExp_neg {c : ℂ} {v : ℂ → ℂ} {xs f : List ℂ} (h : f.length = xs.length) : mulExp (-c) v xs (mulExp c v xs f) = f := by
  unfold mulExp
  induction xs generalizing f with
  | nil =>
    cases f with
    | nil => rfl
    | cons y f => simp at h
  | cons x xs ih =>
    cases f with
    | nil => simp at h
    | cons y f =>
      simp only [List.zipWith_cons_cons]
      rw [ih (by simpa using h), ← mul_assoc, ← Complex.exp_add]
      congr 1
      rw [show -c * v x + c * v x = 0 by ring, Complex.exp_zero, one_mul]

end Grids
