import Verif.Lemmas.GridProp
import Mathlib.Algebra.Module.LinearMap.Basic
import Mathlib.Algebra.Module.Pi
import Mathlib.LinearAlgebra.Pi

/-! The transformation between a grid and its conjugate grid is linear. -/

open Py
open scoped BigOperators

namespace Grids

theorem rotate_ofFn {n k : ℕ} (hk : k ≤ n) : ∃ σ : Fin n → Fin n, ∀ x : Fin n → ℂ, (List.ofFn x).drop k ++ (List.ofFn x).take k = List.ofFn (x ∘ σ) := by
  have hs : ∀ i : Fin n, (if (i : ℕ) < n - k then k + i else i - (n - k)) < n := by
    intro i
    have := i.2
    split <;> omega
  refine ⟨fun i => ⟨_, hs i⟩, fun x => ?_⟩
  refine List.ext_getElem (by simp; omega) fun i h1 h2 => ?_
  rw [List.getElem_append]
  simp only [List.length_drop, List.length_ofFn, List.getElem_drop, List.getElem_take, List.getElem_ofFn, Function.comp_apply]
  split_ifs with h <;> rfl

/-- A transformation of vectors of length `n` that is linear and does not fail. -/
def Lin (n : ℕ) (S : List ℂ → Res (List ℂ)) : Prop := ∃ L : (Fin n → ℂ) →ₗ[ℂ] (Fin n → ℂ), ∀ x, S (List.ofFn x) = .ok (List.ofFn (L x))

theorem lin_sum {n : ℕ} (e : Fin n → Fin n → ℂ) : ∃ L : (Fin n → ℂ) →ₗ[ℂ] (Fin n → ℂ), ∀ x, L x = fun k => ∑ j, x j * e j k :=
  ⟨{ toFun := fun x k => ∑ j, x j * e j k
     map_add' := fun x y => by
       funext k
       simp only [Pi.add_apply, add_mul, Finset.sum_add_distrib]
     map_smul' := fun a x => by
       funext k
       simp only [Pi.smul_apply, smul_eq_mul, RingHom.id_apply, Finset.mul_sum, mul_assoc] }, fun _ => rfl⟩

theorem lin_fft {n : ℕ} (hn : n ≠ 0) : Lin n fft := by
  obtain ⟨L, hL⟩ := lin_sum (n := n) fun j k => Complex.exp (-(2 * Real.pi * Complex.I * (j : ℕ) * (k : ℕ) / n))
  refine ⟨L, fun x => ?_⟩
  unfold fft
  rw [if_neg (by simpa using hn), hL]
  refine congrArg Except.ok (List.ext_getElem (by simp) fun k h1 h2 => ?_)
  rw [List.getElem_map, List.getElem_range, List.getElem_ofFn, List.length_ofFn, Finset.sum_range]
  refine Finset.sum_congr rfl fun j _ => ?_
  rw [List.getD_eq_getElem _ _ (by simp), List.getElem_ofFn]

theorem lin_ifft {n : ℕ} (hn : n ≠ 0) : Lin n ifft := by
  obtain ⟨L, hL⟩ := lin_sum (n := n) fun k j => Complex.exp (2 * Real.pi * Complex.I * (j : ℕ) * (k : ℕ) / n) / n
  refine ⟨L, fun x => ?_⟩
  unfold ifft
  rw [if_neg (by simpa using hn), hL]
  refine congrArg Except.ok (List.ext_getElem (by simp) fun k h1 h2 => ?_)
  rw [List.getElem_map, List.getElem_range, List.getElem_ofFn, List.length_ofFn, Finset.sum_range, Finset.sum_div]
  refine Finset.sum_congr rfl fun j _ => ?_
  rw [List.getD_eq_getElem _ _ (by simp), List.getElem_ofFn, mul_div_assoc]

theorem Lin.shifted {n : ℕ} {S : List ℂ → Res (List ℂ)} (h : Lin n S) (k : ℂ) :
    Lin n fun v => S (ifftshift v) >>= fun f => pure ((fftshift f).map (k * ·)) := by
  obtain ⟨L, hL⟩ := h
  obtain ⟨σ, hσ⟩ := rotate_ofFn (n := n) (k := n / 2) (by omega)
  obtain ⟨τ, hτ⟩ := rotate_ofFn (n := n) (k := (n + 1) / 2) (by omega)
  refine ⟨k • (LinearMap.funLeft ℂ ℂ τ ∘ₗ L ∘ₗ LinearMap.funLeft ℂ ℂ σ), fun x => ?_⟩
  have e1 : ifftshift (List.ofFn x) = List.ofFn (x ∘ σ) := by
    unfold ifftshift
    rw [List.length_ofFn, hσ]
  have e2 : fftshift (List.ofFn (L (x ∘ σ))) = List.ofFn (L (x ∘ σ) ∘ τ) := by
    unfold fftshift
    rw [List.length_ofFn, hτ]
  dsimp only
  rw [e1, hL, ok_bind, e2, List.map_ofFn]
  rfl

/-- The transformations of a new object and of its conjugate are linear. -/
theorem lin_new (b : Basis) {w : ℂ} (hw : b.width = .ok w) (h0 : w ≠ 0) (hn : 2 ≤ b.xs.length) (hh : 0 < b.hbar) {c : Obj}
    (hc' : (Obj.new b).getConj = .ok c) : Lin b.xs.length (Obj.new b).ft ∧ Lin b.xs.length c.ft := by
  have hp : (Real.pi : ℂ) ≠ 0 := by exact_mod_cast Real.pi_ne_zero
  have hb : (b.hbar : ℂ) ≠ 0 := by exact_mod_cast hh.ne'
  have hn0 : b.xs.length ≠ 0 := by omega
  have hN : (b.xs.length : ℂ) ≠ 0 := by exact_mod_cast hn0
  have hw' : 2 * (Real.pi : ℂ) * b.hbar * b.xs.length / w ≠ 0 := div_ne_zero (by simp [hp, hb, hN]) h0
  cases hk : b.kind with
  | coordinate =>
    obtain ⟨c0, c1, c2, c3, c4, c5⟩ := conj_coordinate hw h0 hn
    have hc : (Obj.new b).getConj = .ok ⟨c0, some b⟩ := by
      unfold Obj.new Obj.getConj
      dsimp only
      rw [hk]
      dsimp only
      rw [c1]
      rfl
    rw [hc] at hc'
    injection hc' with hc'
    subst hc'
    rw [ft_coordinate hc hk c5 hw', ft_momentum (o := ⟨c0, some b⟩) (c := ⟨b, some c0⟩) rfl c2 hw h0]
    exact ⟨(lin_fft hn0).shifted _, (lin_ifft hn0).shifted _⟩
  | momentum =>
    obtain ⟨c0, c1, c2, c3, c4, c5⟩ := conj_momentum hw h0 hn
    have hc : (Obj.new b).getConj = .ok ⟨c0, some b⟩ := by
      unfold Obj.new Obj.getConj
      dsimp only
      rw [hk]
      dsimp only
      rw [c1]
      rfl
    rw [hc] at hc'
    injection hc' with hc'
    subst hc'
    rw [ft_momentum hc hk c5 hw', ft_coordinate (o := ⟨c0, some b⟩) (c := ⟨b, some c0⟩) rfl c2 hw h0]
    exact ⟨(lin_ifft hn0).shifted _, (lin_fft hn0).shifted _⟩

theorem mulExp_ofFn {n : ℕ} (c : ℂ) (v : ℂ → ℂ) {xs : List ℂ} (hn : xs.length = n) (x : Fin n → ℂ) :
    mulExp c v xs (List.ofFn x) = List.ofFn fun i => Complex.exp (c * v (xs.getD i 0)) * x i := by
  unfold mulExp
  refine List.ext_getElem (by simp [hn]) fun i h1 h2 => ?_
  rw [List.getElem_zipWith, List.getElem_ofFn, List.getElem_ofFn]
  dsimp only
  rw [List.getD_eq_getElem]

end Grids
