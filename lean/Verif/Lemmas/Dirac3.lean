import Verif.Lemmas.Dirac2
import Mathlib.LinearAlgebra.Matrix.NonsingularInverse

/-!
Norm and energy; an exact inverse.
-/

open scoped BigOperators
open Py

namespace ML

open Heap

variable {T R : Type} [Zero T] [Field R] [StarRing R]

theorem vel_eq {s s2 s' : Obj T R} {F : Forest} (ht : s.heap.IsTTN s.root F) (e : Twin s2 s)
    (haux : ∀ t ∈ s.heap.tensors s.root F, ∀ A, s.heap.array t = some A → ∃ D, (s'.heap.node t).aux = some D ∧ D.Wf ∧ D.shape = A.shape) :
    vel s2 F (fun t => ((s'.heap.node t).aux).getD ⟨[], []⟩) = velocity s s' F := by
  funext x
  unfold vel velocity
  rw [e.root, e.sim.tensors]
  congr 1
  refine List.map_congr_left fun t hm => ?_
  obtain ⟨A, hA⟩ := ht.full t hm
  obtain ⟨D, d1, d2, d3⟩ := haux t hm A hA.array
  beta_reduce
  rw [d1, Option.getD_some, e.variation ht hm hA.array d2 d3]

theorem element_sum_right (s : Obj T R) (F : Forest) {α : Type} (l : List α) (φ : (ℕ → ℕ) → R) (χ : α → (ℕ → ℕ) → R) :
    element s F φ (fun x => (l.map fun a => χ a x).sum) = (l.map fun a => element s F φ (χ a)).sum := by
  induction l with
  | nil =>
    unfold element
    simp only [List.map_nil, List.sum_nil, star_zero, mul_zero]
    have h0 : ∀ (L : List (ℕ × ℕ)) (x : ℕ → ℕ), sumLeaves L (fun _ => (0 : R)) x = 0 := by
      intro L
      induction L with
      | nil => intro x; rfl
      | cons p L ih => intro x; simp only [sumLeaves, ih, Finset.sum_const_zero]
    simp only [h0]
  | cons a l ih =>
    simp only [List.map_cons, List.sum_cons]
    rw [element_add_right, ih]

theorem dot_sum_right (s : Obj T R) (F : Forest) {α : Type} (l : List α) (φ : (ℕ → ℕ) → R) (χ : α → (ℕ → ℕ) → R) :
    dot s F φ (fun x => (l.map fun a => χ a x).sum) = (l.map fun a => dot s F φ (χ a)).sum := by
  induction l with
  | nil =>
    unfold dot
    simp only [List.map_nil, List.sum_nil, star_zero, mul_zero]
    have h0 : ∀ (L : List (ℕ × ℕ)) (x : ℕ → ℕ), sumLeaves L (fun _ => (0 : R)) x = 0 := by
      intro L
      induction L with
      | nil => intro x; rfl
      | cons p L ih => intro x; simp only [sumLeaves, ih, Finset.sum_const_zero]
    simp only [h0]
  | cons a l ih =>
    simp only [List.map_cons, List.sum_cons]
    rw [dot_add_right, ih]

theorem star_sumLeaves (L : List (ℕ × ℕ)) (g : (ℕ → ℕ) → R) (x : ℕ → ℕ) :
    star (sumLeaves L g x) = sumLeaves L (fun y => star (g y)) x := by
  induction L generalizing x with
  | nil => rfl
  | cons p L ih => simp only [sumLeaves, _root_.star_sum, ih]

theorem star_dot (s : Obj T R) (F : Forest) (φ χ : (ℕ → ℕ) → R) : star (dot s F φ χ) = dot s F χ φ := by
  unfold dot
  rw [star_sumLeaves]
  exact TreeSum.sumLeaves_congr fun x => by rw [star_mul, star_star]

theorem sumLeaves_swap (L L' : List (ℕ × ℕ)) (g : (ℕ → ℕ) → (ℕ → ℕ) → R) (x y : ℕ → ℕ) :
    sumLeaves L (fun u => sumLeaves L' (fun v => g u v) y) x = sumLeaves L' (fun v => sumLeaves L (fun u => g u v) x) y := by
  induction L generalizing x with
  | nil => rfl
  | cons p L ih =>
    simp only [sumLeaves, ih]
    rw [← TreeSum.sumLeaves_sum]

theorem star_element {s : Obj T R} {F : Forest} (ht : s.heap.IsTTN s.root F) {coef : R} (h0 : coef ≠ 0)
    (hg : Generates s F coef) (φ χ : (ℕ → ℕ) → R) :
    coef * star (element s F φ χ) = -(star coef * element s F χ φ) := by
  unfold element
  rw [star_sumLeaves]
  simp only [star_sumLeaves]
  rw [sumLeaves_swap, ← TreeSum.sumLeaves_mul_left, ← neg_mul, ← TreeSum.sumLeaves_mul_left]
  refine TreeSum.sumLeaves_congr' (leafList_nodup ht) fun x _ hx => ?_
  rw [← TreeSum.sumLeaves_mul_left, ← TreeSum.sumLeaves_mul_left]
  refine TreeSum.sumLeaves_congr' (leafList_nodup ht) fun y _ hy => ?_
  have := hg y x hy hx
  rw [star_mul, star_mul, star_star]
  linear_combination χ x * star (φ y) * this

/-- Linear algebra with the exact inverse of invertible matrices. -/
noncomputable def exactLinalg (R : Type) [Field R] : Linalg R where
  pinv2 := fun d => match d.shape with
    | [n, _] => .ok (Nd.ofFn [n, n] fun w => if h : w.getD 0 0 < n ∧ w.getD 1 0 < n then
        ((Matrix.of fun i j : Fin n => d.get [i.1, j.1])⁻¹ : Matrix (Fin n) (Fin n) R) ⟨w.getD 0 0, h.1⟩ ⟨w.getD 1 0, h.2⟩ else 0)
    | _ => .error .valueError
  inv := fun _ => .error .valueError
  usePinv := true
  regularErr := 0

omit [StarRing R] in
theorem exactLinalg_exact : (exactLinalg R).Exact := by
  intro n d hd hs hN
  obtain ⟨N, hN⟩ := hN
  refine ⟨_, by unfold Linalg.invert; simp only [exactLinalg, if_true, hs]; rfl, rfl, ?_⟩
  set m : Matrix (Fin n) (Fin n) R := Matrix.of fun i j : Fin n => d.get [i.1, j.1] with hm
  have h1 : (Matrix.of fun i j : Fin n => N i.1 j.1) * m = 1 := by
    ext i j
    rw [Matrix.mul_apply, Matrix.one_apply]
    have := hN i.1 i.2 j.1 j.2
    rw [Finset.sum_range] at this
    simp only [hm, Matrix.of_apply]
    rw [this]
    by_cases q : i = j
    · simp [q]
    · have : i.1 ≠ j.1 := fun q' => q (Fin.ext q')
      simp [q, this]
  have h2 : m⁻¹ * m = 1 := Matrix.nonsing_inv_mul _ ((Matrix.isUnit_iff_isUnit_det m).1 (IsUnit.of_mul_eq_one_right _ h1))
  intro b hb z hz
  have h3 := congrFun (congrFun h2 ⟨b, hb⟩) ⟨z, hz⟩
  rw [Matrix.mul_apply, Matrix.one_apply] at h3
  rw [Finset.sum_range]
  have : ∀ c : Fin n, (Nd.ofFn [n, n] fun w => if h : w.getD 0 0 < n ∧ w.getD 1 0 < n then m⁻¹ ⟨w.getD 0 0, h.1⟩ ⟨w.getD 1 0, h.2⟩ else 0).get [b, c.1] =
      m⁻¹ ⟨b, hb⟩ c := by
    intro c
    rw [Nd.get_ofFn _ (by simp [Valid, hb])]
    simp [hb]
  simp only [this]
  simp only [hm, Matrix.of_apply, Fin.mk.injEq] at h3 ⊢
  exact h3

end ML
