import Verif.Lemmas.Conserve2
import Verif.Lemmas.MultiLayer
import Verif.Lemmas.Dirac2
import Verif.Spec.Full
import Mathlib.LinearAlgebra.Matrix.NonsingularInverse

/-! Helper lemmas for C133: the variations of a root with as many entries as there are configurations span all states. -/

open scoped BigOperators
open Py

namespace ML

open Heap SplitProp

variable {T R : Type} [Zero T] [Field R] [StarRing R]

theorem dot_point (s : Obj T R) (F : Forest) (φ χ : (ℕ → ℕ) → R) :
    dot s F φ χ = ∑ j ∈ Finset.range (leafDims s F).prod, φ (point s F j) * star (χ (point s F j)) := by
  unfold dot
  rw [sumLeaves_range]; rfl

theorem apply_point (s : Obj T R) (F : Forest) (ψ : (ℕ → ℕ) → R) (y : ℕ → ℕ) :
    apply s F ψ y = ∑ j ∈ Finset.range (leafDims s F).prod, ψ (point s F j) * hEntry s F (point s F j) y := by
  unfold apply
  rw [sumIdx_eq_sum_range]; rfl

theorem element_apply (s : Obj T R) (F : Forest) (φ χ : (ℕ → ℕ) → R) : element s F φ χ = dot s F (apply s F φ) χ := by
  rw [dot_point]
  unfold element
  rw [sumLeaves_range]
  simp only [sumLeaves_range, apply_point, Finset.sum_mul]
  rw [Finset.sum_comm]
  rfl

theorem dot_add (s : Obj T R) (F : Forest) (a b : R) (φ ψ χ : (ℕ → ℕ) → R) :
    dot s F (fun x => a * φ x + b * ψ x) χ = a * dot s F φ χ + b * dot s F ψ χ := by
  simp only [dot_point, Finset.mul_sum, ← Finset.sum_add_distrib]
  exact Finset.sum_congr rfl fun j _ => by ring

/-- A state is determined by its overlaps with the variations of a full root. -/
theorem eq_of_dots {s : Obj T R} {F : Forest} (ht : s.heap.IsTTN s.root F) (hcan : s.heap.CanonicalTree s.root F)
    (hleaf : ∀ e ∈ F.edges s.root, s.heap.isLeaf e.2.2.1 = true → s.heap.array e.2.2.1 = none) (hfull : FullRoot s F) {f g : (ℕ → ℕ) → R}
    (h : ∀ A B : Nd R, s.heap.array s.root = some A → B.Wf → B.shape = A.shape →
      dot s F f (variation s F s.root (some B)) = dot s F g (variation s F s.root (some B))) :
    ∀ idx, Valid (leafDims s F) idx → f (config s F idx) = g (config s F idx) := by
  obtain ⟨A, hA, hn⟩ := hfull
  obtain ⟨A', hA'⟩ := ht.full s.root (mem_tensors.2 ⟨.inl rfl, ht.leaf⟩)
  obtain rfl : A' = A := Option.some.inj (hA'.array.symm.trans hA)
  set n := (leafDims s F).prod with hnn
  set V : ℕ → (ℕ → ℕ) → R := fun k => variation s F s.root (some (unitNd A'.shape k)) with hV
  have horth : ∀ k < n, ∀ l < n, ∑ j ∈ Finset.range n, V k (point s F j) * star (V l (point s F j)) = if k = l then 1 else 0 := by
    intro k hk l hl
    have h1 := overlap_root ht hcan hleaf hA' (unitNd_wf A'.shape l) rfl (unitNd_wf A'.shape k) rfl
    have h2 := dot_point s F (V k) (V l)
    rw [← h2]
    refine h1.trans ?_
    rw [sumIdx_eq_sum_range, hn]
    have e : ∀ m < n, ∀ k, (unitNd A'.shape k : Nd R).get (unravel A'.shape m) = if m = k then 1 else 0 := by
      intro m hm k
      rw [unitNd_get _ _ (valid_unravel (by rw [hn]; exact hm)), ravel_unravel (by rw [hn]; exact hm)]
    rw [Finset.sum_congr rfl fun m hm => by rw [e m (Finset.mem_range.1 hm), e m (Finset.mem_range.1 hm)]]
    rw [Finset.sum_eq_single k]
    · rw [if_pos rfl, one_mul]; split <;> simp
    · intro m _ hm; rw [if_neg hm, zero_mul]
    · intro q; exact absurd (Finset.mem_range.2 hk) q
  let M : Matrix (Fin n) (Fin n) R := fun k j => V k.1 (point s F j.1)
  let M' : Matrix (Fin n) (Fin n) R := fun j k => star (V k.1 (point s F j.1))
  have hM : M * M' = 1 := by
    ext k l
    rw [Matrix.mul_apply, Matrix.one_apply]
    have := horth k.1 k.2 l.1 l.2
    rw [Finset.sum_range] at this
    rw [show (if k = l then (1 : R) else 0) = if k.1 = l.1 then 1 else 0 by simp [Fin.ext_iff], ← this]
  have hM' : M' * M = 1 := mul_eq_one_comm.1 hM
  have key : ∀ (f : (ℕ → ℕ) → R) (j : Fin n), f (point s F j.1) = ∑ k : Fin n, V k.1 (point s F j.1) * dot s F f (V k.1) := by
    intro f j
    have h1 : ∀ i : Fin n, ∑ k : Fin n, star (V k.1 (point s F i.1)) * V k.1 (point s F j.1) = if i = j then 1 else 0 := by
      intro i
      have := congrFun (congrFun hM' i) j
      rwa [Matrix.mul_apply, Matrix.one_apply] at this
    simp only [dot_point, Finset.mul_sum]
    rw [Finset.sum_comm, Finset.sum_range]
    rw [Finset.sum_congr rfl fun i _ => (by
      rw [Finset.sum_congr rfl fun k _ => show V k.1 (point s F j.1) * (f (point s F i.1) * star (V k.1 (point s F i.1))) =
        f (point s F i.1) * (star (V k.1 (point s F i.1)) * V k.1 (point s F j.1)) by ring, ← Finset.mul_sum, h1 i] :
      ∑ k : Fin n, V k.1 (point s F j.1) * (f (point s F i.1) * star (V k.1 (point s F i.1))) = f (point s F i.1) * if i = j then 1 else 0)]
    simp
  intro idx hv
  have hj := ravel_lt hv
  have e : config s F idx = point s F (ravel (leafDims s F) idx) := by
    unfold point; rw [unravel_ravel hv]
  rw [e, key f ⟨_, hj⟩, key g ⟨_, hj⟩]
  exact Finset.sum_congr rfl fun k _ => by rw [h A' _ hA'.array (unitNd_wf _ _) rfl]

/-- The same, whatever operators the leaves hold. -/
theorem eq_of_dots' {s : Obj T R} {F : Forest} (ht : s.heap.IsTTN s.root F) (hcan : s.heap.CanonicalTree s.root F) (hfull : FullRoot s F)
    {f g : (ℕ → ℕ) → R} (h : ∀ A B : Nd R, s.heap.array s.root = some A → B.Wf → B.shape = A.shape →
      dot s F f (variation s F s.root (some B)) = dot s F g (variation s F s.root (some B))) :
    ∀ idx, Valid (leafDims s F) idx → f (config s F idx) = g (config s F idx) := by
  have e : ML.Twin { s with heap := s.withTerm [] } s := ⟨withTerm_sim2 s [], rfl, rfl, rfl, rfl⟩
  have hm : s.root ∈ s.heap.tensors s.root F := mem_tensors.2 ⟨.inl rfl, ht.leaf⟩
  have hl : ∀ {t}, s.heap.isLeaf t = false → (s.withTerm []).array t = s.heap.array t := fun q => withTerm_array q
  have hL : leafDims { s with heap := s.withTerm [] } F = leafDims s F := by unfold leafDims; rw [e.leafList ht]
  have hC : ∀ idx, config { s with heap := s.withTerm [] } F idx = config s F idx := fun idx => by unfold config; rw [e.leafList ht]
  intro idx hv
  have := eq_of_dots (s := { s with heap := s.withTerm [] }) (F := F) (f := f) (g := g) (Sim2.ttn (Sim.symm e.sim) ht) (by
      intro x hx
      have hx' : x ∈ s.heap.bonds s.root F := by
        unfold bonds at hx ⊢; simp only [withTerm_isLeaf] at hx; exact hx
      obtain ⟨A, c1, c2, c3⟩ := hcan x hx'
      exact ⟨A, (hl (mem_bonds.1 hx').2).trans c1, c2, c3⟩)
    (fun x _ hx => withTerm_leaf (by rw [← withTerm_isLeaf]; exact hx))
    (by obtain ⟨A, c1, c2⟩ := hfull; exact ⟨A, (hl ht.leaf).trans c1, by rw [hL]; exact c2⟩)
    (fun A B hA hB hBs => by
      have hA' : s.heap.array s.root = some A := (hl ht.leaf).symm.trans hA
      rw [e.dot ht, e.dot ht, e.variation ht hm hA' hB hBs]
      exact h A B hA' hB hBs) idx (by rw [hL]; exact hv)
  rw [hC] at this
  exact this

end ML
