import Verif.Lemmas.Partition
import Mathlib.LinearAlgebra.Matrix.Trace
import Mathlib.Algebra.BigOperators.Field
import Mathlib.LinearAlgebra.Matrix.ConjTranspose

/-!
Lemmas for the partition function: a network of one tensor, and maps that act on one of two leaves.
-/

open scoped BigOperators Matrix
open Py

namespace ML

open Heap

variable {T R : Type} [Zero T] [Field R] [StarRing R]

/-- The objects that a propagation of a network of one tensor in imaginary time goes through. -/
def OneTensor (s0 : Obj T R) (F : Forest) (u : Obj T R) : Prop :=
  DirectReady u F ∧ (∀ l ∈ F.ids, u.heap.isLeaf l = true) ∧ u.hList = s0.hList ∧ u.fList = s0.fList ∧ u.time = none ∧
    u.heap.leafList u.root F = s0.heap.leafList s0.root F

theorem OneTensor.orthogonal (s0 : Obj T R) (F : Forest) : Orthogonal (OneTensor s0 F) F (s0.heap.leafList s0.root F) where
  ttn := fun s h => h.1.ttn
  axis := fun s h => h.1.rooted.1
  can := fun s h => h.1.can
  leaves := fun s h => h.2.2.2.2.2
  time := fun s h => by
    have : ({ s with time := none } : Obj T R) = s := by
      obtain ⟨h1, h2, h3, h4, h5, h6⟩ := h
      cases s; cases h5; rfl
    rw [this]; exact h
  scale := fun s h A B X c hA hB hBs _ => by
    obtain ⟨h1, h2, h3, h4, h5, h6⟩ := h
    obtain ⟨r1, r2, r3⟩ := h1.twin (u := { s with heap := (s.heap.setAux s.root X).setArray s.root (some B) }) h2 hA hB hBs
      ⟨sim2_setArray (Sim.aux (setAux_noAux _ _ _)) (by
        have : (s.heap.setAux s.root X).isLeaf s.root = s.heap.isLeaf s.root := (Sim.aux (setAux_noAux _ _ _)).isLeaf _
        rw [this]; exact h1.ttn.leaf) _, rfl, rfl, rfl, rfl⟩
    exact ⟨r1, r2, h3, h4, h5, r3.trans h6⟩

theorem generator_hom (s : Obj T R) (F : Forest) (hN : ((s.heap.leafList s.root F).map Prod.fst).Nodup) (coef : R) (ie : Option R) :
    Homogeneous (s.heap.leafList s.root F) (generator s F coef ie) := by
  intro c φ χ h y hy
  unfold generator
  rw [h y hy, TreeSum.sumLeaves_congr' hN (g' := fun x => c * (χ x * hEntry s F x y)) (fun x _ hx => by rw [h x hx]; ring),
    TreeSum.sumLeaves_mul_left]
  ring

theorem taylor4_hom {D : List (ℕ × ℕ)} {L : ((ℕ → ℕ) → R) → (ℕ → ℕ) → R} (hL : Homogeneous D L) (dt : R) :
    Homogeneous D (taylor4 L dt) := by
  intro c φ χ h y hy
  have h1 := hL c _ _ h
  have h2 := hL c _ _ h1
  have h3 := hL c _ _ h2
  have h4 := hL c _ _ h3
  unfold taylor4
  rw [h y hy, h1 y hy, h2 y hy, h3 y hy, h4 y hy]
  ring

/-- A step of the Runge-Kutta method for one tensor is the Taylor polynomial. -/
theorem rk4_realises [CharZero R] (s0 : Obj T R) (F : Forest) (lin : Linalg R) {coef : R} (hcoef : coef ≠ 0) (ie : Option R) (dt : R)
    {fuel : ℕ} (hf : F.ids.length < fuel)
    (hrk : ∀ s : Obj T R, DirectReady s F → (∀ l ∈ F.ids, s.heap.isLeaf l = true) → ∃ s', rk4Step fuel lin coef ie dt s = .ok s' ∧
      s'.root = s.root ∧ SameState (s.heap.leafList s.root F) (s'.heap.treeAmp s.root F) (taylor4 (generator s F coef ie) dt (s.heap.treeAmp s.root F))) :
    Realises (rk4Step fuel lin coef ie dt) (OneTensor s0 F) F (s0.heap.leafList s0.root F)
      (taylor4 (generator { s0 with time := none } F coef ie) dt) := by
  intro s h ht
  obtain ⟨h1, h2, h3, h4, h5, h6⟩ := h
  obtain ⟨s', A0, B, e1, e2, e3, e4, e5⟩ := rk4_one h1 h2 lin hcoef ie dt hf
  obtain ⟨s'', g1, g2, g3⟩ := hrk s h1 h2
  obtain rfl : s' = s'' := Except.ok.inj (e1.symm.trans g1)
  obtain ⟨r1, r2, r3⟩ := h1.twin h2 e2 e3 e4 e5
  refine ⟨s', e1, ⟨r1, r2, e5.hList.trans h3, e5.fList.trans h4, e5.time.trans h5, r3.trans h6⟩, ?_⟩
  have hgen : generator s F coef ie = generator { s0 with time := none } F coef ie := by
    funext φ y
    unfold generator hEntry termEntry Obj.allTerms Obj.now
    simp only
    rw [h6, h3, h4, h5]
  rw [← hgen, g2, ← h6]
  exact g3

/-! ### Two leaves -/

/-- `y` are indices of the leaves in `D`, and 0 elsewhere. -/
def Proper (D : List (ℕ × ℕ)) (y : ℕ → ℕ) : Prop := (∀ p ∈ D, y p.1 < p.2) ∧ ∀ l, l ∉ D.map Prod.fst → y l = 0

/-- `L` acts on the index of leaf `a` with the matrix `M`. -/
def ActsOn (D : List (ℕ × ℕ)) (a n : ℕ) (L : ((ℕ → ℕ) → R) → (ℕ → ℕ) → R) (M : Matrix (Fin n) (Fin n) R) : Prop :=
  ∀ φ y, Proper D y → ∀ h : y a < n, L φ y = ∑ v : Fin n, φ (Nd.upd y a v) * M v ⟨y a, h⟩

theorem Proper.upd {a b n : ℕ} {y : ℕ → ℕ} (hy : Proper [(a, n), (b, n)] y) (hab : a ≠ b) (v : Fin n) :
    Proper [(a, n), (b, n)] (Nd.upd y a v) := by
  refine ⟨fun p hp => ?_, fun l hl => ?_⟩
  · simp only [List.mem_cons, List.not_mem_nil, or_false] at hp
    rcases hp with rfl | rfl
    · simp [Nd.upd]
    · simp only [Nd.upd, if_neg (Ne.symm hab)]
      exact hy.1 (b, n) (by simp)
  · have hla : l ≠ a := by rintro rfl; simp at hl
    simp only [Nd.upd, if_neg hla]
    exact hy.2 l hl

theorem upd_upd (y : ℕ → ℕ) (a v w : ℕ) : Nd.upd (Nd.upd y a v) a w = Nd.upd y a w := by
  funext k; unfold Nd.upd; split <;> rfl

theorem upd_eq (y : ℕ → ℕ) (a : ℕ) : Nd.upd y a (y a) = y := by
  funext k; unfold Nd.upd; split
  · subst_vars; rfl
  · rfl

theorem ActsOn.comp {a b n : ℕ} (hab : a ≠ b) {L K : ((ℕ → ℕ) → R) → (ℕ → ℕ) → R} {M N : Matrix (Fin n) (Fin n) R}
    (hL : ActsOn [(a, n), (b, n)] a n L M) (hK : ActsOn [(a, n), (b, n)] a n K N) :
    ActsOn [(a, n), (b, n)] a n (fun φ => L (K φ)) (N * M) := by
  intro φ y hy h
  show L (K φ) y = _
  rw [hL _ y hy h]
  have : ∀ v : Fin n, K φ (Nd.upd y a v) = ∑ w : Fin n, φ (Nd.upd y a w) * N w v := fun v => by
    have hv : Nd.upd y a v a = v := by simp [Nd.upd]
    rw [hK φ _ (hy.upd hab v) (by rw [hv]; exact v.2)]
    refine Finset.sum_congr rfl fun w _ => ?_
    rw [upd_upd]
    congr 2
    exact Fin.ext hv
  simp only [this, Matrix.mul_apply, Finset.sum_mul, Finset.mul_sum]
  rw [Finset.sum_comm]
  exact Finset.sum_congr rfl fun v _ => Finset.sum_congr rfl fun w _ => by ring

theorem actsOn_id {D : List (ℕ × ℕ)} (a n : ℕ) : ActsOn (R := R) D a n (fun φ => φ) 1 := by
  intro φ y hy h
  rw [Finset.sum_eq_single ⟨y a, h⟩]
  · rw [Matrix.one_apply_eq, mul_one, upd_eq]
  · intro v _ hv; rw [Matrix.one_apply_ne hv, mul_zero]
  · intro q; exact absurd (Finset.mem_univ _) q

theorem ActsOn.iterate {a b n : ℕ} (hab : a ≠ b) {L : ((ℕ → ℕ) → R) → (ℕ → ℕ) → R} {M : Matrix (Fin n) (Fin n) R}
    (hL : ActsOn [(a, n), (b, n)] a n L M) (k : ℕ) : ActsOn [(a, n), (b, n)] a n (L^[k]) (M ^ k) := by
  induction k with
  | zero => rw [pow_zero]; exact actsOn_id a n
  | succ k ih =>
    have := hL.comp hab ih
    rw [← pow_succ] at this
    intro φ y hy h
    rw [Function.iterate_succ_apply']
    exact this φ y hy h

theorem ActsOn.taylor4 {a b n : ℕ} (hab : a ≠ b) {L : ((ℕ → ℕ) → R) → (ℕ → ℕ) → R} {M : Matrix (Fin n) (Fin n) R}
    (hL : ActsOn [(a, n), (b, n)] a n L M) (dt : R) :
    ActsOn [(a, n), (b, n)] a n (ML.taylor4 L dt)
      (1 + dt • M + (dt ^ 2 / 2) • M ^ 2 + (dt ^ 3 / 6) • M ^ 3 + (dt ^ 4 / 24) • M ^ 4) := by
  intro φ y hy h
  have h0 := hL.iterate hab 0 φ y hy h
  have h1 := hL.iterate hab 1 φ y hy h
  have h2 := hL.iterate hab 2 φ y hy h
  have h3 := hL.iterate hab 3 φ y hy h
  have h4 := hL.iterate hab 4 φ y hy h
  rw [pow_zero] at h0
  rw [pow_one] at h1
  have e : ML.taylor4 L dt φ y = L^[0] φ y + dt * L^[1] φ y + dt ^ 2 / 2 * L^[2] φ y + dt ^ 3 / 6 * L^[3] φ y + dt ^ 4 / 24 * L^[4] φ y := rfl
  rw [e, h0, h1, h2, h3, h4]
  simp only [Finset.mul_sum, ← Finset.sum_add_distrib]
  refine Finset.sum_congr rfl fun v _ => ?_
  simp only [Matrix.add_apply, Matrix.smul_apply, smul_eq_mul]
  ring

/-- The squared norm of what a matrix on leaf `a` makes of the maximally entangled state of `a` and `b`. -/
theorem squareNorm_entangled {a b n : ℕ} (hab : a ≠ b) {L : ((ℕ → ℕ) → R) → (ℕ → ℕ) → R} {M : Matrix (Fin n) (Fin n) R}
    (hL : ActsOn [(a, n), (b, n)] a n L M) {φ : (ℕ → ℕ) → R} {z : R}
    (hφ : SameState [(a, n), (b, n)] φ (fun y => if y a = y b then z else 0)) :
    squareNorm [(a, n), (b, n)] (L φ) = z * star z * Matrix.trace (M * Mᴴ) := by
  have hD : (([(a, n), (b, n)] : List (ℕ × ℕ)).map Prod.fst).Nodup := by simp [hab]
  have hval : ∀ y, Proper [(a, n), (b, n)] y → L φ y = z * if h : y a < n ∧ y b < n then M ⟨y b, h.2⟩ ⟨y a, h.1⟩ else 0 := by
    intro y hy
    have ha := hy.1 (a, n) (by simp)
    have hb := hy.1 (b, n) (by simp)
    simp only at ha hb
    rw [hL φ y hy ha, dif_pos (show y a < n ∧ y b < n from ⟨ha, hb⟩), Finset.sum_eq_single (⟨y b, hb⟩ : Fin n)]
    · rw [hφ _ (hy.upd hab _).1]
      simp [Nd.upd, Ne.symm hab]
    · intro v _ hv
      rw [hφ _ (hy.upd hab _).1]
      simp only [Nd.upd, if_pos, if_neg (Ne.symm hab)]
      rw [if_neg (fun q => hv (Fin.ext q)), zero_mul]
    · intro q; exact absurd (Finset.mem_univ _) q
  have e0 : squareNorm [(a, n), (b, n)] (L φ) =
      squareNorm [(a, n), (b, n)] fun y => z * if h : y a < n ∧ y b < n then M ⟨y b, h.2⟩ ⟨y a, h.1⟩ else 0 := by
    unfold squareNorm
    exact TreeSum.sumLeaves_congr' hD fun y h1 h2 => by rw [hval y ⟨h2, h1⟩]
  rw [e0, squareNorm_smul]
  congr 1
  unfold squareNorm
  simp only [sumLeaves]
  rw [Matrix.trace, Finset.sum_range]
  simp only [Finset.sum_range, Matrix.diag_apply, Matrix.mul_apply, Matrix.conjTranspose_apply]
  rw [Finset.sum_comm]
  refine Finset.sum_congr rfl fun i _ => Finset.sum_congr rfl fun j _ => ?_
  have e1 : Nd.upd (Nd.upd (fun _ => 0) a (j : ℕ)) b (i : ℕ) a = j := by simp [Nd.upd, hab]
  have e2 : Nd.upd (Nd.upd (fun _ => 0) a (j : ℕ)) b (i : ℕ) b = i := by simp [Nd.upd]
  simp only [e1, e2, j.2, i.2, and_self, dif_pos]

/-- The matrix of a list of terms all of which are on leaf `a`. -/
def leafMatrix (s : Obj T R) (n a : ℕ) : Matrix (Fin n) (Fin n) R :=
  fun v w => ((s.allTerms none).map fun term => opEntry (opOn s.now term a) v w).sum

theorem generator_acts {s : Obj T R} {F : Forest} {a b n : ℕ} (hab : a ≠ b) (hD : s.heap.leafList s.root F = [(a, n), (b, n)])
    (hterms : ∀ term ∈ s.allTerms none, ∀ p ∈ term, p.1 = a) (coef : R) (ie : Option R) :
    ActsOn [(a, n), (b, n)] a n (generator s F coef ie) ((1 / coef) • leafMatrix s n a - (ie.getD 0) • (1 : Matrix (Fin n) (Fin n) R)) := by
  have hnone : ∀ term ∈ s.allTerms none, opOn s.now term b = none := by
    intro term ht
    have : ∀ (l : Term T R), (∀ p ∈ l, p.1 = a) → l.foldl (fun acc p => if p.1 = b then some (p.2.at s.now) else acc) none = none := by
      intro l hl
      induction l with
      | nil => rfl
      | cons p l ih =>
        rw [List.foldl_cons, if_neg (by rw [hl p (by simp)]; exact hab)]
        exact ih fun q hq => hl q (by simp [hq])
    exact this term (hterms term ht)
  intro φ y hy h
  have hb := hy.1 (b, n) (by simp)
  simp only at hb
  have hE : ∀ x, hEntry s F x y = (if x b = y b then 1 else 0) * ((s.allTerms none).map fun term => opEntry (opOn s.now term a) (x a) (y a)).sum := by
    intro x
    unfold hEntry
    rw [← List.sum_map_mul_left]
    congr 1
    refine List.map_congr_left fun term ht => ?_
    unfold termEntry
    rw [hD]
    simp only [List.map_cons, List.map_nil, List.prod_cons, List.prod_nil, mul_one, hnone term ht]
    rw [mul_comm]
    rfl
  unfold generator
  rw [hD]
  have e1 : sumLeaves [(a, n), (b, n)] (fun x => φ x * hEntry s F x y) (fun _ => 0) = ∑ v : Fin n, φ (Nd.upd y a v) * leafMatrix s n a v ⟨y a, h⟩ := by
    simp only [sumLeaves]
    rw [Finset.sum_range]
    refine Finset.sum_congr rfl fun v _ => ?_
    rw [Finset.sum_eq_single (y b)]
    · rw [hE]
      have q1 : Nd.upd (Nd.upd (fun _ => 0) a (v : ℕ)) b (y b) = Nd.upd y a v := by
        funext l
        unfold Nd.upd
        by_cases hlb : l = b
        · subst hlb; simp [Ne.symm hab]
        · by_cases hla : l = a
          · subst hla; simp [hlb]
          · rw [if_neg hlb, if_neg hla, if_neg hla, hy.2 l (by simp [hla, hlb])]
      rw [q1]
      simp [Nd.upd, Ne.symm hab, leafMatrix]
    · intro w _ hw
      rw [hE]
      simp [Nd.upd, hw]
    · intro q; exact absurd (Finset.mem_range.2 hb) q
  rw [e1]
  have e2 := actsOn_id (R := R) (D := [(a, n), (b, n)]) a n φ y hy h
  simp only at e2
  rw [e2, Finset.sum_div, Finset.mul_sum, ← Finset.sum_sub_distrib]
  refine Finset.sum_congr rfl fun v _ => ?_
  simp only [Matrix.sub_apply, Matrix.smul_apply, smul_eq_mul]
  ring

end ML
