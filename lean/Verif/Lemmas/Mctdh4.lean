import Verif.Props.C65

/-!
`_sp_op` and `_coeff_op` on the current state, for real single-particle functions.
-/

open Py
open scoped BigOperators

namespace Mctdh

variable {R : Type} [CommRing R] [StarRing R]

/-! ### `outside` -/

theorem outside_zero (c : Nd R) (x : ℕ) : outside c (fun _ => 0) x = 0 := by simp [outside]

theorem outside_add (c : Nd R) (f g : ℕ → R) (x : ℕ) : outside c (fun y => f y + g y) x = outside c f x + outside c g x := by
  unfold outside
  simp only [mul_add, Finset.sum_add_distrib]
  ring

theorem outside_mul (c : Nd R) (f : ℕ → R) (k : R) (x : ℕ) : outside c (fun y => f y * k) x = outside c f x * k := by
  unfold outside
  rw [sub_mul, Finset.sum_mul]
  congr 1
  refine Finset.sum_congr rfl fun j _ => ?_
  rw [mul_assoc, Finset.sum_mul]
  congr 1
  exact Finset.sum_congr rfl fun y _ => by ring

theorem outside_sum {ι : Type} (c : Nd R) (s : Finset ι) (f : ι → ℕ → R) (x : ℕ) :
    outside c (fun y => ∑ l ∈ s, f l y) x = ∑ l ∈ s, outside c (f l) x := by
  classical
  induction s using Finset.induction_on with
  | empty => simp [outside_zero]
  | insert a s ha ih =>
    simp only [Finset.sum_insert ha]
    rw [outside_add, ih]

theorem outside_sumIdx (c : Nd R) (s : List ℕ) (f : List ℕ → ℕ → R) (x : ℕ) :
    outside c (fun y => sumIdx s fun l => f l y) x = sumIdx s fun l => outside c (f l) x := by
  rw [sumIdx_eq_sum_range]
  simp only [sumIdx_eq_sum_range]
  rw [outside_sum]

/-- The columns themselves have no part outside. -/
theorem outside_col {c : Nd R} (ho : Orthonormal c) {k : ℕ} (hk : k < c.dim 1) (x : ℕ) : outside c (fun y => c.get [y, k]) x = 0 := by
  unfold outside
  rw [sub_eq_zero]
  have : ∀ j ∈ Finset.range (c.dim 1), c.get [x, j] * (∑ y ∈ Finset.range (c.dim 0), star (c.get [y, j]) * c.get [y, k]) =
      c.get [x, j] * delta j k := by
    intro j hj
    rw [ho j (Finset.mem_range.1 hj) k hk]
    rfl
  rw [Finset.sum_congr rfl this, sum_delta_right hk fun j => c.get [x, j]]

/-- What is outside is orthogonal to the columns. -/
theorem outside_orthogonal {c : Nd R} (ho : Orthonormal c) {j : ℕ} (hj : j < c.dim 1) (g : ℕ → R) :
    ∑ x ∈ Finset.range (c.dim 0), star (c.get [x, j]) * outside c g x = 0 := by
  unfold outside
  simp only [mul_sub, Finset.sum_sub_distrib]
  rw [sub_eq_zero]
  simp only [Finset.mul_sum]
  rw [Finset.sum_comm]
  have : ∀ k ∈ Finset.range (c.dim 1), (∑ x ∈ Finset.range (c.dim 0), ∑ y ∈ Finset.range (c.dim 0),
      star (c.get [x, j]) * (c.get [x, k] * (star (c.get [y, k]) * g y))) =
      delta j k * ∑ y ∈ Finset.range (c.dim 0), star (c.get [y, k]) * g y := by
    intro k hk
    have h1 := ho j hj k (Finset.mem_range.1 hk)
    unfold delta
    rw [← h1, Finset.sum_mul]
    refine Finset.sum_congr rfl fun x _ => ?_
    rw [Finset.mul_sum]
    exact Finset.sum_congr rfl fun y _ => by ring
  rw [Finset.sum_congr rfl this]
  exact (sum_delta_left hj fun k => ∑ y ∈ Finset.range (c.dim 0), star (c.get [y, k]) * g y).symm

/-! ### Overlaps -/

/-- The overlap of a product of operators applied to the state with a product of functions `D`. -/
theorem overlap (s t : List ℕ) (hl : t.length = s.length) (D C O : ℕ → ℕ → ℕ → R) (B : List ℕ → R) (j : List ℕ) (hj : j.length = s.length) :
    sumIdx s (fun x => prodF s.length D j x *
      sumIdx s (fun y => prodF s.length O x y * sumIdx t fun k => prodF s.length C y k * B k)) =
    sumIdx t (fun k => prodF s.length (fun i a b => ∑ x ∈ Finset.range (s.getD i 0),
      D i a x * ∑ y ∈ Finset.range (s.getD i 0), O i x y * C i y b) j k * B k) := by
  have e1 : ∀ x, Valid s x → sumIdx s (fun y => prodF s.length O x y * sumIdx t fun j => prodF s.length C y j * B j) =
      sumIdx t fun k => prodF s.length (fun i a b => ∑ y ∈ Finset.range (s.getD i 0), O i a y * C i y b) x k * B k := by
    intro x hx
    simp only [← sumIdx_mul_left, ← mul_assoc]
    rw [sumIdx_comm]
    refine sumIdx_congr fun k hk => ?_
    rw [sumIdx_mul_right, prodF_comp s O C x k hx.length_eq (hk.length_eq.trans hl)]
  rw [sumIdx_congr fun x hx => by rw [e1 x hx]]
  simp only [← sumIdx_mul_left, ← mul_assoc]
  rw [sumIdx_comm]
  refine sumIdx_congr fun k hk => ?_
  rw [sumIdx_mul_right, prodF_comp s _ _ j k hj (hk.length_eq.trans hl)]

/-- The same for a term and the represented state. -/
theorem overlap_term {cs : List (Nd R)} {a : Nd R} (hb : Blocks cs a) {term : Term R} (ht : TermOk cs term) (D : ℕ → ℕ → ℕ → R)
    (j : List ℕ) (hj : j.length = cs.length) :
    sumIdx (cs.map fun c => c.dim 0) (fun y => prodF cs.length D j y * actTerm term (amplitude cs a) y) =
      sumIdx a.shape fun k => prodF cs.length (fun l p q => ∑ x ∈ Finset.range ((block cs l).dim 0),
        D l p x * ∑ y ∈ Finset.range ((block cs l).dim 0), opAt term l x y * (block cs l).get [y, q]) j k * a.get k := by
  have hla : a.shape.length = cs.length := by rw [hb.shapeA]; simp
  set s := cs.map fun c => c.dim 0 with hs
  have hls : s.length = cs.length := by rw [hs]; simp
  have hds : ∀ k < cs.length, s.getD k 0 = (block cs k).dim 0 := by
    intro k hk
    rw [hs, List.getD_eq_getElem _ _ (by simpa using hk), List.getElem_map]
    unfold block
    rw [List.getD_eq_getElem _ _ hk]
  have e1 : ∀ y, Valid s y → prodF cs.length D j y * actTerm term (amplitude cs a) y = prodF s.length D j y *
      sumIdx s (fun z => prodF s.length (opAt term) y z *
        sumIdx a.shape fun j => prodF s.length (fun k p q => (block cs k).get [p, q]) z j * a.get j) := by
    intro y hy
    rw [actTerm_eq s term (fun p hp => ?_) ht.nodup y hy, hls]
    · rfl
    · have hp' := ht.coord p hp
      refine ⟨hls ▸ hp', ?_⟩
      rw [hds _ hp']
      unfold Nd.dim
      rw [ht.shape p hp]
      rfl
  rw [sumIdx_congr e1, overlap s a.shape (hla.trans hls.symm) _ _ _ _ j (hj.trans hls.symm)]
  refine sumIdx_congr fun k _ => ?_
  rw [hls]
  congr 1
  refine prodF_congr fun l hl => ?_
  rw [hds l hl]

/-- What is known of the projected operators of a term. -/
structure ModsOk (cs : List (Nd R)) (term mods : Term R) : Prop where
  fst : mods.map Prod.fst = term.map Prod.fst
  shape : ∀ p ∈ mods, p.2.shape = [(block cs p.1).dim 1, (block cs p.1).dim 1]
  get : ∀ k < cs.length, ∀ p q, p < (block cs k).dim 1 → q < (block cs k).dim 1 → (term.lookup k = none → mods.lookup k = none) ∧
        ∀ h, term.lookup k = some h → ∃ w, mods.lookup k = some w ∧ w.get [p, q] =
          ∑ x ∈ Finset.range ((block cs k).dim 0), star ((block cs k).get [x, p]) *
            ∑ y ∈ Finset.range ((block cs k).dim 0), h.get [x, y] * (block cs k).get [y, q]

/-- The entries of the projected operators, also for coordinates on which the term does not act. -/
theorem ModsOk.opAt {cs : List (Nd R)} {term mods : Term R} (hm : ModsOk cs term mods) (ho : ∀ c ∈ cs, Orthonormal c) {k : ℕ}
    (hk : k < cs.length) {p q : ℕ} (hp : p < (block cs k).dim 1) (hq : q < (block cs k).dim 1) :
    Mctdh.opAt mods k p q = ∑ x ∈ Finset.range ((block cs k).dim 0), star ((block cs k).get [x, p]) *
      ∑ y ∈ Finset.range ((block cs k).dim 0), Mctdh.opAt term k x y * (block cs k).get [y, q] := by
  obtain ⟨n1, n2⟩ := hm.get k hk p q hp hq
  cases hlook : term.lookup k with
  | none =>
    rw [opAt_none (n1 hlook)]
    have h2 := ho _ (Blocks.mem hk) _ hp _ hq
    unfold delta
    rw [← h2]
    refine Finset.sum_congr rfl fun x hx => ?_
    rw [opAt_none hlook, sum_delta_left (Finset.mem_range.1 hx) fun y => (block cs k).get [y, q]]
  | some h =>
    obtain ⟨u, u1, u2⟩ := n2 h hlook
    rw [opAt_some u1, u2]
    simp only [opAt_some hlook]

theorem ModsOk.coord {cs : List (Nd R)} {term mods : Term R} (hm : ModsOk cs term mods) (ht : TermOk cs term) : ∀ p ∈ mods, p.1 < cs.length := by
  intro p hp
  have : p.1 ∈ term.map Prod.fst := hm.fst ▸ List.mem_map_of_mem hp
  obtain ⟨q, hq, hqe⟩ := List.mem_map.1 this
  exact hqe ▸ ht.coord q hq

theorem Blocks.posA {cs : List (Nd R)} {a : Nd R} (hb : Blocks cs a) : ∀ d ∈ a.shape, 0 < d := by
  intro d hd
  rw [hb.shapeA] at hd
  obtain ⟨c, hc, rfl⟩ := List.mem_map.1 hd
  obtain ⟨n, m, _, hm, hs⟩ := hb.shape c hc
  simpa [Nd.dim, hs] using hm

theorem Blocks.lenA {cs : List (Nd R)} {a : Nd R} (hb : Blocks cs a) : a.shape.length = cs.length := by rw [hb.shapeA]; simp

/-- The coefficient part. -/
theorem coeffOp_project {cs : List (Nd R)} {a : Nd R} (hb : Blocks cs a) (ho : ∀ c ∈ cs, Orthonormal c)
    (htc : Dvr.TailConst 0 a.shape) {term mods : Term R} (ht : TermOk cs term) (hm : ModsOk cs term mods) :
    ∃ w, coeffOp a mods = .ok w ∧ w.Wf ∧ w.shape = a.shape ∧
      ∀ j, Valid a.shape j → w.get j = project cs (actTerm term (amplitude cs a)) j := by
  have hmods : ∀ p ∈ mods, p.1 < a.ndim ∧ p.2.shape = [a.shape.getD p.1 0, a.shape.getD p.1 0] := by
    intro p hp
    refine ⟨by unfold Nd.ndim; rw [hb.lenA]; exact hm.coord ht p hp, ?_⟩
    rw [hb.dimA (hm.coord ht p hp)]
    exact hm.shape p hp
  obtain ⟨w, w1, w2, w3, w4⟩ := coeffOp_spec mods a hb.wfA hb.posA (fun p _ => tailConst_all htc p.1) hmods
  refine ⟨w, w1, w2, w3, fun j hj => ?_⟩
  rw [w4 j hj, actTerm_eq a.shape mods (fun p hp => ?_) (by rw [hm.fst]; exact ht.nodup) j hj]
  · have := overlap_term hb ht (fun l p x => star ((block cs l).get [x, p])) j (hj.length_eq.trans hb.lenA)
    unfold project
    refine Eq.trans ?_ this.symm
    refine sumIdx_congr fun k hk => ?_
    rw [hb.lenA]
    congr 1
    refine prodF_congr fun l hl => ?_
    refine hm.opAt ho hl ?_ ?_
    · rw [← hb.dimA hl]; exact hj.getD_lt (hb.lenA ▸ hl) 0 0
    · rw [← hb.dimA hl]; exact hk.getD_lt (hb.lenA ▸ hl) 0 0
  · obtain ⟨h1, h2⟩ := hmods p hp
    exact ⟨h1, by unfold Nd.dim; rw [h2]; rfl⟩

end Mctdh
