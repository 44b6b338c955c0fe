import Verif.Lemmas.Truncate6
import Verif.Lemmas.DmrgExact
import Verif.Props.C121
import Mathlib.Tactic.LinearCombination
import Mathlib.Tactic.Positivity
import Verif.Spec.Truncation

/-!
C126: what truncation in `unite_split(i, rank, err)` does to the state.

`svd` is numpy's singular value decomposition, about which `IsSvd` and orthonormality of the two outer factors are assumed.
-/

open scoped BigOperators

open Py TreeSum CompressedSvd Truncation

namespace Heap

variable {K : Type} [CommRing K] [LinearOrder K] [IsStrictOrderedRing K] {R : Type} [CommRing R] [Algebra K R] [StarRing R]

/-- The columns of `u` and the rows of `vh` are orthonormal. -/
structure OrthoFactors (a : Nd R) (m n : ℕ) (usv : Nd R × List K × Nd R) : Prop where
  cols : ∀ z w, z < min m n → w < min m n →
    ∑ x ∈ Finset.range m, usv.1.get [x, z] * star (usv.1.get [x, w]) = if z = w then 1 else 0
  rows : ∀ z w, z < min m n → w < min m n →
    ∑ y ∈ Finset.range n, usv.2.2.get [z, y] * star (usv.2.2.get [w, y]) = if z = w then 1 else 0

omit [LinearOrder K] [IsStrictOrderedRing K] [StarRing R] in
private theorem sum_take {l : List K} : ∀ {k : ℕ}, k ≤ l.length →
    ∑ z ∈ Finset.range k, algebraMap K R (l.getD z 0) * algebraMap K R (l.getD z 0) = algebraMap K R (weight (l.take k)) := by
  intro k
  induction k with
  | zero => intro _; simp [weight]
  | succ k ih =>
    intro hk
    rw [Finset.sum_range_succ, ih (by omega)]
    unfold weight
    rw [List.take_succ_eq_append_getElem (by omega), List.map_append, List.sum_append, map_add,
      List.getD_eq_getElem _ _ (by omega)]
    simp [pow_two]

omit [IsStrictOrderedRing K] [LinearOrder K] in
private theorem weight_split (l : List K) (k : ℕ) : weight (l.take k) + weight (l.drop k) = weight l := by
  unfold weight
  rw [← List.sum_append, ← List.map_append, List.take_append_drop]

private theorem sq_le {l : List K} (h0 : ∀ x ∈ l, 0 ≤ x) : weight l ≤ l.sum ^ 2 ∧ 0 ≤ weight l ∧ 0 ≤ l.sum := by
  induction l with
  | nil => simp [weight]
  | cons a l ih =>
    obtain ⟨h1, h2, h3⟩ := ih fun x hx => h0 x (by simp [hx])
    have ha := h0 a (by simp)
    unfold weight at h1 h2 ⊢
    simp only [List.map_cons, List.sum_cons]
    refine ⟨?_, by positivity, by positivity⟩
    nlinarith [mul_nonneg ha h3]

omit [CommRing K] [LinearOrder K] [IsStrictOrderedRing K] [Algebra K R] in
private theorem star_leaves (L : List (ℕ × ℕ)) (g : (ℕ → ℕ) → R) (x : ℕ → ℕ) :
    star (sumLeaves L g x) = sumLeaves L (fun y => star (g y)) x := by
  induction L generalizing x with
  | nil => rfl
  | cons p L ih => simp only [sumLeaves, _root_.star_sum, ih]

/-- **C126.** Let the network be in canonical form with root `r`, `svd` an exact decomposition with orthonormal factors, and
`rank`, if given, positive. `r.unite_split(i, rank=rank, err=err)` towards the tensor `fin` returns normally, and with `σ` the
singular values of the two tensors merged into a matrix `M`, and `k` the new dimension of the bond:
* `1 ≤ k ≤ |σ|`; without `err`, `k` is the smaller of `rank` and `|σ|`; with `err ≥ 0`, the discarded `σ` sum to at most `err`;
* the result is a tree network in canonical form with root `fin`;
* the squared norm of the state was `Σ σ²`, it is the sum over the kept `σ` now, and the squared distance of the new state from the
  old one is the sum over the discarded ones (the new state is an orthogonal projection of the old one). -/
theorem C126_truncation {svd : Nd R → Nd R × List K × Nd R}
    (hsvd : ∀ (a : Nd R) (m n : ℕ), a.Wf → a.shape = [m, n] → IsSvd a m n (svd a))
    (hort : ∀ (a : Nd R) (m n : ℕ), a.Wf → a.shape = [m, n] → OrthoFactors a m n (svd a))
    (hreal : ∀ x : K, star (algebraMap K R x) = algebraMap K R x)
    {rank : Option ℤ} (err : Option K) (hr : ∀ k, rank = some k → 0 < k)
    {h : Heap R} {r : ℕ} {F : Forest} (ht : h.IsTTN r F)
    (hpl : h.PlainNames (h.tensors r F)) (hroot : h.Rooted r F) (hc : h.CanonicalTree r F)
    (hleaf : ∀ e ∈ F.edges r, h.isLeaf e.2.2.1 = true → h.array e.2.2.1 = none) {i fin j : ℕ}
    (hb : h.acc r i = some (fin, j)) (hl : h.isLeaf fin = false) {A B : Nd R} (hA : h.array r = some A) (hB : h.array fin = some B)
    (nrm : Option Bool) {fuel : ℕ} (hfu : F.depth < fuel) :
    ∃ h' mid F' M, Merged A B i j M ∧
      h.uniteSplit fuel (compressedSvd svd rank err) r i none nrm = .ok (h', r, mid, fin) ∧
      h'.IsTTN fin F' ∧ h'.Rooted fin F' ∧ h'.CanonicalTree fin F' ∧
      0 < h'.hdim (fin, j) ∧ h'.hdim (fin, j) ≤ (svd M).2.1.length ∧
      (err = none → h'.hdim (fin, j) = match rank with
        | none => (svd M).2.1.length
        | some k => min k.toNat (svd M).2.1.length) ∧
      (∀ e, err = some e → 0 ≤ e → ((svd M).2.1.drop (h'.hdim (fin, j))).sum ≤ e) ∧
      overlap (h.leafList r F) (h.treeAmp r F) (h.treeAmp r F) = algebraMap K R (weight (svd M).2.1) ∧
      overlap (h.leafList r F) (h'.treeAmp fin F') (h'.treeAmp fin F') =
        algebraMap K R (weight ((svd M).2.1.take (h'.hdim (fin, j)))) ∧
      overlap (h.leafList r F) (h.treeAmp r F) (h'.treeAmp fin F') =
        algebraMap K R (weight ((svd M).2.1.take (h'.hdim (fin, j)))) ∧
      overlap (h.leafList r F) (fun x => h.treeAmp r F x - h'.treeAmp fin F' x) (fun x => h.treeAmp r F x - h'.treeAmp fin F' x) =
        algebraMap K R (weight ((svd M).2.1.drop (h'.hdim (fin, j)))) := by
  have hn := ht.isNet
  have hrT : r ∈ h.tensors r F := mem_tensors.2 ⟨.inl rfl, ht.leaf⟩
  have hfT : fin ∈ h.tensors r F := mem_tensors.2 ⟨(ht.mem_linked fin).2 (Relation.ReflTransGen.single ⟨i, j, hb⟩), hl⟩
  have hne : r ≠ fin := (hn.simple r hrT i fin j hb hfT).1.symm
  obtain ⟨A', fA⟩ := hn.full r hrT
  obtain ⟨B', fB⟩ := hn.full fin hfT
  have fA' := fA.array; rw [hA] at fA'; cases fA'
  have fB' := fB.array; rw [hB] at fB'; cases fB'
  obtain ⟨mid, M, d1, d2, m1, m2, m3, m4, hj, hi, m5⟩ := uniteSplit_factor hsvd ht hpl hroot.1 hb hl nrm hfu
  obtain ⟨hE, n, uE, sE, vE, ra, ca, -, mE, aE, bE, -, n1, n2, n3, fE⟩ := m5 none none (by simp)
  obtain ⟨hT, k, u, s, vh, ra', ca', eT, mT, aT, bT, k0, k1, k2, k3, fT⟩ := m5 rank err hr
  have hS := hsvd M _ _ m1 m2
  have hO := hort M _ _ m1 m2
  obtain ⟨shE, exE, isoE⟩ := C21_as_oracle hsvd fun a m n hw hs => (hort a m n hw hs).rows
  have isoT := iso_of_parts hsvd err hr fun a m n hw hs => (hort a m n hw hs).rows
  obtain ⟨FE, mvE⟩ := ht.moved mE hb hl
  obtain ⟨FT, mvT⟩ := ht.moved mT hb hl
  -- the exact move keeps all singular values
  have hnlen : n = (svd M).2.1.length := by
    obtain ⟨u', s', vh', e1, e2⟩ := C21_no_truncation hS
    rw [n2] at e1; cases e1
    rw [n3] at e2
    rw [hS.len]
    simpa using e2
  obtain ⟨hd1, hd2, hMg⟩ := merged_of_factor hne exE mE fA fB aE bE hj hi fE m1 m2 (fun x hx y hy => by
    rw [← hS.prod x hx y hy, ← hnlen]
    exact Finset.sum_congr rfl fun z _ => by ring)
  have hkT : hT.hdim (fin, j) = k := by
    unfold hdim
    rw [aT]
    simp only
    rw [fT.shapeR, List.getD_eq_getElem _ _ (by rw [List.length_insertIdx_of_le_length hj]; omega), List.getElem_insertIdx_self]
  -- the weight of a column
  have hcol : ∀ z < n, ∑ x ∈ Finset.range d1.prod, ((svd M).1.get [x, z] * algebraMap K R ((svd M).2.1.getD z 0)) *
      star ((svd M).1.get [x, z] * algebraMap K R ((svd M).2.1.getD z 0)) =
      algebraMap K R ((svd M).2.1.getD z 0) * algebraMap K R ((svd M).2.1.getD z 0) := by
    intro z hz
    have hz' : z < min d1.prod d2.prod := by rw [← hS.len, ← hnlen]; exact hz
    have := hO.cols z z hz' hz'
    rw [if_pos rfl] at this
    rw [← one_mul (algebraMap K R ((svd M).2.1.getD z 0) * algebraMap K R ((svd M).2.1.getD z 0)), ← this, Finset.sum_mul]
    refine Finset.sum_congr rfl fun x _ => ?_
    rw [star_mul', hreal]
    ring
  -- the overlaps of the arrays
  have hcut := cut_factor (k := k) fE hj
  have hkn : k ≤ n := by omega
  have wAll : ∑ z ∈ Finset.range n, algebraMap K R ((svd M).2.1.getD z 0) * algebraMap K R ((svd M).2.1.getD z 0) =
      algebraMap K R (weight (svd M).2.1) := by
    rw [sum_take (by omega), hnlen, List.take_length]
  have wCut : ∀ P : ℕ → R, (∀ z < n, P z = if z < k then algebraMap K R ((svd M).2.1.getD z 0) *
      algebraMap K R ((svd M).2.1.getD z 0) else 0) → ∑ z ∈ Finset.range n, P z = algebraMap K R (weight ((svd M).2.1.take k)) := by
    intro P hP
    rw [← sum_take k1, ← Finset.sum_subset (Finset.range_subset_range.2 hkn) (f := P) (by
      intro z hz hz'
      rw [hP z (Finset.mem_range.1 hz), if_neg fun q => hz' (Finset.mem_range.2 q)])]
    refine Finset.sum_congr rfl fun z hz => ?_
    have := Finset.mem_range.1 hz
    rw [hP z (by omega), if_pos this]
  have iAA := factor_inner hj fE fE
  have iAC := factor_inner hj fE hcut
  have iCC := factor_inner hj hcut hcut
  rw [Finset.sum_congr rfl fun z hz => hcol z (Finset.mem_range.1 hz), wAll] at iAA
  rw [wCut _ (fun z hz => by
    by_cases q : z < k
    · simp only [q, if_true]; exact hcol z hz
    · simp only [q, if_false, star_zero, mul_zero, Finset.sum_const_zero])] at iAC
  rw [wCut _ (fun z hz => by
    by_cases q : z < k
    · simp only [q, if_true]; exact hcol z hz
    · simp only [q, if_false, star_zero, mul_zero, Finset.sum_const_zero])] at iCC
  -- the leaves
  obtain ⟨oE, -, -, lE, pE⟩ := ht.oldRoot mE hb hl mvE
  have hperm := leafList_perm oE mvE.ttn pE
  rw [lE] at hperm
  have hnd := leafList_nodup ht
  have hleafE : ∀ e ∈ FE.edges fin, hE.isLeaf e.2.2.1 = true → hE.array e.2.2.1 = none := by
    intro e he hle
    have he' := leafEdges_sub oE mvE.ttn pE he hle
    have hid : e.2.2.1 ∈ r :: F.ids :=
      List.mem_cons_of_mem _ (Forest.edges_tgt (x := e.1) (k := e.2.1) (l := e.2.2.2) he')
    have hlo : h.isLeaf e.2.2.1 = true := by rw [← ht.isLeaf_eq mE _ hid]; exact hle
    have q1 : e.2.2.1 ≠ r := by intro q; rw [q, ht.leaf] at hlo; cases hlo
    have q2 : e.2.2.1 ≠ fin := by intro q; rw [q, hl] at hlo; cases hlo
    have q3 : e.2.2.1 ≠ mid := by
      intro q; rw [q, mE.leafMid] at hle; cases hle
    rw [(mE.otherAxis _ q1 q2 q3).2]
    exact hleaf e he' hlo
  obtain ⟨ra1, fra⟩ := mE.fullFin
  have fra' := fra.array; rw [aE] at fra'; cases fra'
  have cE := mvE.canonical ht mE hb hl isoE hc
  have oAA := overlap_root mvE.ttn cE hleafE fra fra.wf rfl fra.wf rfl
  have oAC := overlap_root mvE.ttn cE hleafE fra (B := cutAxis ra j k) hcut.wfR rfl fra.wf rfl
  have oCC := overlap_root mvE.ttn cE hleafE fra (B := cutAxis ra j k) hcut.wfR rfl hcut.wfR rfl
  rw [fE.shapeR] at oAA oAC oCC
  rw [iAA] at oAA
  rw [iAC] at oAC
  rw [iCC] at oCC
  have hΨ : ∀ x, h.InRange (h.tensors r F) x → (hE.setArray fin (some ra)).treeAmp fin FE x = h.treeAmp r F x := by
    intro x hx
    rw [setArray_same aE, mvE.amp ht mE hb hl exE rfl hx]
  have hΨ' : ∀ x, h.InRange (h.tensors r F) x → (hE.setArray fin (some (cutAxis ra j k))).treeAmp fin FE x = hT.treeAmp fin FT x :=
    fun x hx => (truncated_amp ht hb hl mE mT mvE mvT aE bE aT bT hj hi fE fT hkn hx).symm
  rw [sumLeaves_perm hperm (leafList_nodup mvE.ttn)] at oAA oAC oCC
  have toO : ∀ {f g f' g' : (ℕ → ℕ) → R}, (∀ x, h.InRange (h.tensors r F) x → f x = f' x) →
      (∀ x, h.InRange (h.tensors r F) x → g x = g' x) →
      sumLeaves (h.leafList r F) (fun x => f x * star (g x)) (fun _ => 0) = overlap (h.leafList r F) f' g' := by
    intro f g f' g' hf hg
    refine sumLeaves_congr' hnd fun y _ hy => ?_
    have := ht.inRange hy
    rw [hf y this, hg y this]
  rw [toO hΨ hΨ] at oAA
  rw [toO hΨ hΨ'] at oAC
  rw [toO hΨ' hΨ'] at oCC
  have oCA : overlap (h.leafList r F) (hT.treeAmp fin FT) (h.treeAmp r F) = algebraMap K R (weight ((svd M).2.1.take k)) := by
    have := congrArg star oAC
    rw [hreal] at this
    rw [← this]
    unfold overlap
    rw [star_leaves]
    refine sumLeaves_congr fun y => ?_
    rw [star_mul', star_star, mul_comm]
  refine ⟨hT, mid, FT, M, hMg, eT, mvT.ttn, mvT.rooted ht mT hb hl hroot, mvT.canonical ht mT hb hl isoT hc, ?_⟩
  rw [hkT]
  refine ⟨k0, k1, ?_, ?_, oAA, oCC, oAC, ?_⟩
  · rintro rfl
    cases rank with
    | none =>
      rw [n2] at k2; cases k2
      rw [n3] at k3
      have : n = k := by simpa using k3
      rw [← this]; exact hnlen
    | some q =>
      obtain ⟨q', rfl⟩ := Int.eq_ofNat_of_zero_le (hr q rfl).le
      obtain ⟨u', s', vh', e1, e2⟩ := C21_rank_partial hS (rank := q') (by have := hr _ rfl; omega)
      have k2' := k2
      rw [e1] at k2'; cases k2'
      rw [k3] at e2
      have : k = min q' (min d1.prod d2.prod) := by simpa using e2
      rw [this, ← hS.len]
      simp
  · rintro e rfl he
    exact (C21_err hS he k2 k3).1
  · have e1 : overlap (h.leafList r F) (fun x => h.treeAmp r F x - hT.treeAmp fin FT x) (fun x => h.treeAmp r F x - hT.treeAmp fin FT x) =
        overlap (h.leafList r F) (h.treeAmp r F) (h.treeAmp r F) + ((-1) * overlap (h.leafList r F) (h.treeAmp r F) (hT.treeAmp fin FT) +
          ((-1) * overlap (h.leafList r F) (hT.treeAmp fin FT) (h.treeAmp r F) +
            overlap (h.leafList r F) (hT.treeAmp fin FT) (hT.treeAmp fin FT))) := by
      unfold overlap
      rw [← sumLeaves_mul_left, ← sumLeaves_mul_left, ← sumLeaves_add, ← sumLeaves_add, ← sumLeaves_add]
      refine sumLeaves_congr fun y => ?_
      rw [star_sub]
      ring
    rw [e1, oAA, oAC, oCA, oCC, ← weight_split (svd M).2.1 k, map_add]
    ring

/-- With `err = e ≥ 0` the state moves by at most `e`: the squared distance is a number `d ≤ e²` of the ordered ring of singular
values. -/
theorem C126_error {svd : Nd R → Nd R × List K × Nd R}
    (hsvd : ∀ (a : Nd R) (m n : ℕ), a.Wf → a.shape = [m, n] → IsSvd a m n (svd a))
    (hort : ∀ (a : Nd R) (m n : ℕ), a.Wf → a.shape = [m, n] → OrthoFactors a m n (svd a))
    (hreal : ∀ x : K, star (algebraMap K R x) = algebraMap K R x)
    {rank : Option ℤ} {e : K} (he : 0 ≤ e) (hr : ∀ k, rank = some k → 0 < k)
    {h : Heap R} {r : ℕ} {F : Forest} (ht : h.IsTTN r F)
    (hpl : h.PlainNames (h.tensors r F)) (hroot : h.Rooted r F) (hc : h.CanonicalTree r F)
    (hleaf : ∀ e ∈ F.edges r, h.isLeaf e.2.2.1 = true → h.array e.2.2.1 = none) {i fin j : ℕ}
    (hb : h.acc r i = some (fin, j)) (hl : h.isLeaf fin = false) (nrm : Option Bool) {fuel : ℕ} (hfu : F.depth < fuel) :
    ∃ h' mid F', h.uniteSplit fuel (compressedSvd svd rank (some e)) r i none nrm = .ok (h', r, mid, fin) ∧
      h'.IsTTN fin F' ∧ h'.Rooted fin F' ∧ h'.CanonicalTree fin F' ∧ ∃ d : K, 0 ≤ d ∧ d ≤ e ^ 2 ∧
        overlap (h.leafList r F) (fun x => h.treeAmp r F x - h'.treeAmp fin F' x)
          (fun x => h.treeAmp r F x - h'.treeAmp fin F' x) = algebraMap K R d := by
  have hn := ht.isNet
  have hrT : r ∈ h.tensors r F := mem_tensors.2 ⟨.inl rfl, ht.leaf⟩
  have hfT : fin ∈ h.tensors r F := mem_tensors.2 ⟨(ht.mem_linked fin).2 (Relation.ReflTransGen.single ⟨i, j, hb⟩), hl⟩
  obtain ⟨A, fA⟩ := hn.full r hrT
  obtain ⟨B, fB⟩ := hn.full fin hfT
  obtain ⟨h', mid, F', M, q0, q1, q2, q3, q4, -, -, -, q5, -, -, -, q6⟩ := C126_truncation hsvd hort hreal (some e) hr ht hpl hroot hc
    hleaf hb hl fA.array fB.array nrm hfu
  have hpos : ∀ x ∈ (svd M).2.1.drop (h'.hdim (fin, j)), 0 ≤ x := fun x hx =>
    (hsvd M _ _ q0.wf q0.shape).nonneg x (List.mem_of_mem_drop hx)
  obtain ⟨w1, w2, w3⟩ := sq_le hpos
  refine ⟨h', mid, F', q1, q2, q3, q4, _, w2, w1.trans ?_, q6⟩
  have := q5 e rfl he
  nlinarith

/-! Instance: the pair of tensors `exDuo` of C121, in the state `e₀ ⊗ e₀ + e₁ ⊗ e₁`, with an exact decomposition of real matrices. -/

/-- There is a decomposition as assumed. -/
theorem exists_realSvd : ∃ svd : Nd ℝ → Nd ℝ × List ℝ × Nd ℝ,
    (∀ (a : Nd ℝ) (m n : ℕ), a.Wf → a.shape = [m, n] → IsSvd a m n (svd a)) ∧
    ∀ (a : Nd ℝ) (m n : ℕ), a.Wf → a.shape = [m, n] → OrthoFactors a m n (svd a) := by
  obtain ⟨svd, h1, h2, h3⟩ := Dmrg.exists_svd
  let sg : ℝ → ℝ := fun x => if x < 0 then -1 else 1
  have sg2 : ∀ x, sg x * sg x = 1 := by intro x; simp only [sg]; split <;> norm_num
  have sga : ∀ x, sg x * |x| = x := by
    intro x; simp only [sg]
    split
    · rename_i q; rw [abs_of_neg q]; ring
    · rename_i q; rw [abs_of_nonneg (not_lt.1 q)]; ring
  let svd' : Nd ℝ → Nd ℝ × List ℝ × Nd ℝ := fun a =>
    (Nd.ofFn (svd a).1.shape fun p => (svd a).1.get p * sg ((svd a).2.1.getD (p.getD 1 0) 0), (svd a).2.1.map abs, (svd a).2.2)
  have hu : ∀ (a : Nd ℝ) (m n : ℕ), a.Wf → a.shape = [m, n] → ∀ x < m, ∀ z < min m n,
      (svd' a).1.get [x, z] = (svd a).1.get [x, z] * sg ((svd a).2.1.getD z 0) := by
    intro a m n hw hs x hx z hz
    obtain ⟨-, -, e3, -, -⟩ := h1 a m n hw hs
    have := Nd.get_ofFn (s := (svd a).1.shape) (fun p => (svd a).1.get p * sg ((svd a).2.1.getD (p.getD 1 0) 0))
      (show Valid (svd a).1.shape [x, z] by rw [e3]; exact .cons hx (.cons hz .nil))
    exact this
  refine ⟨svd', fun a m n hw hs => ?_, fun a m n hw hs => ⟨fun z w hz hw' => ?_, fun z w hz hw' => ?_⟩⟩
  · obtain ⟨e1, e2, e3, e4, e5⟩ := h1 a m n hw hs
    have hlen : (svd' a).2.1.length = min m n := by simp only [svd', List.length_map]; exact e1
    refine ⟨hlen, Nd.ofFn_wf _ _, ?_, e4, ?_, ?_, fun x hx y hy => ?_⟩
    · rw [hlen]; exact e3
    · rw [hlen]; exact e5
    · intro x hx
      obtain ⟨y, -, rfl⟩ := List.mem_map.1 hx
      exact abs_nonneg y
    · rw [hlen, ← h2 a m n hw hs x hx y hy]
      refine Finset.sum_congr rfl fun z hz => ?_
      have hz' := Finset.mem_range.1 hz
      rw [hu a m n hw hs x hx z hz']
      have : (svd' a).2.1.getD z 0 = |(svd a).2.1.getD z 0| := by
        simp only [svd']
        rw [List.getD_eq_getElem _ _ (by simp; omega), List.getElem_map, List.getD_eq_getElem _ _ (by omega)]
      rw [this, Algebra.algebraMap_self, RingHom.id_apply, mul_assoc ((svd a).1.get [x, z]), sga]
  · rw [← (h3 a m n hw hs z hz w hw').1]
    by_cases q : z = w
    · subst q
      refine Finset.sum_congr rfl fun x hx => ?_
      rw [hu a m n hw hs x (Finset.mem_range.1 hx) z hz]
      simp only [star_trivial]
      have := sg2 ((svd a).2.1.getD z 0)
      linear_combination (svd a).1.get [x, z] * (svd a).1.get [x, z] * this
    · have e0 := (h3 a m n hw hs z hz w hw').1
      rw [if_neg q] at e0
      rw [e0]
      have : ∑ x ∈ Finset.range m, (svd' a).1.get [x, z] * star ((svd' a).1.get [x, w]) =
          (∑ x ∈ Finset.range m, (svd a).1.get [x, z] * (svd a).1.get [x, w]) *
            (sg ((svd a).2.1.getD z 0) * sg ((svd a).2.1.getD w 0)) := by
        rw [Finset.sum_mul]
        refine Finset.sum_congr rfl fun x hx => ?_
        rw [hu a m n hw hs x (Finset.mem_range.1 hx) z hz, hu a m n hw hs x (Finset.mem_range.1 hx) w hw']
        simp only [star_trivial]
        ring
      rw [this, e0, zero_mul]
  · exact (h3 a m n hw hs z hz w hw').2

theorem exDuo_canonical : exDuo.CanonicalTree 0 exTwoForest := by
  intro e he
  have : exDuo.bonds 0 exTwoForest = [(0, 0, 1, 1)] := by decide +kernel
  rw [this] at he
  simp only [List.mem_cons, List.not_mem_nil, or_false] at he
  subst he
  refine ⟨⟨[2, 2], [1, 0, 0, 1]⟩, rfl, by decide, fun z w hz hw => ?_⟩
  change z < 2 at hz
  change w < 2 at hw
  obtain rfl | rfl : z = 0 ∨ z = 1 := by omega
  all_goals obtain rfl | rfl : w = 0 ∨ w = 1 := by omega
  all_goals simp [sumIdx, Nd.get, ravel, List.insertIdx, Finset.sum_range_succ]

theorem exDuo_plain : exDuo.PlainNames (exDuo.tensors 0 exTwoForest) := by
  have : exDuo.tensors 0 exTwoForest = [0, 1] := by decide +kernel
  rw [this]
  intro t ht nm hnm
  simp only [List.mem_cons, List.not_mem_nil, or_false] at ht
  rcases ht with rfl | rfl
  · obtain rfl : ['a'] = nm := Option.some.inj hnm
    decide
  · obtain rfl : ['b'] = nm := Option.some.inj hnm
    decide

theorem exDuo_leafless : ∀ e ∈ exTwoForest.edges 0, exDuo.isLeaf e.2.2.1 = true → exDuo.array e.2.2.1 = none := by
  intro e he
  have : exTwoForest.edges 0 = [(0, 0, 1, 1), (1, 0, 3, 0), (0, 1, 2, 0)] := by decide +kernel
  rw [this] at he
  simp only [List.mem_cons, List.not_mem_nil, or_false] at he
  rcases he with rfl | rfl | rfl
  · intro q; cases q
  · intro _; rfl
  · intro _; rfl

example : ∃ svd : Nd ℝ → Nd ℝ × List ℝ × Nd ℝ, ∃ h' mid F' M, Merged (⟨[2, 2], [1, 0, 0, 1]⟩ : Nd ℝ) ⟨[2, 2], [1, 0, 0, 1]⟩ 0 1 M ∧
    exDuo.uniteSplit 3 (compressedSvd svd (some 1) none) 0 0 none none = .ok (h', 0, mid, 1) ∧ h'.hdim (1, 1) = 1 ∧
    overlap (exDuo.leafList 0 exTwoForest) (exDuo.treeAmp 0 exTwoForest) (exDuo.treeAmp 0 exTwoForest) = weight (svd M).2.1 ∧
    overlap (exDuo.leafList 0 exTwoForest) (fun x => exDuo.treeAmp 0 exTwoForest x - h'.treeAmp 1 F' x)
      (fun x => exDuo.treeAmp 0 exTwoForest x - h'.treeAmp 1 F' x) = weight ((svd M).2.1.drop 1) := by
  obtain ⟨svd, h1, h2⟩ := exists_realSvd
  obtain ⟨h', mid, F', M, q0, q1, q2, q3, q4, q5, q6, q7, -, q8, -, -, q9⟩ := C126_truncation h1 h2 (fun x => rfl) (rank := some 1) none
    (by rintro k e; cases e; decide) exDuo_one exDuo_plain ⟨rfl, by decide +kernel⟩ exDuo_canonical exDuo_leafless (i := 0) (fin := 1) (j := 1)
    rfl rfl rfl rfl none (fuel := 3) (by decide)
  have hk : h'.hdim (1, 1) = 1 := by
    have := q7 rfl
    simp only at this
    have hlen := (h1 M _ _ q0.wf q0.shape).len
    rw [this, hlen]
    rfl
  rw [hk] at q9
  exact ⟨svd, h', mid, F', M, q0, q1, hk, q8, q9⟩

end Heap
