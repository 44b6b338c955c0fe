import Verif.Props.C126
import Verif.Lemmas.Truncate7
import Verif.Lemmas.EckartYoungC
import Verif.Lemmas.DmrgSorted
import Verif.Props.C128

/-!
C126: truncation in `unite_split` is the best possible.
-/

open scoped BigOperators ComplexConjugate

open Py TreeSum CompressedSvd Truncation

namespace Heap

variable {𝕜 : Type} [RCLike 𝕜]

/-- **C126.** Over the real or the complex numbers, let the network be in canonical form with root `r` and let `svd` be an exact
decomposition with orthonormal factors and falling singular values. Then the state that `r.unite_split(i, rank=rank, err=err)` leaves is the
best one: of all networks that differ from the network before in the tensors `r` and `fin` only, with a bond dimension `m` between the two
that is at most the one `unite_split` leaves, none has a state nearer to the state before. -/
theorem C126_best {svd : Nd 𝕜 → Nd 𝕜 × List ℝ × Nd 𝕜}
    (hsvd : ∀ (a : Nd 𝕜) (m n : ℕ), a.Wf → a.shape = [m, n] → IsSvd a m n (svd a))
    (hort : ∀ (a : Nd 𝕜) (m n : ℕ), a.Wf → a.shape = [m, n] → OrthoFactors a m n (svd a))
    (hsort : ∀ (a : Nd 𝕜) (m n : ℕ), a.Wf → a.shape = [m, n] → (svd a).2.1.Pairwise (· ≥ ·))
    {rank : Option ℤ} (err : Option ℝ) (hr : ∀ k, rank = some k → 0 < k)
    {h : Heap 𝕜} {r : ℕ} {F : Forest} (ht : h.IsTTN r F)
    (hpl : h.PlainNames (h.tensors r F)) (hroot : h.Rooted r F) (hc : h.CanonicalTree r F)
    (hleaf : ∀ e ∈ F.edges r, h.isLeaf e.2.2.1 = true → h.array e.2.2.1 = none) {i fin j : ℕ}
    (hb : h.acc r i = some (fin, j)) (hl : h.isLeaf fin = false) {A B : Nd 𝕜} (hA : h.array r = some A) (hB : h.array fin = some B)
    (nrm : Option Bool) {fuel : ℕ} (hfu : F.depth < fuel) :
    ∃ h' mid F', h.uniteSplit fuel (compressedSvd svd rank err) r i none nrm = .ok (h', r, mid, fin) ∧ h'.IsTTN fin F' ∧
      ∀ (A₂ B₂ : Nd 𝕜) (m : ℕ), A₂.Wf → B₂.Wf → A₂.shape = A.shape.set i m → B₂.shape = B.shape.set j m → 0 < m → m ≤ h'.hdim (fin, j) →
        ((h.setArray r (some A₂)).setArray fin (some B₂)).IsTTN r F ∧
        RCLike.re (overlap (h.leafList r F) (fun x => h.treeAmp r F x - h'.treeAmp fin F' x) (fun x => h.treeAmp r F x - h'.treeAmp fin F' x)) ≤
          RCLike.re (overlap (h.leafList r F)
            (fun x => h.treeAmp r F x - ((h.setArray r (some A₂)).setArray fin (some B₂)).treeAmp r F x)
            (fun x => h.treeAmp r F x - ((h.setArray r (some A₂)).setArray fin (some B₂)).treeAmp r F x)) := by
  have hn := ht.isNet
  have hrT : r ∈ h.tensors r F := mem_tensors.2 ⟨.inl rfl, ht.leaf⟩
  have hfT : fin ∈ h.tensors r F := mem_tensors.2 ⟨(ht.mem_linked fin).2 (Relation.ReflTransGen.single ⟨i, j, hb⟩), hl⟩
  have hne : r ≠ fin := (hn.simple r hrT i fin j hb hfT).1.symm
  obtain ⟨A', fA⟩ := hn.full r hrT
  obtain ⟨B', fB⟩ := hn.full fin hfT
  have fA' := fA.array; rw [hA] at fA'; cases fA'
  have fB' := fB.array; rw [hB] at fB'; cases fB'
  have hbs := ht.links.sym _ _ _ _ hb
  have hin : i < A.ndim := (fA.acc i).1 (by rw [hb]; simp)
  obtain ⟨h', mid, F', M, hM, e, q2, -, -, k0, k1, -, -, -, -, -, hd⟩ := C126_truncation hsvd hort (fun x => RCLike.conj_ofReal x) err hr ht hpl hroot hc
    hleaf hb hl hA hB nrm hfu
  refine ⟨h', mid, F', e, q2, fun A₂ B₂ m wA wB sA sB m0 mk => ?_⟩
  have pf : PairFits A B A₂ B₂ i j m := ⟨wA, wB, sA, sB, m0⟩
  refine ⟨ht.setPair hne hb fA fB pf, ?_⟩
  obtain ⟨o1, o2, o3, o4⟩ := setPair_overlap (shape_of_parts hsvd err hr) ht hpl hroot.1 hc hleaf hb hl fA fB pf
  beta_reduce at o1 o2 o3 o4
  rw [hd]
  change _ ≤ RCLike.re (overlap (h.leafList r F) (fun x => h.treeAmp r F x - (h.setPair r fin A₂ B₂).treeAmp r F x)
            (fun x => h.treeAmp r F x - (h.setPair r fin A₂ B₂).treeAmp r F x))
  have hS := hsvd M _ _ hM.wf hM.shape
  have hO := hort M _ _ hM.wf hM.shape
  have hP := hsort M _ _ hM.wf hM.shape
  obtain ⟨D1, hD1⟩ : ∃ d, d = B.shape.eraseIdx j := ⟨_, rfl⟩
  obtain ⟨D2, hD2⟩ : ∃ d, d = A.shape.eraseIdx i := ⟨_, rfl⟩
  have hdist : overlap (h.leafList r F) (fun x => h.treeAmp r F x - (h.setPair r fin A₂ B₂).treeAmp r F x)
      (fun x => h.treeAmp r F x - (h.setPair r fin A₂ B₂).treeAmp r F x) =
      ∑ x ∈ Finset.range D1.prod, ∑ y ∈ Finset.range D2.prod,
        ((‖pairGet A B i j (unravel D1 x) (unravel D2 y) - pairGet A₂ B₂ i j (unravel D1 x) (unravel D2 y)‖ ^ 2 : ℝ) : 𝕜) := by
    have e1 : overlap (h.leafList r F) (fun x => h.treeAmp r F x - (h.setPair r fin A₂ B₂).treeAmp r F x)
        (fun x => h.treeAmp r F x - (h.setPair r fin A₂ B₂).treeAmp r F x) =
        sumLeaves (h.leafList r F) (fun x => h.treeAmp r F x * star (h.treeAmp r F x)) (fun _ => 0) +
          ((-1) * sumLeaves (h.leafList r F) (fun x => h.treeAmp r F x * star ((h.setPair r fin A₂ B₂).treeAmp r F x)) (fun _ => 0) +
          ((-1) * sumLeaves (h.leafList r F) (fun x => (h.setPair r fin A₂ B₂).treeAmp r F x * star (h.treeAmp r F x)) (fun _ => 0) +
            sumLeaves (h.leafList r F) (fun x => (h.setPair r fin A₂ B₂).treeAmp r F x * star ((h.setPair r fin A₂ B₂).treeAmp r F x))
              (fun _ => 0))) := by
      unfold overlap
      rw [← sumLeaves_mul_left, ← sumLeaves_mul_left, ← sumLeaves_add, ← sumLeaves_add, ← sumLeaves_add]
      refine sumLeaves_congr fun y => ?_
      rw [star_sub]
      ring
    rw [e1, o1, o2, o3, o4, ← hD1, ← hD2]
    simp only [Finset.mul_sum, ← Finset.sum_add_distrib]
    refine Finset.sum_congr rfl fun x _ => Finset.sum_congr rfl fun y _ => ?_
    rw [RCLike.ofReal_pow, ← RCLike.mul_conj, map_sub]
    simp only [← starRingEnd_apply]
    ring
  have hlen := hS.len
  rw [← hD1, ← hD2] at hlen
  have key := EckartYoung.mainC (𝕜 := 𝕜) (M := D1.prod) (N := D2.prod) (r := (svd M).2.1.length) (m := m) (U := fun x z => (svd M).1.get [x, z])
    (V := fun z y => (svd M).2.2.get [z, y]) (s := fun z => (svd M).2.1.getD z 0)
    (fun z hz w hw => by
      rw [hlen, hD1, hD2] at hz hw
      rw [hD1]; exact hO.cols z w hz hw)
    (fun z hz w hw => by
      rw [hlen, hD1, hD2] at hz hw
      rw [hD2]; exact hO.rows z w hz hw)
    (fun z hz => by
      rw [List.getD_eq_getElem _ _ hz]
      exact hS.nonneg _ (List.getElem_mem hz))
    (fun z z' h h' => by
      rw [List.getD_eq_getElem _ _ h', List.getD_eq_getElem _ _ (lt_of_le_of_lt h h')]
      rcases Nat.lt_or_eq_of_le h with h | rfl
      · exact List.pairwise_iff_getElem.1 hP z z' _ _ h
      · exact le_refl _)
    (fun x v => B₂.get ((unravel D1 x).insertIdx j v)) (fun v y => A₂.get ((unravel D2 y).insertIdx i v))
  rw [hdist]
  have hw : RCLike.re (algebraMap ℝ 𝕜 (weight ((svd M).2.1.drop (h'.hdim (fin, j))))) = weight ((svd M).2.1.drop (h'.hdim (fin, j))) :=
    RCLike.ofReal_re _
  rw [hw, Dmrg.weight_drop]
  have hre : RCLike.re (∑ x ∈ Finset.range D1.prod, ∑ y ∈ Finset.range D2.prod,
        ((‖pairGet A B i j (unravel D1 x) (unravel D2 y) - pairGet A₂ B₂ i j (unravel D1 x) (unravel D2 y)‖ ^ 2 : ℝ) : 𝕜)) =
      ∑ x ∈ Finset.range D1.prod, ∑ y ∈ Finset.range D2.prod,
        ‖pairGet A B i j (unravel D1 x) (unravel D2 y) - pairGet A₂ B₂ i j (unravel D1 x) (unravel D2 y)‖ ^ 2 := by
    simp only [map_sum, RCLike.ofReal_re]
  rw [hre]
  refine le_trans ?_ (key.trans (le_of_eq ?_))
  · refine Finset.sum_le_sum_of_subset_of_nonneg (Finset.Ico_subset_Ico_left (min_le_min_left _ mk)) fun _ _ _ => sq_nonneg _
  · refine Finset.sum_congr rfl fun x hx => Finset.sum_congr rfl fun y hy => ?_
    have hx' := Finset.mem_range.1 hx
    have hy' := Finset.mem_range.1 hy
    have g := hM.get (unravel D1 x) (unravel D2 y) (by rw [← hD1]; exact valid_unravel hx') (by rw [← hD2]; exact valid_unravel hy')
    rw [← hD1, ← hD2, ravel_unravel hx', ravel_unravel hy'] at g
    have p := hS.prod x (by rw [← hD1]; exact hx') y (by rw [← hD2]; exact hy')
    have hg2 : pairGet A₂ B₂ i j (unravel D1 x) (unravel D2 y) =
        ∑ v ∈ Finset.range m, B₂.get ((unravel D1 x).insertIdx j v) * A₂.get ((unravel D2 y).insertIdx i v) := by
      unfold pairGet
      rw [sA, List.getD_eq_getElem _ _ (by rw [List.length_set]; exact hin), List.getElem_set_self]
      exact Finset.sum_congr rfl fun v _ => mul_comm _ _
    rw [hg2]
    congr 3
    unfold pairGet
    rw [← g, ← p]

/-- Instance: `exDuo` (C121) with a bond of dimension `1` left, against the product state `e₀ ⊗ e₀`. -/
example : ∃ svd : Nd ℝ → Nd ℝ × List ℝ × Nd ℝ, ∃ h' mid F',
    exDuo.uniteSplit 3 (compressedSvd svd (some 1) none) 0 0 none none = .ok (h', 0, mid, 1) ∧ h'.IsTTN 1 F' ∧
    overlap (exDuo.leafList 0 exTwoForest) (fun x => exDuo.treeAmp 0 exTwoForest x - h'.treeAmp 1 F' x)
      (fun x => exDuo.treeAmp 0 exTwoForest x - h'.treeAmp 1 F' x) ≤
    overlap (exDuo.leafList 0 exTwoForest)
      (fun x => exDuo.treeAmp 0 exTwoForest x -
        ((exDuo.setArray 0 (some ⟨[1, 2], [1, 0]⟩)).setArray 1 (some ⟨[2, 1], [1, 0]⟩)).treeAmp 0 exTwoForest x)
      (fun x => exDuo.treeAmp 0 exTwoForest x -
        ((exDuo.setArray 0 (some ⟨[1, 2], [1, 0]⟩)).setArray 1 (some ⟨[2, 1], [1, 0]⟩)).treeAmp 0 exTwoForest x) := by
  obtain ⟨svd, s1, s2, s3, s4⟩ := Dmrg.exists_svd_sorted
  have h1 : ∀ (a : Nd ℝ) (m n : ℕ), a.Wf → a.shape = [m, n] → IsSvd a m n (svd a) := by
    intro a m n hw hs
    obtain ⟨e1, e2, e3, e4, e5⟩ := s1 a m n hw hs
    exact ⟨e1, e2, by rw [e1]; exact e3, e4, by rw [e1]; exact e5, (s4 a m n hw hs).1, fun x hx y hy => by rw [e1]; exact s2 a m n hw hs x hx y hy⟩
  have h2 : ∀ (a : Nd ℝ) (m n : ℕ), a.Wf → a.shape = [m, n] → OrthoFactors a m n (svd a) := fun a m n hw hs =>
    ⟨fun z w hz hw' => (s3 a m n hw hs z hz w hw').1, fun z w hz hw' => (s3 a m n hw hs z hz w hw').2⟩
  obtain ⟨h', mid, F', q1, q2, q3⟩ := C126_best h1 h2 (fun a m n hw hs => (s4 a m n hw hs).2) (rank := some 1) none
    (by rintro k e; cases e; decide) exDuo_one exDuo_plain ⟨rfl, by decide +kernel⟩ exDuo_canonical exDuo_leafless (i := 0) (fin := 1) (j := 1)
    rfl rfl rfl rfl none (fuel := 3) (by decide)
  obtain ⟨h'', mid', F'', M, -, e, -, -, -, k0, -⟩ := C126_truncation h1 h2 (fun x => rfl) (rank := some 1) none
    (by rintro k e; cases e; decide) exDuo_one exDuo_plain ⟨rfl, by decide +kernel⟩ exDuo_canonical exDuo_leafless (i := 0) (fin := 1) (j := 1)
    rfl rfl rfl rfl none (fuel := 3) (by decide)
  rw [q1] at e; cases e
  exact ⟨svd, h', mid, F', q1, q2, (q3 ⟨[1, 2], [1, 0]⟩ ⟨[2, 1], [1, 0]⟩ 1 rfl rfl rfl rfl Nat.one_pos k0).2⟩

end Heap
