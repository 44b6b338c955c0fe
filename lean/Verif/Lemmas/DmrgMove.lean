import Verif.Lemmas.DmrgPair
import Verif.Nd.OpsLemmas

/-!
The moves without truncation: the product of the two matrices does not change, and the factor left behind is canonical.
-/

open scoped BigOperators
open Py

namespace Dmrg

variable {R : Type} [CommRing R]

theorem coarse_congr {A B A' B' : Nd R} {s t i j j' k : ℕ} (hA : A.shape = [s, i, j]) (hB : B.shape = [t, j, k])
    (hA' : A'.shape = [s, i, j']) (hB' : B'.shape = [t, j', k]) (ht : 0 < t)
    (h : ∀ s' < s, ∀ t' < t, ∀ i' < i, ∀ k' < k, ∑ x ∈ Finset.range j', A'.get [s', i', x] * B'.get [t', x, k'] =
      ∑ x ∈ Finset.range j, A.get [s', i', x] * B.get [t', x, k']) : ∃ C, coarseGrainMps A B = .ok C ∧ coarseGrainMps A' B' = .ok C := by
  obtain ⟨C, e, w, sh, g⟩ := coarseGrainMps_ok hA hB
  obtain ⟨C', e', w', sh', g'⟩ := coarseGrainMps_ok hA' hB'
  refine ⟨C, e, ?_⟩
  rw [e']
  congr 1
  refine Nd.ext_get w' w (sh'.trans sh.symm) fun p hp => ?_
  rw [sh'] at hp
  obtain ⟨x, p, rfl, hx, hp⟩ := valid_cons_iff.1 hp
  obtain ⟨i', p, rfl, hi, hp⟩ := valid_cons_iff.1 hp
  obtain ⟨k', p, rfl, hk, hp⟩ := valid_cons_iff.1 hp
  obtain rfl := valid_nil_iff.1 hp
  have hs : x / t < s := Nat.div_lt_of_lt_mul (by rwa [mul_comm] at hx)
  have ht' : x % t < t := Nat.mod_lt _ ht
  have hxe : x / t * t + x % t = x := by rw [mul_comm]; exact Nat.div_add_mod x t
  rw [← hxe, g' _ hs _ ht' _ hi _ hk, g _ hs _ ht' _ hi _ hk]
  exact h _ hs _ ht' _ hi _ hk

/-- `_move_right` -/
theorem moveRight_exact {svd : SvdFn R} (hsvd : SvdShape svd) (hex : SvdExact svd) (hiso : SvdIso svd) {A N : Nd R} {s i j t k : ℕ}
    (hw : A.Wf) (hA : A.shape = [s, i, j]) (hN : N.shape = [t, j, k]) (h1 : 0 < s * i) (h2 : 0 < t) {trunc : ℕ}
    (ht : min (s * i) j ≤ trunc) :
    ∃ A' N' C, moveRight svd A N trunc = .ok (A', N') ∧ A'.Wf ∧ A'.shape = [s, i, min (s * i) j] ∧ N'.Wf ∧
      N'.shape = [t, min (s * i) j, k] ∧ LeftCanonical A' ∧ coarseGrainMps A N = .ok C ∧ coarseGrainMps A' N' = .ok C := by
  have w0 : (⟨[s * i, j], A.data⟩ : Nd R).Wf := by
    unfold Nd.Wf at hw ⊢; rw [hw, hA]; simp only [List.prod_cons, List.prod_nil]; ring
  obtain ⟨M, hM⟩ : ∃ M : Nd R, M = ⟨[s * i, j], A.data⟩ := ⟨_, rfl⟩
  rw [← hM] at w0
  have sM : M.shape = [s * i, j] := by rw [hM]
  obtain ⟨lS, wU, sU, wV, sV⟩ := hsvd M _ _ w0 sM
  obtain ⟨U', S', V', e3, lS', wU', sU', wV', sV', gU, gS, gV⟩ := compressSvd_ok lS sU sV trunc
  rw [min_eq_left ht] at lS' sU' sV' gU gS gV
  obtain ⟨Z, eZ, wZ, sZ, gZ⟩ := diag_matmul (S := S') (V := V') (n := j) (by rw [sV', lS'])
  obtain ⟨A', eA, wA, sA, gA⟩ := reshape_left h1 wU' sU'
  obtain ⟨N', eN, wN, sN, gN⟩ := Nd.ein_move1 sZ hN
  rw [lS'] at sN gN gZ
  have gM : ∀ s' < s, ∀ i' < i, ∀ j' < j, M.get [s' * i + i', j'] = A.get [s', i', j'] := by
    intro s' _ i' _ j' _
    rw [hM]
    simp only [Nd.get, hA]
    congr 1
    simp [ravel]; ring
  have hprod : ∀ s' < s, ∀ t' < t, ∀ i' < i, ∀ k' < k, ∑ x ∈ Finset.range (min (s * i) j), A'.get [s', i', x] * N'.get [t', x, k'] =
      ∑ x ∈ Finset.range j, A.get [s', i', x] * N.get [t', x, k'] := by
    intro s' hs t' ht' i' hi k' hk
    have : ∀ x ∈ Finset.range (min (s * i) j), A'.get [s', i', x] * N'.get [t', x, k'] = ∑ y ∈ Finset.range j,
        ((svd M).1.get [s' * i + i', x] * (svd M).2.1.getD x 0 * (svd M).2.2.get [x, y]) * N.get [t', y, k'] := by
      intro x hx
      have hx' := Finset.mem_range.1 hx
      rw [gA s' hs i' hi x hx', gN t' ht' x hx' k' hk, gU _ (pair_lt hs hi) x hx', Finset.mul_sum]
      refine Finset.sum_congr rfl fun y hy => ?_
      rw [gZ x hx' y (Finset.mem_range.1 hy), gS x hx', gV x hx' y (Finset.mem_range.1 hy)]
      ring
    rw [Finset.sum_congr rfl this, Finset.sum_comm]
    refine Finset.sum_congr rfl fun y hy => ?_
    rw [← Finset.sum_mul, hex M _ _ w0 sM _ (pair_lt hs hi) _ (Finset.mem_range.1 hy), gM s' hs i' hi _ (Finset.mem_range.1 hy)]
  obtain ⟨C, eC, eC'⟩ := coarse_congr hA hN sA sN h2 hprod
  refine ⟨A', N', C, ?_, wA, sA, wN, sN, ?_, eC, eC'⟩
  · have e1 : A.reshape [s * i, j] = .ok M := by
      rw [Nd.reshape, if_pos, hM]; rw [hA]; simp only [List.prod_cons, List.prod_nil]; ring
    unfold moveRight
    simp only [hA, item, List.getElem?_cons_zero, List.getElem?_cons_succ, ok_bind, e1]
    rw [show svd M = ((svd M).1, (svd M).2.1, (svd M).2.2) from rfl]
    simp only [e3, eA, eZ, ok_bind, eN]
    rfl
  · have d0 : A'.dim 0 = s := by simp [Nd.dim, sA]
    have d1 : A'.dim 1 = i := by simp [Nd.dim, sA]
    have d2 : A'.dim 2 = min (s * i) j := by simp [Nd.dim, sA]
    unfold LeftCanonical
    rw [d0, d1, d2]
    intro x hx y hy
    rw [← (hiso M _ _ w0 sM x hx y hy).1, sum_pair]
    refine Finset.sum_congr rfl fun s' hs => Finset.sum_congr rfl fun i' hi => ?_
    rw [gA _ (Finset.mem_range.1 hs) _ (Finset.mem_range.1 hi) _ hx, gA _ (Finset.mem_range.1 hs) _ (Finset.mem_range.1 hi) _ hy,
      gU _ (pair_lt (Finset.mem_range.1 hs) (Finset.mem_range.1 hi)) _ hx, gU _ (pair_lt (Finset.mem_range.1 hs) (Finset.mem_range.1 hi)) _ hy]

/-- `_move_left` -/
theorem moveLeft_exact {svd : SvdFn R} (hsvd : SvdShape svd) (hex : SvdExact svd) (hiso : SvdIso svd) {A P : Nd R} {s i j t k : ℕ}
    (hA : A.shape = [s, i, j]) (hP : P.shape = [t, k, i]) (h1 : 0 < s * j) (h2 : 0 < s) {trunc : ℕ} (ht : min i (s * j) ≤ trunc) :
    ∃ A' P' C, moveLeft svd A P trunc = .ok (A', P') ∧ A'.Wf ∧ A'.shape = [s, min i (s * j), j] ∧ P'.Wf ∧
      P'.shape = [t, k, min i (s * j)] ∧ RightCanonical A' ∧ coarseGrainMps P A = .ok C ∧ coarseGrainMps P' A' = .ok C := by
  have shT : (A.transposeCore [1, 0, 2]).shape = [i, s, j] := by simp [Nd.transposeCore, hA]
  have w0 : (⟨[i, s * j], (A.transposeCore [1, 0, 2]).data⟩ : Nd R).Wf := by
    have hw : (A.transposeCore [1, 0, 2]).Wf := Nd.ofFn_wf _ _
    unfold Nd.Wf at hw ⊢; rw [hw, shT]; simp only [List.prod_cons, List.prod_nil]; ring
  obtain ⟨M, hM⟩ : ∃ M : Nd R, M = ⟨[i, s * j], (A.transposeCore [1, 0, 2]).data⟩ := ⟨_, rfl⟩
  rw [← hM] at w0
  have sM : M.shape = [i, s * j] := by rw [hM]
  obtain ⟨lS, wU, sU, wV, sV⟩ := hsvd M _ _ w0 sM
  obtain ⟨U', S', V', e3, lS', wU', sU', wV', sV', gU, gS, gV⟩ := compressSvd_ok lS sU sV trunc
  rw [min_eq_left ht] at lS' sU' sV' gU gS gV
  obtain ⟨Z, eZ, wZ, sZ, gZ⟩ := matmul_diag (S := S') (U := U') (m := i) (by rw [sU', lS'])
  obtain ⟨B, eB, wB, sB, gB⟩ := reshape_right h1 wV' sV'
  obtain ⟨P', eP, wP, sP, gP⟩ := Nd.ein_move2 hP sZ
  rw [lS'] at sP gP gZ
  have gM : ∀ s' < s, ∀ i' < i, ∀ j' < j, M.get [i', s' * j + j'] = A.get [s', i', j'] := by
    intro s' hs i' hi j' hj
    have e : (A.transposeCore [1, 0, 2]).get [i', s', j'] = A.get [s', i', j'] := by
      refine (Nd.get_transposeCore A (by rw [shT]; exact valid3 hi hs hj)).trans ?_
      simp [Nd.ndim, hA, List.range_succ, List.idxOf, List.findIdx_cons]
    rw [← e, hM]
    simp only [Nd.get, shT]
    congr 1
    simp [ravel]
  have hprod : ∀ t' < t, ∀ s' < s, ∀ k' < k, ∀ j' < j, ∑ x ∈ Finset.range (min i (s * j)), P'.get [t', k', x] *
      (B.transposeCore [1, 0, 2]).get [s', x, j'] = ∑ x ∈ Finset.range i, P.get [t', k', x] * A.get [s', x, j'] := by
    intro t' ht' s' hs k' hk j' hj
    have : ∀ x ∈ Finset.range (min i (s * j)), P'.get [t', k', x] * (B.transposeCore [1, 0, 2]).get [s', x, j'] = ∑ y ∈ Finset.range i,
        P.get [t', k', y] * ((svd M).1.get [y, x] * (svd M).2.1.getD x 0 * (svd M).2.2.get [x, s' * j + j']) := by
      intro x hx
      have hx' := Finset.mem_range.1 hx
      rw [gB s' hs x hx' j' hj, gP t' ht' k' hk x hx', gV x hx' _ (pair_lt hs hj), Finset.sum_mul]
      refine Finset.sum_congr rfl fun y hy => ?_
      rw [gZ y (Finset.mem_range.1 hy) x hx', gS x hx', gU y (Finset.mem_range.1 hy) x hx']
      ring
    rw [Finset.sum_congr rfl this, Finset.sum_comm]
    refine Finset.sum_congr rfl fun y hy => ?_
    rw [← Finset.mul_sum, hex M _ _ w0 sM _ (Finset.mem_range.1 hy) _ (pair_lt hs hj), gM s' hs y (Finset.mem_range.1 hy) j' hj]
  obtain ⟨C, eC, eC'⟩ := coarse_congr hP hA sP sB h2 hprod
  refine ⟨B.transposeCore [1, 0, 2], P', C, ?_, wB, sB, wP, sP, ?_, eC, eC'⟩
  · have e1 : (A.transposeCore [1, 0, 2]).reshape [i, s * j] = .ok M := by
      rw [Nd.reshape, if_pos, hM]; rw [shT]; simp only [List.prod_cons, List.prod_nil]; ring
    unfold moveLeft
    simp only [hA, item, List.getElem?_cons_zero, List.getElem?_cons_succ, ok_bind, e1]
    rw [show svd M = ((svd M).1, (svd M).2.1, (svd M).2.2) from rfl]
    simp only [e3, eB, eZ, ok_bind, eP]
    rfl
  · have d0 : (B.transposeCore [1, 0, 2]).dim 0 = s := by unfold Nd.dim; rw [sB]; rfl
    have d1 : (B.transposeCore [1, 0, 2]).dim 1 = min i (s * j) := by unfold Nd.dim; rw [sB]; rfl
    have d2 : (B.transposeCore [1, 0, 2]).dim 2 = j := by unfold Nd.dim; rw [sB]; rfl
    unfold RightCanonical
    rw [d0, d1, d2]
    intro x hx y hy
    rw [← (hiso M _ _ w0 sM x hx y hy).2, sum_pair]
    refine Finset.sum_congr rfl fun s' hs => Finset.sum_congr rfl fun i' hi => ?_
    rw [gB _ (Finset.mem_range.1 hs) _ hx _ (Finset.mem_range.1 hi), gB _ (Finset.mem_range.1 hs) _ hy _ (Finset.mem_range.1 hi),
      gV _ hx _ (pair_lt (Finset.mem_range.1 hs) (Finset.mem_range.1 hi)), gV _ hy _ (pair_lt (Finset.mem_range.1 hs) (Finset.mem_range.1 hi))]

/-- `fine_grain_mps` without truncation. -/
theorem fineGrain_exact {svd : SvdFn R} (hsvd : SvdShape svd) (hex : SvdExact svd) (hiso : SvdIso svd) {C : Nd R} {d1 d2 i k : ℕ}
    (hw : C.Wf) (hC : C.shape = [d1 * d2, i, k]) (h1 : 0 < d1 * i) (h2 : 0 < d2 * k) (toRight : Bool) :
    ∃ A B, fineGrainMps svd C d1 d2 toRight 0 = .ok (A, B) ∧ A.Wf ∧ A.shape = [d1, i, min (d1 * i) (d2 * k)] ∧ B.Wf ∧
      B.shape = [d2, min (d1 * i) (d2 * k), k] ∧ coarseGrainMps A B = .ok C ∧ (toRight = true → LeftCanonical A) ∧
      (toRight = false → RightCanonical B) := by
  obtain ⟨E, A, B, e, wE, sE, gE, wA, sA, wB, sB, gA, gB⟩ := fineGrainMps_ok hsvd hC h1 h2 toRight 0
  have hm : keptBond (min (d1 * i) (d2 * k)) 0 = min (d1 * i) (d2 * k) := by simp [keptBond]
  rw [hm] at sA sB gA gB
  refine ⟨A, B, e, wA, sA, wB, sB, ?_, ?_, ?_⟩
  · obtain ⟨C', e', wC', sC', gC'⟩ := coarseGrainMps_ok sA sB
    rw [e']
    congr 1
    refine Nd.ext_get wC' hw (sC'.trans hC.symm) fun p hp => ?_
    rw [sC'] at hp
    obtain ⟨x, p, rfl, hx, hp⟩ := valid_cons_iff.1 hp
    obtain ⟨i', p, rfl, hi, hp⟩ := valid_cons_iff.1 hp
    obtain ⟨k', p, rfl, hk, hp⟩ := valid_cons_iff.1 hp
    obtain rfl := valid_nil_iff.1 hp
    have hd2 : 0 < d2 := Nat.pos_of_mul_pos_right h2
    have hs : x / d2 < d1 := Nat.div_lt_of_lt_mul (by rwa [mul_comm] at hx)
    have ht' : x % d2 < d2 := Nat.mod_lt _ hd2
    have hxe : x / d2 * d2 + x % d2 = x := by rw [mul_comm]; exact Nat.div_add_mod x d2
    rw [← hxe, gC' _ hs _ ht' _ hi _ hk, ← gE _ hs _ ht' _ hi _ hk,
      ← hex E _ _ wE sE _ (pair_lt hs hi) _ (pair_lt ht' hk)]
    refine Finset.sum_congr rfl fun z hz => ?_
    have hz' := Finset.mem_range.1 hz
    rw [gA _ hs _ hi _ hz', gB _ ht' _ hz' _ hk]
    cases toRight <;> simp [mul_assoc]
  · rintro rfl
    have d0 : A.dim 0 = d1 := by simp [Nd.dim, sA]
    have d1' : A.dim 1 = i := by simp [Nd.dim, sA]
    have d2' : A.dim 2 = min (d1 * i) (d2 * k) := by simp [Nd.dim, sA]
    unfold LeftCanonical
    rw [d0, d1', d2']
    intro x hx y hy
    rw [← (hiso E _ _ wE sE x hx y hy).1, sum_pair]
    refine Finset.sum_congr rfl fun s' hs => Finset.sum_congr rfl fun i' hi => ?_
    rw [gA _ (Finset.mem_range.1 hs) _ (Finset.mem_range.1 hi) _ hx, gA _ (Finset.mem_range.1 hs) _ (Finset.mem_range.1 hi) _ hy]
    simp
  · rintro rfl
    have d0 : B.dim 0 = d2 := by simp [Nd.dim, sB]
    have d1' : B.dim 1 = min (d1 * i) (d2 * k) := by simp [Nd.dim, sB]
    have d2' : B.dim 2 = k := by simp [Nd.dim, sB]
    unfold RightCanonical
    rw [d0, d1', d2']
    intro x hx y hy
    rw [← (hiso E _ _ wE sE x hx y hy).2, sum_pair]
    refine Finset.sum_congr rfl fun s' hs => Finset.sum_congr rfl fun i' hi => ?_
    rw [gB _ (Finset.mem_range.1 hs) _ hx _ (Finset.mem_range.1 hi), gB _ (Finset.mem_range.1 hs) _ hy _ (Finset.mem_range.1 hi)]
    simp

end Dmrg
