import Verif.Lemmas.Dmrg
import Mathlib.Tactic.Linarith

/-!
Coarse graining, fine graining, the moves.
-/

open scoped BigOperators
open Py

namespace Dmrg

variable {R : Type} [CommRing R]

theorem valid2 {a b x y : ℕ} (hx : x < a) (hy : y < b) : Valid [a, b] [x, y] := by simp [Valid, *]

theorem valid3 {a b c x y z : ℕ} (hx : x < a) (hy : y < b) (hz : z < c) : Valid [a, b, c] [x, y, z] := by simp [Valid, *]

theorem valid4 {a b c d x y z w : ℕ} (hx : x < a) (hy : y < b) (hz : z < c) (hw : w < d) : Valid [a, b, c, d] [x, y, z, w] := by
  simp [Valid, *]

/-- An index of a pair. -/
theorem pair_lt {a b x y : ℕ} (hx : x < a) (hy : y < b) : x * b + y < a * b := by
  calc x * b + y < x * b + b := by omega
    _ = (x + 1) * b := by ring
    _ ≤ a * b := Nat.mul_le_mul_right _ hx

theorem coarseGrainMps_ok {A B : Nd R} {s t i j k : ℕ} (hA : A.shape = [s, i, j]) (hB : B.shape = [t, j, k]) :
    ∃ C, coarseGrainMps A B = .ok C ∧ C.Wf ∧ C.shape = [s * t, i, k] ∧
      ∀ s' < s, ∀ t' < t, ∀ i' < i, ∀ k' < k, C.get [s' * t + t', i', k'] =
        ∑ j' ∈ Finset.range j, A.get [s', i', j'] * B.get [t', j', k'] := by
  obtain ⟨Z, e, w, sh, g⟩ := Nd.ein_cgmps hA hB
  refine ⟨⟨[s * t, i, k], Z.data⟩, ?_, ?_, rfl, ?_⟩
  · unfold coarseGrainMps
    simp only [hA, hB, item, List.getElem?_cons_zero, List.getElem?_cons_succ, ok_bind, e]
    rw [Nd.reshape, if_pos]
    rw [sh]; simp only [List.prod_cons, List.prod_nil]; ring
  · unfold Nd.Wf at w ⊢
    rw [w, sh]; simp only [List.prod_cons, List.prod_nil]; ring
  · intro s' hs t' ht i' hi k' hk
    rw [← g s' hs t' ht i' hi k' hk]
    simp only [Nd.get, sh]
    congr 1
    simp [ravel]; ring

theorem coarseGrainMpo_ok {W X : Nd R} {a b c s t u v : ℕ} (hW : W.shape = [a, b, s, t]) (hX : X.shape = [b, c, u, v]) :
    ∃ Y, coarseGrainMpo W X = .ok Y ∧ Y.Wf ∧ Y.shape = [a, c, s * u, t * v] ∧
      ∀ a' < a, ∀ c' < c, ∀ s' < s, ∀ u' < u, ∀ t' < t, ∀ v' < v, Y.get [a', c', s' * u + u', t' * v + v'] =
        ∑ b' ∈ Finset.range b, W.get [a', b', s', t'] * X.get [b', c', u', v'] := by
  obtain ⟨Z, e, w, sh, g⟩ := Nd.ein_cgmpo hW hX
  refine ⟨⟨[a, c, s * u, t * v], Z.data⟩, ?_, ?_, rfl, ?_⟩
  · unfold coarseGrainMpo
    simp only [hW, hX, item, List.getElem?_cons_zero, List.getElem?_cons_succ, ok_bind, e]
    rw [Nd.reshape, if_pos]
    rw [sh]; simp only [List.prod_cons, List.prod_nil]; ring
  · unfold Nd.Wf at w ⊢
    rw [w, sh]; simp only [List.prod_cons, List.prod_nil]; ring
  · intro a' ha c' hc s' hs u' hu t' ht v' hv
    rw [← g a' ha c' hc s' hs u' hu t' ht v' hv]
    simp only [Nd.get, sh]
    congr 1
    simp [ravel]; ring

theorem diag_get {S : List R} {x y : ℕ} (hx : x < S.length) (hy : y < S.length) :
    (diag S).get [x, y] = if x = y then S.getD x 0 else 0 := Nd.get_ofFn _ (valid2 hx hy)

theorem diag_matmul {S : List R} {V : Nd R} {n : ℕ} (hV : V.shape = [S.length, n]) :
    ∃ Z, (diag S).matmul V = .ok Z ∧ Z.Wf ∧ Z.shape = [S.length, n] ∧
      ∀ m' < S.length, ∀ y < n, Z.get [m', y] = S.getD m' 0 * V.get [m', y] := by
  refine ⟨(diag S).matmulCore V, ?_, Nd.ofFn_wf _ _, ?_, ?_⟩
  · rw [Nd.matmul, if_pos]; simp [diag, hV, Nd.ndim]
  · simp [Nd.matmulCore, diag, hV]
  · intro m' hm y hy
    refine (Nd.get_ofFn _ ?_).trans ?_
    · simp [diag, hV, Valid, hm, hy]
    · have : (diag S).shape.getD 1 1 = S.length := rfl
      rw [this]
      simp only [List.getD_cons_zero, List.getD_cons_succ]
      rw [Finset.sum_eq_single m']
      · rw [diag_get hm hm, if_pos rfl]
      · intro b hb hne
        rw [diag_get hm (Finset.mem_range.1 hb), if_neg (Ne.symm hne), zero_mul]
      · intro h; exact absurd (Finset.mem_range.2 hm) h

theorem matmul_diag {S : List R} {U : Nd R} {m : ℕ} (hU : U.shape = [m, S.length]) :
    ∃ Z, U.matmul (diag S) = .ok Z ∧ Z.Wf ∧ Z.shape = [m, S.length] ∧
      ∀ x < m, ∀ z < S.length, Z.get [x, z] = U.get [x, z] * S.getD z 0 := by
  refine ⟨U.matmulCore (diag S), ?_, Nd.ofFn_wf _ _, ?_, ?_⟩
  · rw [Nd.matmul, if_pos]; simp [diag, hU, Nd.ndim]
  · simp [Nd.matmulCore, diag, hU]
  · intro x hx z hz
    refine (Nd.get_ofFn _ ?_).trans ?_
    · simp [diag, hU, Valid, hx, hz]
    · have : U.shape.getD 1 1 = S.length := by simp [hU]
      rw [this]
      simp only [List.getD_cons_zero, List.getD_cons_succ]
      rw [Finset.sum_eq_single z]
      · rw [diag_get hz hz, if_pos rfl]
      · intro b hb hne
        rw [diag_get (Finset.mem_range.1 hb) hz, if_neg hne, mul_zero]
      · intro h; exact absurd (Finset.mem_range.2 hz) h

/-- What is kept by `compress_svd`. -/
theorem compressSvd_ok {U V : Nd R} {S : List R} {m n k : ℕ} (hS : S.length = k) (hU : U.shape = [m, k]) (hV : V.shape = [k, n])
    (trunc : ℕ) :
    ∃ U' S' V', compressSvd U S V trunc = (U', S', V') ∧ S'.length = min k trunc ∧ U'.Wf ∧ U'.shape = [m, min k trunc] ∧
      V'.Wf ∧ V'.shape = [min k trunc, n] ∧ (∀ x < m, ∀ z < min k trunc, U'.get [x, z] = U.get [x, z]) ∧
      (∀ z < min k trunc, S'.getD z 0 = S.getD z 0) ∧ ∀ z < min k trunc, ∀ y < n, V'.get [z, y] = V.get [z, y] := by
  refine ⟨_, _, _, rfl, ?_, Nd.ofFn_wf _ _, ?_, Nd.ofFn_wf _ _, ?_, ?_, ?_, ?_⟩
  · simp [hS]
  · simp [CompressedSvd.takeCols, Nd.dim, hU, hS]
  · simp [CompressedSvd.takeRows, Nd.dim, hV, hS]
  · intro x hx z hz
    exact Nd.get_ofFn _ (by simp [Nd.dim, hU, hS, Valid]; omega)
  · intro z hz
    rw [hS]
    simp [List.getD_eq_getElem?_getD, hz]
  · intro x hx z hz
    exact Nd.get_ofFn _ (by simp [Nd.dim, hV, hS, Valid]; omega)

/-- `np.reshape(U, (s, i, -1))` -/
theorem reshape_left {U : Nd R} {s i m : ℕ} (h0 : 0 < s * i) (hw : U.Wf) (hU : U.shape = [s * i, m]) :
    ∃ A, U.reshapeInfer [s, i] [] = .ok A ∧ A.Wf ∧ A.shape = [s, i, m] ∧
      ∀ s' < s, ∀ i' < i, ∀ m' < m, A.get [s', i', m'] = U.get [s' * i + i', m'] := by
  refine ⟨⟨[s, i, m], U.data⟩, ?_, ?_, rfl, ?_⟩
  · unfold Nd.reshapeInfer
    rw [hU]
    simp only [List.prod_cons, List.prod_nil, mul_one]
    rw [if_neg]
    · rw [Nat.mul_div_cancel_left _ h0]; rfl
    · rw [Nat.mul_mod_right]; omega
  · unfold Nd.Wf at hw ⊢
    rw [hw, hU]; simp; ring
  · intro s' hs i' hi m' hm
    simp only [Nd.get, hU]
    congr 1
    simp [ravel]; ring

/-- `np.transpose(np.reshape(V, (-1, t, k)), (1, 0, 2))` -/
theorem reshape_right {V : Nd R} {t k m : ℕ} (h0 : 0 < t * k) (hw : V.Wf) (hV : V.shape = [m, t * k]) :
    ∃ B, V.reshapeInfer [] [t, k] = .ok B ∧ (B.transposeCore [1, 0, 2]).Wf ∧ (B.transposeCore [1, 0, 2]).shape = [t, m, k] ∧
      ∀ t' < t, ∀ m' < m, ∀ k' < k, (B.transposeCore [1, 0, 2]).get [t', m', k'] = V.get [m', t' * k + k'] := by
  refine ⟨⟨[m, t, k], V.data⟩, ?_, Nd.ofFn_wf _ _, rfl, ?_⟩
  · unfold Nd.reshapeInfer
    rw [hV]
    simp only [List.prod_cons, List.prod_nil, mul_one, one_mul]
    rw [if_neg]
    · rw [Nat.mul_div_cancel _ h0]; rfl
    · rw [Nat.mul_mod_left]; omega
  · intro t' ht m' hm k' hk
    refine (Nd.get_ofFn _ (valid3 ht hm hk)).trans ?_
    simp only [Nd.get, hV]
    congr 1
    simp [ravel, Nd.ndim, List.range_succ, List.idxOf, List.findIdx_cons]

/-- The matrix `mat[si, tk]` of `fine_grain_mps`. -/
theorem grain_matrix {C : Nd R} {d1 d2 i k : ℕ} (hC : C.shape = [d1 * d2, i, k]) :
    ∃ D E, C.reshape [d1, d2, i, k] = .ok D ∧ (D.transposeCore [0, 2, 1, 3]).reshape [d1 * i, d2 * k] = .ok E ∧ E.Wf ∧
      E.shape = [d1 * i, d2 * k] ∧ ∀ s' < d1, ∀ t' < d2, ∀ i' < i, ∀ k' < k,
        E.get [s' * i + i', t' * k + k'] = C.get [s' * d2 + t', i', k'] := by
  refine ⟨⟨[d1, d2, i, k], C.data⟩, ⟨[d1 * i, d2 * k], ((⟨[d1, d2, i, k], C.data⟩ : Nd R).transposeCore [0, 2, 1, 3]).data⟩,
    ?_, ?_, ?_, rfl, ?_⟩
  · rw [Nd.reshape, if_pos]
    rw [hC]; simp only [List.prod_cons, List.prod_nil]; ring
  · rw [Nd.reshape, if_pos]
    simp only [Nd.transposeCore, Nd.ofFn, List.map_cons, List.map_nil, List.getD_cons_zero, List.getD_cons_succ, List.prod_cons,
      List.prod_nil]
    ring
  · have := Nd.ofFn_wf (α := R) [d1, i, d2, k] (fun idx => (⟨[d1, d2, i, k], C.data⟩ : Nd R).get
      ((List.range 4).map (fun k => idx.getD ([0, 2, 1, 3].idxOf k) 0)))
    unfold Nd.Wf at this ⊢
    refine Eq.trans this ?_
    simp only [Nd.ofFn, List.prod_cons, List.prod_nil]
    ring
  · intro s' hs t' ht i' hi k' hk
    have e : ((⟨[d1, d2, i, k], C.data⟩ : Nd R).transposeCore [0, 2, 1, 3]).get [s', i', t', k'] = C.get [s' * d2 + t', i', k'] := by
      refine (Nd.get_ofFn _ (valid4 hs hi ht hk)).trans ?_
      simp only [Nd.get, hC]
      congr 1
      simp [ravel, Nd.ndim, List.range_succ, List.idxOf, List.findIdx_cons]; ring
    rw [← e]
    have sh : ((⟨[d1, d2, i, k], C.data⟩ : Nd R).transposeCore [0, 2, 1, 3]).shape = [d1, i, d2, k] := rfl
    simp only [Nd.get, sh]
    congr 1
    simp [ravel]; ring

/-- The bond dimension after truncation. -/
def keptBond (k trunc : ℕ) : ℕ := if trunc ≠ 0 then min k trunc else k

theorem keptBond_pos {k trunc : ℕ} (h : 0 < k) : 0 < keptBond k trunc := by unfold keptBond; split <;> omega

theorem trunc_ok {U V : Nd R} {S : List R} {m n k : ℕ} (hS : S.length = k) (hU : U.shape = [m, k]) (hV : V.shape = [k, n])
    (wU : U.Wf) (wV : V.Wf) (trunc : ℕ) :
    ∃ U' S' V', (if trunc ≠ 0 then compressSvd U S V trunc else (U, S, V)) = (U', S', V') ∧ S'.length = keptBond k trunc ∧ U'.Wf ∧
      U'.shape = [m, keptBond k trunc] ∧
      V'.Wf ∧ V'.shape = [keptBond k trunc, n] ∧ (∀ x < m, ∀ z < keptBond k trunc, U'.get [x, z] = U.get [x, z]) ∧
      (∀ z < keptBond k trunc, S'.getD z 0 = S.getD z 0) ∧ ∀ z < keptBond k trunc, ∀ y < n, V'.get [z, y] = V.get [z, y] := by
  unfold keptBond
  by_cases h : trunc ≠ 0
  · simp only [if_pos h]
    exact compressSvd_ok hS hU hV trunc
  · simp only [if_neg h]
    exact ⟨U, S, V, rfl, hS, wU, hU, wV, hV, fun _ _ _ _ => rfl, fun _ _ => rfl, fun _ _ _ _ => rfl⟩

/-- `fine_grain_mps`: the factors. -/
theorem fineGrainMps_ok {svd : SvdFn R} (hsvd : SvdShape svd) {C : Nd R} {d1 d2 i k : ℕ} (hC : C.shape = [d1 * d2, i, k])
    (h1 : 0 < d1 * i) (h2 : 0 < d2 * k) (toRight : Bool) (trunc : ℕ) :
    ∃ E A B, fineGrainMps svd C d1 d2 toRight trunc = .ok (A, B) ∧ E.Wf ∧ E.shape = [d1 * i, d2 * k] ∧
      (∀ s' < d1, ∀ t' < d2, ∀ i' < i, ∀ k' < k, E.get [s' * i + i', t' * k + k'] = C.get [s' * d2 + t', i', k']) ∧
      A.Wf ∧ A.shape = [d1, i, keptBond (min (d1 * i) (d2 * k)) trunc] ∧ B.Wf ∧
      B.shape = [d2, keptBond (min (d1 * i) (d2 * k)) trunc, k] ∧
      (∀ s' < d1, ∀ i' < i, ∀ m' < keptBond (min (d1 * i) (d2 * k)) trunc, A.get [s', i', m'] =
        (svd E).1.get [s' * i + i', m'] * if toRight then 1 else (svd E).2.1.getD m' 0) ∧
      (∀ t' < d2, ∀ m' < keptBond (min (d1 * i) (d2 * k)) trunc, ∀ k' < k, B.get [t', m', k'] =
        (if toRight then (svd E).2.1.getD m' 0 else 1) * (svd E).2.2.get [m', t' * k + k']) := by
  obtain ⟨D, E, e1, e2, wE, sE, gE⟩ := grain_matrix hC
  obtain ⟨lS, wU, sU, wV, sV⟩ := hsvd E _ _ wE sE
  obtain ⟨U', S', V', e3, lS', wU', sU', wV', sV', gU, gS, gV⟩ := trunc_ok lS sU sV wU wV trunc
  refine ⟨E, ?_⟩
  set m := keptBond (min (d1 * i) (d2 * k)) trunc with hm
  have start : fineGrainMps svd C d1 d2 toRight trunc = (do
      let (A, B) ← if toRight then do pure (U', ← (diag S').matmul V') else do pure (← U'.matmul (diag S'), V')
      let A ← A.reshapeInfer [d1, i] []
      let B ← B.reshapeInfer [] [d2, k]
      pure (A, B.transposeCore [1, 0, 2])) := by
    unfold fineGrainMps
    simp only [hC, item, List.getElem?_cons_zero, List.getElem?_cons_succ, ok_bind, e1, e2]
    rw [show svd E = ((svd E).1, (svd E).2.1, (svd E).2.2) from rfl]
    simp only [e3]
  rw [start]
  cases toRight with
  | true =>
    obtain ⟨Z, eZ, wZ, sZ, gZ⟩ := diag_matmul (S := S') (V := V') (n := d2 * k) (by rw [sV', lS'])
    rw [lS'] at sZ gZ
    obtain ⟨A, eA, wA, sA, gA⟩ := reshape_left h1 wU' sU'
    obtain ⟨B, eB, wB, sB, gB⟩ := reshape_right h2 wZ sZ
    refine ⟨A, B.transposeCore [1, 0, 2], ?_, wE, sE, gE, wA, sA, wB, sB, ?_, ?_⟩
    · simp only [if_true, eZ, ok_bind, pure_bind, eA, eB]
      rfl
    · intro s' hs i' hi m' hm'
      rw [gA s' hs i' hi m' hm', gU _ (pair_lt hs hi) m' hm']
      simp
    · intro t' ht m' hm' k' hk
      rw [gB t' ht m' hm' k' hk, gZ m' hm' _ (pair_lt ht hk), gS m' hm', gV m' hm' _ (pair_lt ht hk)]
      simp
  | false =>
    obtain ⟨Z, eZ, wZ, sZ, gZ⟩ := matmul_diag (S := S') (U := U') (m := d1 * i) (by rw [sU', lS'])
    rw [lS'] at sZ gZ
    obtain ⟨A, eA, wA, sA, gA⟩ := reshape_left h1 wZ sZ
    obtain ⟨B, eB, wB, sB, gB⟩ := reshape_right h2 wV' sV'
    refine ⟨A, B.transposeCore [1, 0, 2], ?_, wE, sE, gE, wA, sA, wB, sB, ?_, ?_⟩
    · simp only [Bool.false_eq_true, if_false, eZ, ok_bind, pure_bind, eA, eB]
      rfl
    · intro s' hs i' hi m' hm'
      rw [gA s' hs i' hi m' hm', gZ _ (pair_lt hs hi) m' hm', gU _ (pair_lt hs hi) m' hm', gS m' hm']
      simp
    · intro t' ht m' hm' k' hk
      rw [gB t' ht m' hm' k' hk, gV m' hm' _ (pair_lt ht hk)]
      simp

/-- `_move_right` -/
theorem moveRight_ok {svd : SvdFn R} (hsvd : SvdShape svd) {A N : Nd R} {s i j t k : ℕ} (hw : A.Wf) (hA : A.shape = [s, i, j])
    (hN : N.shape = [t, j, k]) (h1 : 0 < s * i) (trunc : ℕ) :
    ∃ A' N', moveRight svd A N trunc = .ok (A', N') ∧ A'.Wf ∧ A'.shape = [s, i, min (min (s * i) j) trunc] ∧ N'.Wf ∧
      N'.shape = [t, min (min (s * i) j) trunc, k] := by
  have w0 : (⟨[s * i, j], A.data⟩ : Nd R).Wf := by
    unfold Nd.Wf at hw ⊢; rw [hw, hA]; simp only [List.prod_cons, List.prod_nil]; ring
  obtain ⟨lS, wU, sU, wV, sV⟩ := hsvd ⟨[s * i, j], A.data⟩ _ _ w0 rfl
  obtain ⟨U', S', V', e3, lS', wU', sU', wV', sV', -⟩ := compressSvd_ok lS sU sV trunc
  obtain ⟨Z, eZ, wZ, sZ, -⟩ := diag_matmul (S := S') (V := V') (n := j) (by rw [sV', lS'])
  obtain ⟨A', eA, wA, sA, -⟩ := reshape_left h1 wU' sU'
  obtain ⟨N', eN, wN, sN, -⟩ := Nd.ein_move1 sZ hN
  rw [lS'] at sN
  refine ⟨A', N', ?_, wA, sA, wN, sN⟩
  have e1 : A.reshape [s * i, j] = .ok ⟨[s * i, j], A.data⟩ := by
    rw [Nd.reshape, if_pos]; rw [hA]; simp only [List.prod_cons, List.prod_nil]; ring
  unfold moveRight
  simp only [hA, item, List.getElem?_cons_zero, List.getElem?_cons_succ, ok_bind, e1]
  rw [show svd ⟨[s * i, j], A.data⟩ = ((svd ⟨[s * i, j], A.data⟩).1, (svd ⟨[s * i, j], A.data⟩).2.1,
    (svd ⟨[s * i, j], A.data⟩).2.2) from rfl]
  simp only [e3, eA, eZ, ok_bind, eN]
  rfl

/-- `_move_left` -/
theorem moveLeft_ok {svd : SvdFn R} (hsvd : SvdShape svd) {A P : Nd R} {s i j t k : ℕ} (hA : A.shape = [s, i, j])
    (hP : P.shape = [t, k, i]) (h1 : 0 < s * j) (trunc : ℕ) :
    ∃ A' P', moveLeft svd A P trunc = .ok (A', P') ∧ A'.Wf ∧ A'.shape = [s, min (min i (s * j)) trunc, j] ∧ P'.Wf ∧
      P'.shape = [t, k, min (min i (s * j)) trunc] := by
  have shT : (A.transposeCore [1, 0, 2]).shape = [i, s, j] := by simp [Nd.transposeCore, hA]
  have w0 : (⟨[i, s * j], (A.transposeCore [1, 0, 2]).data⟩ : Nd R).Wf := by
    have hw : (A.transposeCore [1, 0, 2]).Wf := Nd.ofFn_wf _ _
    unfold Nd.Wf at hw ⊢; rw [hw, shT]; simp only [List.prod_cons, List.prod_nil]; ring
  set M : Nd R := ⟨[i, s * j], (A.transposeCore [1, 0, 2]).data⟩ with hM
  obtain ⟨lS, wU, sU, wV, sV⟩ := hsvd M _ _ w0 rfl
  obtain ⟨U', S', V', e3, lS', wU', sU', wV', sV', -⟩ := compressSvd_ok lS sU sV trunc
  obtain ⟨Z, eZ, wZ, sZ, -⟩ := matmul_diag (S := S') (U := U') (m := i) (by rw [sU', lS'])
  obtain ⟨B, eB, wB, sB, -⟩ := reshape_right h1 wV' sV'
  obtain ⟨P', eP, wP, sP, -⟩ := Nd.ein_move2 hP sZ
  rw [lS'] at sP
  refine ⟨B.transposeCore [1, 0, 2], P', ?_, wB, sB, wP, sP⟩
  have e1 : (A.transposeCore [1, 0, 2]).reshape [i, s * j] = .ok M := by
    rw [Nd.reshape, if_pos]; rw [shT]; simp only [List.prod_cons, List.prod_nil]; ring
  unfold moveLeft
  simp only [hA, item, List.getElem?_cons_zero, List.getElem?_cons_succ, ok_bind, e1]
  rw [show svd M = ((svd M).1, (svd M).2.1, (svd M).2.2) from rfl]
  simp only [e3, eB, eZ, ok_bind, eP]
  rfl

end Dmrg
