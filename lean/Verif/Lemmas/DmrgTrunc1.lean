import Verif.Lemmas.DmrgTrunc

/-!
Lemmas on the truncation in one-site DMRG.
-/

open scoped BigOperators
open Py

namespace Dmrg

/-- `_move_right` with truncation, the next matrix being right-canonical. -/
theorem moveRight_trunc {svd : SvdFn ℝ} (hsvd : SvdShape svd) (hex : SvdExact svd) (hiso : SvdIso svd) {A N : Nd ℝ} {s i j t k : ℕ}
    (hw : A.Wf) (hA : A.shape = [s, i, j]) (hN : N.shape = [t, j, k]) (h1 : 0 < s * i) (cN : RightCanonical N) (trunc : ℕ) :
    ∃ M A' N' C C', moveRight svd A N trunc = .ok (A', N') ∧ M.Wf ∧ M.shape = [s * i, j] ∧
      (∀ s' < s, ∀ i' < i, ∀ j' < j, M.get [s' * i + i', j'] = A.get [s', i', j']) ∧
      A'.Wf ∧ A'.shape = [s, i, min (min (s * i) j) trunc] ∧ N'.Wf ∧ N'.shape = [t, min (min (s * i) j) trunc, k] ∧ LeftCanonical A' ∧
      coarseGrainMps A N = .ok C ∧ coarseGrainMps A' N' = .ok C' ∧
      inner A A = ∑ z ∈ Finset.range (min (s * i) j), (svd M).2.1.getD z 0 ^ 2 ∧
      inner C C = ∑ z ∈ Finset.range (min (s * i) j), (svd M).2.1.getD z 0 ^ 2 ∧
      inner C' C' = ∑ z ∈ Finset.range (min (min (s * i) j) trunc), (svd M).2.1.getD z 0 ^ 2 ∧
      (∀ D : Nd ℝ, D.Wf → D.shape = [s * t, i, k] → (∀ p, Valid [s * t, i, k] p → D.get p = C.get p - C'.get p) →
        inner D D = ∑ z ∈ Finset.Ico (min (min (s * i) j) trunc) (min (s * i) j), (svd M).2.1.getD z 0 ^ 2) := by
  have w0 : (⟨[s * i, j], A.data⟩ : Nd ℝ).Wf := by
    unfold Nd.Wf at hw ⊢; rw [hw, hA]; simp only [List.prod_cons, List.prod_nil]; ring
  obtain ⟨M, hM⟩ : ∃ M : Nd ℝ, M = ⟨[s * i, j], A.data⟩ := ⟨_, rfl⟩
  rw [← hM] at w0
  have sM : M.shape = [s * i, j] := by rw [hM]
  obtain ⟨lS, wU, sU, wV, sV⟩ := hsvd M _ _ w0 sM
  obtain ⟨U', S', V', e3, lS', wU', sU', wV', sV', gU, gS, gV⟩ := compressSvd_ok lS sU sV trunc
  obtain ⟨Z, eZ, wZ, sZ, gZ⟩ := diag_matmul (S := S') (V := V') (n := j) (by rw [sV', lS'])
  obtain ⟨A', eA, wA, sA, gA⟩ := reshape_left h1 wU' sU'
  obtain ⟨N', eN, wN, sN, gN⟩ := Nd.ein_move1 sZ hN
  rw [lS'] at sN gN gZ
  obtain ⟨C, eC, wC, sC, gC⟩ := coarseGrainMps_ok hA hN
  obtain ⟨C', eC', wC', sC', gC'⟩ := coarseGrainMps_ok sA sN
  have hmr : min (min (s * i) j) trunc ≤ min (s * i) j := min_le_left _ _
  generalize hr : min (s * i) j = r at *
  generalize hm : min r trunc = m at *
  have gM : ∀ s' < s, ∀ i' < i, ∀ j' < j, M.get [s' * i + i', j'] = A.get [s', i', j'] := by
    intro s' _ i' _ j' _
    rw [hM]
    simp only [Nd.get, hA]
    congr 1
    simp [ravel]; ring
  have hU : ∀ z < r, ∀ w < r, ∑ x ∈ Finset.range (s * i), (svd M).1.get [x, z] * (svd M).1.get [x, w] = if z = w then 1 else 0 :=
    fun z hz w hw => (hiso M _ _ w0 sM z (by omega) w (by omega)).1
  have hV : ∀ z < r, ∀ w < r, ∑ y ∈ Finset.range j, (svd M).2.2.get [z, y] * (svd M).2.2.get [w, y] = if z = w then 1 else 0 :=
    fun z hz w hw => (hiso M _ _ w0 sM z (by omega) w (by omega)).2
  have hE : ∀ x < s * i, ∀ y < j, ∑ z ∈ Finset.range r, (svd M).1.get [x, z] * (svd M).2.1.getD z 0 * (svd M).2.2.get [z, y] = M.get [x, y] := by
    intro x hx y hy
    rw [← hr]; exact hex M _ _ w0 sM x hx y hy
  -- the rows of `V N`
  let VN : ℕ → ℕ → ℝ := fun z q => ∑ y ∈ Finset.range j, (svd M).2.2.get [z, y] * N.get [q / k, y, q % k]
  have hVN : ∀ z < r, ∀ w < r, ∑ q ∈ Finset.range (t * k), VN z q * VN w q = if z = w then 1 else 0 := by
    intro z hz w hw
    rw [← hV z hz w hw, sum_pair]
    have e1 : ∀ t' ∈ Finset.range t, ∀ k' ∈ Finset.range k, VN z (t' * k + k') * VN w (t' * k + k') =
        ∑ y ∈ Finset.range j, ∑ y' ∈ Finset.range j, (svd M).2.2.get [z, y] * (svd M).2.2.get [w, y'] * (N.get [t', y, k'] * N.get [t', y', k']) := by
      intro t' _ k' hk
      have hk' := Finset.mem_range.1 hk
      have d3 : (t' * k + k') / k = t' := by rw [mul_comm, Nat.mul_add_div (by omega), Nat.div_eq_of_lt hk', add_zero]
      have d4 : (t' * k + k') % k = k' := by rw [mul_comm, Nat.mul_add_mod, Nat.mod_eq_of_lt hk']
      simp only [VN, d3, d4]
      rw [Finset.sum_mul_sum]
      exact Finset.sum_congr rfl fun y _ => Finset.sum_congr rfl fun y' _ => by ring
    rw [Finset.sum_congr rfl fun t' ht => Finset.sum_congr rfl fun k' hk => e1 t' ht k' hk]
    have e2 : ∑ t' ∈ Finset.range t, ∑ k' ∈ Finset.range k, ∑ y ∈ Finset.range j, ∑ y' ∈ Finset.range j,
        (svd M).2.2.get [z, y] * (svd M).2.2.get [w, y'] * (N.get [t', y, k'] * N.get [t', y', k']) =
        ∑ y ∈ Finset.range j, ∑ y' ∈ Finset.range j, (svd M).2.2.get [z, y] * (svd M).2.2.get [w, y'] *
          ∑ t' ∈ Finset.range t, ∑ k' ∈ Finset.range k, N.get [t', y, k'] * N.get [t', y', k'] := by
      simp only [Finset.mul_sum]
      simp only [← Finset.sum_product']
      refine Finset.sum_bij' (fun q _ => (q.2.2.1, q.2.2.2, q.1, q.2.1)) (fun q _ => (q.2.2.1, q.2.2.2, q.1, q.2.1)) ?_ ?_ ?_ ?_ ?_ <;>
        first
          | (intro q hq; simp only [Finset.mem_product] at hq ⊢; tauto)
          | (intro q _; rfl)
    rw [e2]
    refine Finset.sum_congr rfl fun y hy => ?_
    have n0 : N.dim 0 = t := by simp [Nd.dim, hN]
    have n1 : N.dim 1 = j := by simp [Nd.dim, hN]
    have n2 : N.dim 2 = k := by simp [Nd.dim, hN]
    have hcan : ∀ x < j, ∀ y < j, ∑ t' ∈ Finset.range t, ∑ k' ∈ Finset.range k, N.get [t', x, k'] * N.get [t', y, k'] = if x = y then 1 else 0 := by
      unfold RightCanonical at cN
      rwa [n0, n1, n2] at cN
    rw [Finset.sum_congr rfl fun y' hy' => by rw [hcan y (Finset.mem_range.1 hy) y' (Finset.mem_range.1 hy')]]
    rw [Finset.sum_eq_single y]
    · rw [if_pos rfl, mul_one]
    · intro b _ hne; rw [if_neg (Ne.symm hne), mul_zero]
    · intro h; exact absurd hy h
  have vn : ∀ z, ∀ t', ∀ k' < k, VN z (t' * k + k') = ∑ y ∈ Finset.range j, (svd M).2.2.get [z, y] * N.get [t', y, k'] := by
    intro z t' k' hk'
    have d3 : (t' * k + k') / k = t' := by rw [mul_comm, Nat.mul_add_div (by omega), Nat.div_eq_of_lt hk', add_zero]
    have d4 : (t' * k + k') % k = k' := by rw [mul_comm, Nat.mul_add_mod, Nat.mod_eq_of_lt hk']
    simp only [VN, d3, d4]
  have fC : ∀ s' < s, ∀ t' < t, ∀ i' < i, ∀ k' < k, C.get [s' * t + t', i', k'] =
      ∑ z ∈ Finset.range r, (svd M).1.get [s' * i + i', z] * (svd M).2.1.getD z 0 * VN z (t' * k + k') := by
    intro s' hs t' ht i' hi k' hk
    rw [gC _ hs _ ht _ hi _ hk]
    simp only [vn _ _ _ hk, Finset.mul_sum]
    rw [Finset.sum_comm]
    refine Finset.sum_congr rfl fun y hy => ?_
    rw [← gM s' hs i' hi y (Finset.mem_range.1 hy), ← hE _ (pair_lt hs hi) y (Finset.mem_range.1 hy), Finset.sum_mul]
    exact Finset.sum_congr rfl fun z _ => by ring
  have fC' : ∀ s' < s, ∀ t' < t, ∀ i' < i, ∀ k' < k, C'.get [s' * t + t', i', k'] =
      ∑ z ∈ Finset.range m, (svd M).1.get [s' * i + i', z] * (svd M).2.1.getD z 0 * VN z (t' * k + k') := by
    intro s' hs t' ht i' hi k' hk
    rw [gC' _ hs _ ht _ hi _ hk]
    refine Finset.sum_congr rfl fun z hz => ?_
    have hz' := Finset.mem_range.1 hz
    rw [gA _ hs _ hi z hz', gN _ ht z hz' _ hk, gU _ (pair_lt hs hi) z hz', vn _ _ _ hk, Finset.mul_sum, Finset.mul_sum]
    refine Finset.sum_congr rfl fun y hy => ?_
    rw [gZ z hz' y (Finset.mem_range.1 hy), gS z hz', gV z hz' y (Finset.mem_range.1 hy)]
    ring
  have G := fun Z (hZ : ∀ z ∈ Z, z < r) => gram (U := fun x z => (svd M).1.get [x, z]) (V := VN)
    (s := fun z => (svd M).2.1.getD z 0) hU hVN (Z := Z) hZ
  refine ⟨M, A', N', C, C', ?_, w0, sM, gM, wA, sA, wN, sN, ?_, eC, eC', ?_, ?_, ?_, ?_⟩
  · have e1 : A.reshape [s * i, j] = .ok M := by
      rw [Nd.reshape, if_pos, hM]; rw [hA]; simp only [List.prod_cons, List.prod_nil]; ring
    unfold moveRight
    simp only [hA, item, List.getElem?_cons_zero, List.getElem?_cons_succ, ok_bind, e1]
    rw [show svd M = ((svd M).1, (svd M).2.1, (svd M).2.2) from rfl]
    simp only [e3, eA, eZ, ok_bind, eN]
    rfl
  · have d0 : A'.dim 0 = s := by simp [Nd.dim, sA]
    have d1 : A'.dim 1 = i := by simp [Nd.dim, sA]
    have d2 : A'.dim 2 = m := by simp [Nd.dim, sA]
    unfold LeftCanonical
    rw [d0, d1, d2]
    intro x hx y hy
    rw [← hU x (by omega) y (by omega), sum_pair]
    refine Finset.sum_congr rfl fun s' hs => Finset.sum_congr rfl fun i' hi => ?_
    rw [gA _ (Finset.mem_range.1 hs) _ (Finset.mem_range.1 hi) _ hx, gA _ (Finset.mem_range.1 hs) _ (Finset.mem_range.1 hi) _ hy,
      gU _ (pair_lt (Finset.mem_range.1 hs) (Finset.mem_range.1 hi)) _ hx, gU _ (pair_lt (Finset.mem_range.1 hs) (Finset.mem_range.1 hi)) _ hy]
  · rw [← gram (U := fun x z => (svd M).1.get [x, z]) (V := fun z y => (svd M).2.2.get [z, y])
      (s := fun z => (svd M).2.1.getD z 0) hU hV (Z := Finset.range r) fun z hz => Finset.mem_range.1 hz]
    rw [inner_eq hw hA hA]
    simp only [sumIdx_cons, sumIdx_nil, sum_pair]
    refine Finset.sum_congr rfl fun s' hs => Finset.sum_congr rfl fun i' hi => Finset.sum_congr rfl fun y hy => ?_
    have a := Finset.mem_range.1 hs
    have b := Finset.mem_range.1 hi
    have c := Finset.mem_range.1 hy
    rw [hE _ (pair_lt a b) y c, gM _ a _ b _ c]
  · rw [inner_pair wC sC (g := fun x y => ∑ z ∈ Finset.range r, (svd M).1.get [x, z] * (svd M).2.1.getD z 0 * VN z y) fC]
    exact G _ fun z hz => Finset.mem_range.1 hz
  · rw [inner_pair wC' sC' (g := fun x y => ∑ z ∈ Finset.range m, (svd M).1.get [x, z] * (svd M).2.1.getD z 0 * VN z y) fC']
    exact G _ fun z hz => lt_of_lt_of_le (Finset.mem_range.1 hz) hmr
  · intro D wD sD gD
    rw [inner_pair wD sD (g := fun x y => ∑ z ∈ Finset.Ico m r, (svd M).1.get [x, z] * (svd M).2.1.getD z 0 * VN z y)]
    · exact G _ fun z hz => (Finset.mem_Ico.1 hz).2
    · intro s' hs t' ht i' hi k' hk
      rw [gD _ (valid3 (pair_lt hs ht) hi hk), fC _ hs _ ht _ hi _ hk, fC' _ hs _ ht _ hi _ hk, Finset.sum_Ico_eq_sub _ hmr]

/-- The optimization of one site, whatever the norm of the state before: the result is normalized and has the least energy of all states
that differ from it in this site only. -/
theorem opt1_least {eig : EigFn ℝ} (hg : EigGround eig) {ds : List ℕ} {c b : ℕ → ℕ} {mpo mps : List (Nd ℝ)} (hs : Symmetric ds mpo)
    (hf : Fit ds c b mpo mps) {p : ℕ} (hp : p < ds.length) (hc : Centre 1 p mps) {L Rt W A : Nd ℝ} (hL : LeftOf mpo mps p L)
    (hR : RightOf mpo mps (p + 1) Rt) (hW : mpo[p]? = some W) (hA : mps[p]? = some A) (hw : A.Wf) :
    ∃ V, optOneSite eig L W Rt A = .ok V ∧ V.Wf ∧ V.shape = [ds.getD p 0, b p, b (p + 1)] ∧ inner V V = 1 ∧
      normSq ds (mps.take p ++ V :: mps.drop (p + 1)) = 1 ∧
      ∀ U : Nd ℝ, U.Wf → U.shape = [ds.getD p 0, b p, b (p + 1)] → normSq ds (mps.take p ++ U :: mps.drop (p + 1)) = 1 →
        energy ds mpo (mps.take p ++ V :: mps.drop (p + 1)) ≤ energy ds mpo (mps.take p ++ U :: mps.drop (p + 1)) := by
  have sL := (hL.env hf (by omega)).1
  have sR := (hR.env hf (by omega)).1
  have sW := hf.mpo.2 p W hW
  have sA := hf.mps.2 p A hA
  have vL := hL.get hf (by omega)
  have vR := hR.get hf (by omega)
  have key := fun (u v : Nd ℝ) (hu : u.shape = [ds.getD p 0, b p, b (p + 1)]) (hv : v.shape = [ds.getD p 0, b p, b (p + 1)]) =>
    chain_site hf hp vL vR hW hu hv
  have pos : 0 < ds.getD p 0 * b p * b (p + 1) :=
    Nat.mul_pos (Nat.mul_pos (hf.dpos p hp) (hf.pos p (by omega))) (hf.pos _ (by omega))
  obtain ⟨V, eV, wV, sV, nV, mV⟩ := optOneSite_least hg sL sW sR hw sA pos (by
    intro u v _ hu _ hv
    rw [← key u v hu hv, ← key v u hv hu]
    exact chain_symm hs _ _)
  refine ⟨V, eV, wV, sV, nV, by rw [hc.norm1 hf hp wV sV, nV], fun U wU sU hn => ?_⟩
  have := mV U wU sU (by rw [← hc.norm1 hf hp wU sU, hn])
  rw [← key V V sV sV, ← key U U sU sU] at this
  exact this

/-- What is kept along the first sweep to the right. -/
structure GoodT1 (ds : List ℕ) (p : ℕ) (st : State ℝ) : Prop where
  wf : ∀ A ∈ st.mps, A.Wf
  centre : Centre 1 p st.mps
  norm : normSq ds st.mps ≤ 1
  nlog : ∀ e ∈ st.log, normSq ds e.2.2.2 ≤ 1

theorem right1_trunc {svd : SvdFn ℝ} {eig : EigFn ℝ} (hsvd : SvdShape svd) (hex : SvdExact svd) (hiso : SvdIso svd) (he : EigSize eig)
    (hg : EigGround eig) {ds : List ℕ} {mpo : List (Nd ℝ)} (hs : Symmetric ds mpo) {trunc : ℕ} (ht : 0 < trunc) {p : ℕ}
    {st : State ℝ} (hinv : Inv ds mpo 1 p st) (hgood : GoodT1 ds p st) (hp : p + 1 < ds.length) :
    ∃ st', right1 svd eig mpo trunc st p = .ok st' ∧ Inv ds mpo 1 (p + 1) st' ∧ GoodT1 ds (p + 1) st' ∧ st'.log.length = st.log.length + 1 ∧
      (∀ k, k ≠ p + 1 → bond st'.mps k = bond st.mps k) ∧ bond st'.mps (p + 1) ≤ trunc := by
  obtain ⟨st₂, e₂, hinv₂, -⟩ := right1_ok hsvd he ht hinv hp
  refine ⟨st₂, e₂, hinv₂, ?_⟩
  obtain ⟨⟨c, b, hf⟩, hls, hrs, hlog⟩ := hinv
  have lm := hf.mps.1
  have lo := hf.mpo.1
  obtain ⟨L, ls, els, hL⟩ := hls.top
  obtain ⟨Rt, rs, ers, hR, hrs'⟩ := hrs.pop (by omega)
  have sL := (hL.env hf (by omega)).1
  have gA := List.getElem?_eq_getElem (show p < st.mps.length by omega)
  have gN := List.getElem?_eq_getElem (show p + 1 < st.mps.length by omega)
  have gW := List.getElem?_eq_getElem (show p < mpo.length by omega)
  have hA := hf.mps.2 p _ gA
  have hN := hf.mps.2 (p + 1) _ gN
  have hW := hf.mpo.2 p _ gW
  obtain ⟨V, eV, wV, sV, iV, nV, -⟩ := opt1_least hg hs hf (by omega) hgood.centre hL hR gW gA (hgood.wf _ (List.getElem_mem _))
  have pos1 : 0 < ds.getD p 0 * b p := Nat.mul_pos (hf.dpos p (by omega)) (hf.pos p (by omega))
  have hd : st.mps[p + 1] :: st.mps.drop (p + 2) = st.mps.drop (p + 1) := (List.drop_eq_getElem_cons (show p + 1 < st.mps.length by omega)).symm
  have cN : RightCanonical st.mps[p + 1] := hgood.centre.right _ (by rw [← hd]; exact List.mem_cons_self)
  obtain ⟨M, A', N', C, C', eM, -, -, -, wA', sA', wN', sN', cA', eC, eC', i1, -, i3, -⟩ := moveRight_trunc hsvd hex hiso wV sV hN pos1 cN trunc
  obtain ⟨L', eL, wL', sL', -⟩ := contractFromLeft_some sL sA' hW sA'
  have e : right1 svd eig mpo trunc st p =
      .ok ⟨(st.mps.set p A').set (p + 1) N', L' :: st.ls, rs, st.log ++ [(p, L, Rt, st.mps)]⟩ := by
    unfold right1
    simp only [els, ers, top, pop, ok_bind, item_some (show p < mpo.length by omega), item_some (show p < st.mps.length by omega),
      item_some (show p + 1 < st.mps.length by omega), eV, eM, eL]
    rfl
  rw [e₂] at e
  cases e
  have hb := bond_set2 hf hp sA' sN'
  have hc2 : Centre 2 p st.mps := ⟨hgood.centre.left, drop_tail hgood.centre.right (by omega)⟩
  have hn : normSq ds (st.mps.take p ++ A' :: N' :: st.mps.drop (p + 2)) ≤ 1 := by
    rw [hc2.norm2 hf hp sA' sN' eC', i3, ← iV, i1]
    refine Finset.sum_le_sum_of_subset_of_nonneg (Finset.range_subset_range.2 (min_le_left _ _)) fun _ _ _ => sq_nonneg _
  rw [set2 (by omega)]
  refine ⟨⟨forall_set2 hgood.wf wA' wN', ⟨?_, ?_⟩, hn, fun e hmem => ?_⟩, by simp, fun k hk => ?_, ?_⟩
  · rw [take_pair (by omega)]
    intro A hmem
    rcases List.mem_append.1 hmem with hmem | hmem
    · exact hgood.centre.left A hmem
    · obtain rfl := List.mem_singleton.1 hmem; exact cA'
  · rw [show p + 1 + 1 = p + (1 + 1) by omega, drop_pair (by omega)]
    change ∀ A ∈ st.mps.drop (p + 2), _
    exact drop_tail hgood.centre.right (by omega)
  · rcases List.mem_append.1 hmem with hmem | hmem
    · exact hgood.nlog e hmem
    · obtain rfl := List.mem_singleton.1 hmem
      exact hgood.norm
  · dsimp only; rw [hb, if_neg hk]
  · dsimp only; rw [hb, if_pos rfl]; exact min_le_right _ _

/-- A step to the left that does not truncate gives a normalized state, whatever the norm of the state before. -/
theorem left1_norm {svd : SvdFn ℝ} {eig : EigFn ℝ} (hsvd : SvdShape svd) (hex : SvdExact svd) (hiso : SvdIso svd) (he : EigSize eig)
    (hg : EigGround eig) {ds : List ℕ} {mpo : List (Nd ℝ)} (hs : Symmetric ds mpo) {trunc : ℕ} (ht : 0 < trunc) {p : ℕ}
    {st : State ℝ} (hinv : Inv ds mpo 1 (p + 1) st) (hgood : GoodT1 ds (p + 1) st) (hsmall : ∀ A ∈ st.mps, A.dim 2 ≤ trunc)
    (hp : p + 1 < ds.length) :
    ∃ st', left1 svd eig mpo trunc st (p + 1) = .ok st' ∧ Inv ds mpo 1 p st' ∧
      Good ds mpo trunc (energy ds mpo st'.mps) 1 p ⟨st'.mps, st'.ls, st'.rs, []⟩ ∧
      st'.log.length = st.log.length + 1 ∧ ∀ e ∈ st'.log, normSq ds e.2.2.2 ≤ 1 := by
  obtain ⟨st₂, e₂, hinv₂, -⟩ := left1_ok hsvd he ht hinv hp
  refine ⟨st₂, e₂, hinv₂, ?_⟩
  obtain ⟨⟨c, b, hf⟩, hls, hrs, hlog⟩ := hinv
  have lm := hf.mps.1
  have lo := hf.mpo.1
  obtain ⟨L, ls, els, hL, hls'⟩ := hls.pop
  obtain ⟨Rt, rs, ers, hR⟩ := hrs.top
  have sR := (hR.env hf (by omega)).1
  have gA := List.getElem?_eq_getElem (show p + 1 < st.mps.length by omega)
  have gN := List.getElem?_eq_getElem (show p < st.mps.length by omega)
  have gW := List.getElem?_eq_getElem (show p + 1 < mpo.length by omega)
  have hA := hf.mps.2 (p + 1) _ gA
  have hN := hf.mps.2 p _ gN
  have hW := hf.mpo.2 (p + 1) _ gW
  obtain ⟨V, eV, wV, sV, -, nV, -⟩ := opt1_least hg hs hf hp hgood.centre hL hR gW gA (hgood.wf _ (List.getElem_mem _))
  have pos1 : 0 < ds.getD (p + 1) 0 * b (p + 2) := Nat.mul_pos (hf.dpos _ (by omega)) (hf.pos _ (by omega))
  have hb : b (p + 1) ≤ trunc := by
    have := hsmall _ (List.getElem_mem (show p < st.mps.length by omega))
    simpa [Nd.dim, hN] using this
  have hb2 : b (p + 2) ≤ trunc := by
    have := hsmall _ (List.getElem_mem (show p + 1 < st.mps.length by omega))
    simpa [Nd.dim, hA] using this
  obtain ⟨A', N', C, eM, wA', sA', wN', sN', cA', eC, eC'⟩ := moveLeft_exact hsvd hex hiso sV hN pos1 (hf.dpos _ hp) (trunc := trunc)
    (le_trans (min_le_left _ _) hb)
  obtain ⟨R', eR, wR', sR', -⟩ := contractFromRight_some sR sA' hW sA'
  have e : left1 svd eig mpo trunc st (p + 1) =
      .ok ⟨(st.mps.set (p + 1) A').set p N', ls, R' :: st.rs, st.log ++ [(p + 1, L, Rt, st.mps)]⟩ := by
    unfold left1
    simp only [els, ers, top, pop, ok_bind, item_some (show p + 1 < mpo.length by omega), item_some (show p < st.mps.length by omega),
      item_some (show p + 1 < st.mps.length by omega), eV, eM, eR, Nat.add_sub_cancel]
    rfl
  rw [e₂] at e
  cases e
  have hset : (st.mps.set (p + 1) A').set p N' = st.mps.take p ++ N' :: A' :: st.mps.drop (p + 2) := by
    rw [← set2 (by omega)]; exact List.set_comm _ _ (by omega)
  obtain ⟨-, s2⟩ := hf.swap (mpo := mpo) hp hN sV sN' sA' eC eC'
  have hd : st.mps.take p ++ st.mps[p] :: V :: st.mps.drop (p + 2) = st.mps.take (p + 1) ++ V :: st.mps.drop (p + 2) := by
    rw [List.take_add_one, gN, List.append_assoc]; rfl
  rw [hd] at s2
  rw [hset]
  refine ⟨⟨forall_set2 hgood.wf wN' wA', fun _ => forall_set2 hsmall ?_ ?_, ⟨?_, ?_⟩, ?_, by simp, by simp⟩, by simp, fun e hmem => ?_⟩
  · have : N'.dim 2 = min (b (p + 1)) (ds.getD (p + 1) 0 * b (p + 2)) := by simp [Nd.dim, sN']
    rw [this]; exact le_trans (min_le_left _ _) hb
  · simpa [Nd.dim, sA'] using hb2
  · rw [take_pair0 (by omega)]
    exact take_tail hgood.centre.left (by omega)
  · rw [show p + 1 = p + (0 + 1) by omega, drop_pair (by omega)]
    intro A hmem
    rcases List.mem_cons.1 hmem with rfl | hmem
    · exact cA'
    · exact hgood.centre.right A hmem
  · dsimp only; rw [← s2]; exact nV
  · rcases List.mem_append.1 hmem with hmem | hmem
    · exact hgood.nlog e hmem
    · obtain rfl := List.mem_singleton.1 hmem
      exact hgood.norm

/-- The state with a longer history. -/
def addLog (l : List (ℕ × Nd ℝ × Nd ℝ × List (Nd ℝ))) (st : State ℝ) : State ℝ := ⟨st.mps, st.ls, st.rs, l ++ st.log⟩

theorem right1_addLog {svd : SvdFn ℝ} {eig : EigFn ℝ} {mpo : List (Nd ℝ)} {trunc i : ℕ} (l : List (ℕ × Nd ℝ × Nd ℝ × List (Nd ℝ))) {st st' : State ℝ}
    (h : right1 svd eig mpo trunc st i = .ok st') : right1 svd eig mpo trunc (addLog l st) i = .ok (addLog l st') := by
  unfold right1 at h ⊢
  simp only [addLog]
  obtain ⟨L, e1, h⟩ := bind_eq_ok.1 h
  obtain ⟨⟨Rt, rs⟩, e2, h⟩ := bind_eq_ok.1 h
  obtain ⟨W, e3, h⟩ := bind_eq_ok.1 h
  obtain ⟨A, e4, h⟩ := bind_eq_ok.1 h
  obtain ⟨V, e5, h⟩ := bind_eq_ok.1 h
  obtain ⟨N, e6, h⟩ := bind_eq_ok.1 h
  obtain ⟨⟨A', N'⟩, e7, h⟩ := bind_eq_ok.1 h
  obtain ⟨L', e8, h⟩ := bind_eq_ok.1 h
  cases h
  simp only [e1, e2, e3, e4, e5, e6, e7, e8, ok_bind, List.append_assoc]
  rfl

theorem left1_addLog {svd : SvdFn ℝ} {eig : EigFn ℝ} {mpo : List (Nd ℝ)} {trunc i : ℕ} (l : List (ℕ × Nd ℝ × Nd ℝ × List (Nd ℝ))) {st st' : State ℝ}
    (h : left1 svd eig mpo trunc st i = .ok st') : left1 svd eig mpo trunc (addLog l st) i = .ok (addLog l st') := by
  unfold left1 at h ⊢
  simp only [addLog]
  obtain ⟨L, e1, h⟩ := bind_eq_ok.1 h
  obtain ⟨⟨Rt, rs⟩, e2, h⟩ := bind_eq_ok.1 h
  obtain ⟨W, e3, h⟩ := bind_eq_ok.1 h
  obtain ⟨A, e4, h⟩ := bind_eq_ok.1 h
  obtain ⟨V, e5, h⟩ := bind_eq_ok.1 h
  obtain ⟨N, e6, h⟩ := bind_eq_ok.1 h
  obtain ⟨⟨A', N'⟩, e7, h⟩ := bind_eq_ok.1 h
  obtain ⟨L', e8, h⟩ := bind_eq_ok.1 h
  cases h
  simp only [e1, e2, e3, e4, e5, e6, e7, e8, ok_bind, List.append_assoc]
  rfl

theorem fold_log {α : Type} {step : State ℝ → α → Res (State ℝ)} {l : List (ℕ × Nd ℝ × Nd ℝ × List (Nd ℝ))}
    (hstep : ∀ st a st', step st a = .ok st' → step (addLog l st) a = .ok (addLog l st')) :
    ∀ (as : List α) {st st' : State ℝ}, as.foldlM step st = .ok st' → as.foldlM step (addLog l st) = .ok (addLog l st')
  | [], st, st', h => by cases h; rfl
  | a :: as, st, st', h => by
    rw [List.foldlM_cons] at h ⊢
    obtain ⟨st1, e1, h⟩ := bind_eq_ok.1 h
    rw [hstep _ _ _ e1, ok_bind]
    exact fold_log hstep as h

theorem sweep1_addLog {svd : SvdFn ℝ} {eig : EigFn ℝ} {mpo : List (Nd ℝ)} {trunc : ℕ} (l : List (ℕ × Nd ℝ × Nd ℝ × List (Nd ℝ))) {st st' : State ℝ}
    (h : sweep1 svd eig mpo trunc st = .ok st') : sweep1 svd eig mpo trunc (addLog l st) = .ok (addLog l st') := by
  unfold sweep1 at h ⊢
  obtain ⟨st1, e1, h⟩ := bind_eq_ok.1 h
  rw [fold_log (fun _ _ _ h => right1_addLog l h) _ e1, ok_bind]
  exact fold_log (fun _ _ _ h => left1_addLog l h) _ h

theorem Inv.noLog {ds : List ℕ} {mpo : List (Nd ℝ)} {w p : ℕ} {st : State ℝ} (h : Inv ds mpo w p st) : Inv ds mpo w p ⟨st.mps, st.ls, st.rs, []⟩ :=
  ⟨h.fit, h.ls, h.rs, by simp⟩

/-- The first sweep to the right and the first step back. -/
theorem first_sweep {svd : SvdFn ℝ} {eig : EigFn ℝ} (hsvd : SvdShape svd) (hex : SvdExact svd) (hiso : SvdIso svd) (he : EigSize eig)
    (hg : EigGround eig) {ds : List ℕ} {mpo : List (Nd ℝ)} (hs : Symmetric ds mpo) {trunc : ℕ} (ht : 0 < trunc) {st : State ℝ}
    (hinv : Inv ds mpo 1 0 st) (hgood : GoodT1 ds 0 st) (h0 : st.log = []) (hd : 2 ≤ ds.length) :
    ∃ l E₀ st', sweep1 svd eig mpo trunc st = .ok (addLog l st') ∧ l.length = ds.length ∧ (∀ e ∈ l, normSq ds e.2.2.2 ≤ 1) ∧
      Inv ds mpo 1 0 st' ∧ Good ds mpo trunc E₀ 1 0 st' := by
  obtain ⟨c, b, hf⟩ := hinv.fit
  have lo := hf.mpo.1
  obtain ⟨st1, e1, i1, g1, len1, small1⟩ := loopR
    (P := fun p st => Inv ds mpo 1 p st ∧ GoodT1 ds p st ∧ st.log.length = p ∧ ∀ k, 0 < k → k ≤ p → bond st.mps k ≤ trunc)
    (fun p st h hp => by
      obtain ⟨st', e, h1, h2, h3, h4, h5⟩ := right1_trunc hsvd hex hiso he hg hs ht h.1 h.2.1 hp
      refine ⟨st', e, h1, h2, by rw [h3, h.2.2.1], fun k hk hkp => ?_⟩
      by_cases hk' : k = p + 1
      · subst hk'; exact h5
      · rw [h4 k hk']; exact h.2.2.2 k hk (by omega)) ⟨hinv, hgood, by simp [h0], fun k hk hk' => by omega⟩ (ds.length - 1) (by omega)
  obtain ⟨c1, b1, hf1⟩ := i1.fit
  have lm := hf1.mps.1
  have small : ∀ A ∈ st1.mps, A.dim 2 ≤ trunc := by
    intro A hA
    obtain ⟨k, hk, rfl⟩ := List.getElem_of_mem hA
    have sA := hf1.mps.2 k _ (List.getElem?_eq_getElem hk)
    rw [show (st1.mps[k]).dim 2 = b1 (k + 1) by simp [Nd.dim, sA]]
    by_cases hk' : k + 1 < ds.length
    · have := small1 (k + 1) (by omega) (by omega)
      have hk2 : k + 1 < st1.mps.length := by omega
      have sB := hf1.mps.2 (k + 1) _ (List.getElem?_eq_getElem hk2)
      unfold bond at this
      rw [List.getD_eq_getElem _ _ hk2] at this
      simpa [Nd.dim, sB] using this
    · rw [show k + 1 = ds.length by omega, hf1.bn]; exact ht
  obtain ⟨p, hp⟩ : ∃ p, ds.length = p + 2 := ⟨ds.length - 2, by omega⟩
  rw [show ds.length - 1 = p + 1 by omega] at e1 i1 g1 len1
  obtain ⟨st2, e2, i2, g2, len2, n2⟩ := left1_norm hsvd hex hiso he hg hs ht i1 g1 small (by omega)
  obtain ⟨st3, e3, i3, g3⟩ := loopL (P := fun q st => Inv ds mpo 1 q st ∧ Good ds mpo trunc (energy ds mpo st2.mps) 1 q st)
    (fun q st h hq => left1_good hsvd hex hiso he hg hs ht h hq) p _ ⟨i2.noLog, g2⟩ (by omega)
  refine ⟨st2.log, _, st3, ?_, by rw [len2, len1, hp], n2, i3, g3⟩
  unfold sweep1
  rw [lo, show ds.length - 1 = p + 1 by omega, e1, ok_bind, range_filter, hf1.mps.1, show ds.length - (0 + 1) = p + 1 by omega,
    List.range'_concat, List.reverse_append]
  simp only [one_mul, List.reverse_cons, List.reverse_nil, List.nil_append, List.singleton_append, List.foldlM_cons]
  rw [show 0 + 1 + p = p + 1 by omega, e2, ok_bind]
  have := fold_log (l := st2.log) (fun _ _ _ h => left1_addLog (svd := svd) (eig := eig) (mpo := mpo) (trunc := trunc) st2.log h) _ e3
  simpa [addLog] using this

end Dmrg
