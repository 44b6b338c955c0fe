import Verif.Lemmas.DmrgBest1
import Verif.Props.C128

/-!
C129: truncation in one-site DMRG.
-/

open scoped BigOperators
open Py

namespace Dmrg

/-- `_move_right(A, N, trunc)` with an exact singular value decomposition, in a chain that is left-canonical on the left of the matrix `A`
and right-canonical on its right: it does not fail, `A` becomes left-canonical, the bond dimension at most `trunc`; with the singular values
`S` of the matrix of `A`, the squared norm of the state was the sum of all squares in `S`, now it is that of the first `trunc`, and the
squared distance of the two states is the sum of the other squares. -/
theorem C129_move_right {svd : SvdFn ℝ} (hsvd : SvdShape svd) (hex : SvdExact svd) (hiso : SvdIso svd) {ds : List ℕ} {mps : List (Nd ℝ)}
    (hm : IsMps ds 1 1 mps) (hpos : ∀ A ∈ mps, ∀ n ∈ A.shape, 0 < n) {p : ℕ} {A N : Nd ℝ} (hA : mps[p]? = some A) (hN : mps[p + 1]? = some N)
    (hw : A.Wf) (hl : ∀ A ∈ mps.take p, LeftCanonical A) (hr : ∀ A ∈ mps.drop (p + 1), RightCanonical A) (trunc : ℕ) :
    ∃ M A' N', moveRight svd A N trunc = .ok (A', N') ∧
      M.Wf ∧ M.shape = [A.dim 0 * A.dim 1, A.dim 2] ∧
      (∀ s < A.dim 0, ∀ i < A.dim 1, ∀ j < A.dim 2, M.get [s * A.dim 1 + i, j] = A.get [s, i, j]) ∧
      IsMps ds 1 1 ((mps.set p A').set (p + 1) N') ∧ LeftCanonical A' ∧ A'.dim 2 ≤ trunc ∧
      normSq ds mps = Truncation.weight (svd M).2.1 ∧
      normSq ds ((mps.set p A').set (p + 1) N') = Truncation.weight ((svd M).2.1.take trunc) ∧
      distSq ds mps ((mps.set p A').set (p + 1) N') = Truncation.weight ((svd M).2.1.drop trunc) := by
  obtain ⟨hp', -⟩ := List.getElem?_eq_some_iff.1 hN
  obtain ⟨mpo, ho⟩ := exists_mpo ds
  obtain ⟨c, b, hf⟩ := Fit.of hm ho hpos (by rintro rfl; cases mps <;> simp_all [IsMps])
  have lm := hf.mps.1
  have hp : p + 1 < ds.length := by omega
  have hc : Centre 2 p mps := ⟨hl, drop_tail hr (by omega)⟩
  have sA := hf.mps.2 p A hA
  have sN := hf.mps.2 (p + 1) N hN
  have p1 : 0 < ds.getD p 0 * b p := Nat.mul_pos (hf.dpos p (by omega)) (hf.pos p (by omega))
  have cN : RightCanonical N := hr N (List.mem_of_getElem? (i := 0) (by rw [List.getElem?_drop]; exact hN))
  obtain ⟨M, A', N', C, C', e, wM, sM, gM, wA, sA', wN, sN', cA, eC, eC', -, nC, nC', nD⟩ := moveRight_trunc hsvd hex hiso hw sA sN p1 cN trunc
  have a0 : A.dim 0 = ds.getD p 0 := by simp [Nd.dim, sA]
  have a1 : A.dim 1 = b p := by simp [Nd.dim, sA]
  have a2 : A.dim 2 = b (p + 1) := by simp [Nd.dim, sA]
  have hS := (hsvd M _ _ wM sM).1
  have e0 := split2 hA hN
  have hn : normSq ds mps = inner C C := by rw [← hc.norm2 hf hp sA sN eC, ← e0]
  have hd := hc.dist2 hf hp sA sN eC sA' sN' eC' (D := Nd.ofFn [ds.getD p 0 * ds.getD (p + 1) 0, b p, b (p + 2)] fun q => C.get q - C'.get q)
    (Nd.ofFn_wf _ _) rfl fun q hq => Nd.get_ofFn _ hq
  rw [nD _ (Nd.ofFn_wf _ _) rfl fun q hq => Nd.get_ofFn _ hq, ← hS, ← weight_drop, ← e0] at hd
  refine ⟨M, A', N', e, wM, by rw [sM, a0, a1, a2], by rw [a0, a1, a2]; exact gM, ?_⟩
  rw [set2 (by omega)]
  refine ⟨?_, cA, ?_, ?_, ?_, hd⟩
  · rw [split2 (getElem?_getD (show p < ds.length by omega)) (getElem?_getD hp)]
    exact isMps_append (hf.left (k := p) (by omega)).1 ⟨_, sA', b (p + 2), sN', (hf.right (k := p + 2) (by omega)).1⟩
  · rw [show A'.dim 2 = min (min (ds.getD p 0 * b p) (b (p + 1))) trunc by simp [Nd.dim, sA']]; exact min_le_right _ _
  · rw [hn, nC, weight_eq, hS]
  · rw [hc.norm2 hf hp sA' sN' eC', nC', weight_take, hS]

/-- With falling singular values this is the best possible: no other pair of matrices with a bond dimension of at most `trunc` between them
gives a state nearer to the state before. -/
theorem C129_best {svd : SvdFn ℝ} (hsvd : SvdShape svd) (hex : SvdExact svd) (hiso : SvdIso svd) (hsort : SvdSorted svd) {ds : List ℕ}
    {mps : List (Nd ℝ)} (hm : IsMps ds 1 1 mps) (hpos : ∀ A ∈ mps, ∀ n ∈ A.shape, 0 < n) {p : ℕ} {A N : Nd ℝ} (hA : mps[p]? = some A)
    (hN : mps[p + 1]? = some N) (hw : A.Wf) (hl : ∀ A ∈ mps.take p, LeftCanonical A) (hr : ∀ A ∈ mps.drop (p + 1), RightCanonical A) (trunc : ℕ) :
    ∃ A' N', moveRight svd A N trunc = .ok (A', N') ∧
      ∀ A₂ N₂ : Nd ℝ, IsMps ds 1 1 ((mps.set p A₂).set (p + 1) N₂) → A₂.dim 2 ≤ trunc →
        distSq ds mps ((mps.set p A').set (p + 1) N') ≤ distSq ds mps ((mps.set p A₂).set (p + 1) N₂) := by
  obtain ⟨M, A', N', e, wM, sM, gM, -, -, -, -, -, hd⟩ := C129_move_right hsvd hex hiso hm hpos hA hN hw hl hr trunc
  refine ⟨A', N', e, fun A₂ N₂ hm₂ hdim => ?_⟩
  rw [hd]
  obtain ⟨hp', -⟩ := List.getElem?_eq_some_iff.1 hN
  obtain ⟨mpo, ho⟩ := exists_mpo ds
  obtain ⟨c, b, hf⟩ := Fit.of hm ho hpos (by rintro rfl; cases mps <;> simp_all [IsMps])
  have lm := hf.mps.1
  have hp : p + 1 < ds.length := by omega
  have hc : Centre 2 p mps := ⟨hl, drop_tail hr (by omega)⟩
  have sA := hf.mps.2 p A hA
  have sN := hf.mps.2 (p + 1) N hN
  have cN : RightCanonical N := hr N (List.mem_of_getElem? (i := 0) (by rw [List.getElem?_drop]; exact hN))
  have a0 : A.dim 0 = ds.getD p 0 := by simp [Nd.dim, sA]
  have a1 : A.dim 1 = b p := by simp [Nd.dim, sA]
  have a2 : A.dim 2 = b (p + 1) := by simp [Nd.dim, sA]
  rw [a0, a1, a2] at sM gM
  rw [set2 (by omega)] at hm₂ ⊢
  obtain ⟨m₂, sA₂, sN₂⟩ := hf.pair hp hm₂
  obtain ⟨C, eC, wC, sC, gC⟩ := coarseGrainMps_ok sA sN
  obtain ⟨C₂, eC₂, wC₂, sC₂, gC₂⟩ := coarseGrainMps_ok sA₂ sN₂
  have hd₂ := hc.dist2 hf hp sA sN eC sA₂ sN₂ eC₂
    (D := Nd.ofFn [ds.getD p 0 * ds.getD (p + 1) 0, b p, b (p + 2)] fun q => C.get q - C₂.get q) (Nd.ofFn_wf _ _) rfl fun q hq => Nd.get_ofFn _ hq
  rw [← split2 hA hN] at hd₂
  have hm2 : m₂ ≤ trunc := by simpa [Nd.dim, sA₂] using hdim
  have hS := (hsvd M _ _ wM sM).1
  have hU := fun z hz w hw => (hiso M _ _ wM sM z hz w hw).1
  have hV := rows_mul sN cN fun z hz w hw => (hiso M _ _ wM sM z hz w hw).2
  obtain ⟨s0, s1⟩ := hsort M _ _ wM sM
  have key := EckartYoung.main (m := m₂) (U := fun x z => (svd M).1.get [x, z])
    (V := fun z q => ∑ y ∈ Finset.range (b (p + 1)), (svd M).2.2.get [z, y] * N.get [q / b (p + 2), y, q % b (p + 2)])
    (s := fun z => (svd M).2.1.getD z 0) hU hV (fun z hz => by
      rw [← hS] at hz
      rw [List.getD_eq_getElem _ _ hz]
      exact s0 _ (List.getElem_mem hz)) (fun z z' h h' => by
      rw [← hS] at h'
      rw [List.getD_eq_getElem _ _ h', List.getD_eq_getElem _ _ (lt_of_le_of_lt h h')]
      rcases Nat.lt_or_eq_of_le h with h | rfl
      · exact List.pairwise_iff_getElem.1 s1 z z' _ _ h
      · exact le_refl _)
    (fun x j => A₂.get [x / b p, x % b p, j]) (fun j y => N₂.get [y / b (p + 2), j, y % b (p + 2)])
  rw [hd₂, inner_pair (Nd.ofFn_wf _ _) rfl (g := fun x q => ∑ z ∈ Finset.range (min (ds.getD p 0 * b p) (b (p + 1))),
    (svd M).1.get [x, z] * (svd M).2.1.getD z 0 * (∑ y ∈ Finset.range (b (p + 1)), (svd M).2.2.get [z, y] * N.get [q / b (p + 2), y, q % b (p + 2)]) -
      ∑ j ∈ Finset.range m₂, A₂.get [x / b p, x % b p, j] * N₂.get [q / b (p + 2), j, q % b (p + 2)])]
  · simp only [← sq]
    refine le_trans ?_ key
    rw [weight_drop, hS]
    refine Finset.sum_le_sum_of_subset_of_nonneg (Finset.Ico_subset_Ico_left (min_le_min_left _ hm2)) fun _ _ _ => sq_nonneg _
  · intro s hs t ht i hi k hk
    have d1 : (s * b p + i) / b p = s := by
      rw [mul_comm, Nat.mul_add_div (by omega), Nat.div_eq_of_lt hi, add_zero]
    have d2 : (s * b p + i) % b p = i := by rw [mul_comm, Nat.mul_add_mod, Nat.mod_eq_of_lt hi]
    have d3 : (t * b (p + 2) + k) / b (p + 2) = t := by
      rw [mul_comm, Nat.mul_add_div (by omega), Nat.div_eq_of_lt hk, add_zero]
    have d4 : (t * b (p + 2) + k) % b (p + 2) = k := by rw [mul_comm, Nat.mul_add_mod, Nat.mod_eq_of_lt hk]
    rw [Nd.get_ofFn _ (valid3 (pair_lt hs ht) hi hk), gC _ hs _ ht _ hi _ hk, gC₂ _ hs _ ht _ hi _ hk]
    rw [d1, d2, d3, d4]
    congr 1
    simp only [Finset.mul_sum]
    rw [Finset.sum_comm]
    refine Finset.sum_congr rfl fun y hy => ?_
    rw [← gM s hs i hi y (Finset.mem_range.1 hy), ← hex M _ _ wM sM _ (pair_lt hs hi) y (Finset.mem_range.1 hy), Finset.sum_mul]
    exact Finset.sum_congr rfl fun z _ => by ring

/-- `dmrg1(mpo, initial_mps, trunc, sweeps)` with any positive truncation, at least two sites and at least two sweeps, a symmetric operator,
a right-canonical start, an exact eigensolver and exact singular value decompositions: it does not fail, all bond dimensions of the result
are at most `trunc`, the result is normalized, and right-canonical except for its first matrix. Truncation happens in the first sweep to the
right only, so that states in between have a norm of at most 1, those after the first optimization of the last site have norm 1 and their
energies never rise; and the energy of the result is at least the ground state energy. -/
theorem C129_one_site {svd : SvdFn ℝ} {eig : EigFn ℝ} (hsvd : SvdShape svd) (hex : SvdExact svd) (hiso : SvdIso svd) (he : EigSize eig)
    (hg : EigGround eig) {ds : List ℕ} {mpo mps : List (Nd ℝ)} (hm : IsMps ds 1 1 mps) (ho : IsMpo ds ds 1 1 mpo)
    (hpos : ∀ A ∈ mps, ∀ n ∈ A.shape, 0 < n) (hd : 2 ≤ ds.length) (hw : ∀ A ∈ mps, A.Wf) (hs : Symmetric ds mpo)
    (hc : ∀ A ∈ mps, RightCanonical A) {trunc : ℕ} (ht : 0 < trunc) {sweeps : ℕ} (h2 : 2 ≤ sweeps) :
    ∃ st, dmrg1 svd eig mpo mps trunc sweeps = .ok st ∧ IsMps ds 1 1 st.mps ∧ (∀ A ∈ st.mps, A.dim 2 ≤ trunc) ∧ normSq ds st.mps = 1 ∧
      (∀ A ∈ st.mps.drop 1, RightCanonical A) ∧ ds.length ≤ st.log.length ∧
      (∀ i L Rt cur, (i, L, Rt, cur) ∈ st.log → normSq ds cur ≤ 1) ∧
      (∀ i L Rt cur, (i, L, Rt, cur) ∈ st.log.drop ds.length → normSq ds cur = 1) ∧
      ((st.log.drop ds.length).map (fun e => energy ds mpo e.2.2.2) ++ [energy ds mpo st.mps]).Pairwise (· ≥ ·) ∧
      ∀ lam, LowerBound ds mpo lam → lam ≤ energy ds mpo st.mps := by
  obtain ⟨c, b, hf⟩ := Fit.of hm ho hpos (by rintro rfl; simp at hd)
  obtain ⟨rs, e, hrs⟩ := contractRs_ok hf 0 (by omega)
  have h0 : Inv ds mpo 1 0 (⟨mps, [one3], rs, []⟩ : State ℝ) := ⟨⟨c, b, hf⟩, .base (LeftOf.zero _ _), hrs, by simp⟩
  have g0 : GoodT1 ds 0 (⟨mps, [one3], rs, []⟩ : State ℝ) :=
    ⟨hw, ⟨by simp, fun A hA => hc A (List.mem_of_mem_drop hA)⟩, (normSq_right hm hc).le, by simp⟩
  obtain ⟨l, E₀, st1, e1, hl, nl, i1, g1⟩ := first_sweep hsvd hex hiso he hg hs ht h0 g0 rfl hd
  obtain ⟨n, hn⟩ : ∃ n, sweeps / 2 = n + 1 := ⟨sweeps / 2 - 1, by omega⟩
  obtain ⟨st, e', h, g⟩ := repeatP (P := fun st => Inv ds mpo 1 0 st ∧ Good ds mpo trunc E₀ 1 0 st)
    (fun st h => sweep1_good hsvd hex hiso he hg hs ht h (by omega)) ⟨i1, g1⟩ n
  obtain ⟨c', b', hf'⟩ := h.fit
  have hm' := hf'.mps.isMps
  rw [hf'.b0, hf'.bn] at hm'
  have hdrop : (l ++ st.log).drop ds.length = st.log := by rw [← hl, List.drop_left]
  refine ⟨addLog l st, ?_, hm', g.small rfl, g.norm, by simpa [addLog] using g.centre.right, by simp [addLog, hl], ?_, ?_, ?_, fun lam hl => hl.energy g.norm⟩
  · unfold dmrg1
    rw [e, ok_bind, hn, List.range_succ_eq_map, List.foldlM_cons, e1, ok_bind, List.foldlM_map]
    exact fold_log (l := l) (step := fun st (_ : ℕ) => sweep1 svd eig mpo trunc st) (fun _ _ _ h => sweep1_addLog l h) _ e'
  · intro i L Rt cur hmem
    rcases List.mem_append.1 hmem with hmem | hmem
    · exact nl _ hmem
    · exact (g.nlog _ hmem).le
  · dsimp only [addLog]; rw [hdrop]; exact fun i L Rt cur hmem => g.nlog _ hmem
  · dsimp only [addLog]; rw [hdrop]; exact (List.pairwise_cons.1 g.mono).2

/-- So with more and more sweeps the energies converge from above to a number that is at least the ground state energy. -/
theorem C129_converges {svd : SvdFn ℝ} {eig : EigFn ℝ} (hsvd : SvdShape svd) (hex : SvdExact svd) (hiso : SvdIso svd) (he : EigSize eig)
    (hg : EigGround eig) {ds : List ℕ} {mpo mps : List (Nd ℝ)} (hm : IsMps ds 1 1 mps) (ho : IsMpo ds ds 1 1 mpo)
    (hpos : ∀ A ∈ mps, ∀ n ∈ A.shape, 0 < n) (hd : 2 ≤ ds.length) (hw : ∀ A ∈ mps, A.Wf) (hs : Symmetric ds mpo)
    (hc : ∀ A ∈ mps, RightCanonical A) {trunc : ℕ} (ht : 0 < trunc) :
    ∃ (e : ℕ → ℝ) (E : ℝ), (∀ sweeps, 2 ≤ sweeps → ∃ st, dmrg1 svd eig mpo mps trunc sweeps = .ok st ∧ energy ds mpo st.mps = e sweeps) ∧
      Antitone e ∧ Filter.Tendsto e Filter.atTop (nhds E) ∧ (∀ sweeps, E ≤ e sweeps) ∧ ∀ lam, LowerBound ds mpo lam → lam ≤ E := by
  obtain ⟨c, b, hf⟩ := Fit.of hm ho hpos (by rintro rfl; simp at hd)
  obtain ⟨rs, e, hrs⟩ := contractRs_ok hf 0 (by omega)
  have h0 : Inv ds mpo 1 0 (⟨mps, [one3], rs, []⟩ : State ℝ) := ⟨⟨c, b, hf⟩, .base (LeftOf.zero _ _), hrs, by simp⟩
  have g0 : GoodT1 ds 0 (⟨mps, [one3], rs, []⟩ : State ℝ) :=
    ⟨hw, ⟨by simp, fun A hA => hc A (List.mem_of_mem_drop hA)⟩, (normSq_right hm hc).le, by simp⟩
  obtain ⟨l, E₀, st1, e1, hl, nl, i1, g1⟩ := first_sweep hsvd hex hiso he hg hs ht h0 g0 rfl hd
  obtain ⟨s, s1, s2⟩ := repeat_seq (P := fun st => Inv ds mpo 1 0 st ∧ Good ds mpo trunc E₀ 1 0 st)
    (en := fun st => energy ds mpo st.mps) (fun st E h hE => by
      obtain ⟨st', a, b⟩ := sweep1_le hsvd hex hiso he hg hs ht ⟨h, hE⟩ (by omega)
      exact ⟨st', a, b.1, b.2⟩) ⟨i1, g1⟩
  obtain ⟨lam, hlam⟩ := exists_lower ds (operator mpo)
  have s3 : Antitone fun n => energy ds mpo (s (n / 2 - 1)).mps := fun m n h => s2 (Nat.sub_le_sub_right (Nat.div_le_div_right h) 1)
  obtain ⟨E, h1, h2⟩ := antitone_limit s3 (lam := lam) fun n => LowerBound.energy hlam (s1 _).2.2.norm
  refine ⟨_, E, fun n hn => ⟨addLog l (s (n / 2 - 1)), ?_, rfl⟩, s3, h1, h2, fun lam hl => ge_of_tendsto' h1 fun n => hl.energy (s1 _).2.2.norm⟩
  unfold dmrg1
  rw [e, ok_bind, show n / 2 = n / 2 - 1 + 1 by omega, List.range_succ_eq_map, List.foldlM_cons, e1, ok_bind, List.foldlM_map]
  exact fold_log (l := l) (step := fun st (_ : ℕ) => sweep1 svd eig mpo trunc st) (fun _ _ _ h => sweep1_addLog l h) _ (s1 (n / 2 - 1)).1

/-- The operator `- ½ |Ω⟩⟨Ω|` on two sites, with `Ω = |00⟩ + |11⟩`. -/
noncomputable def exBell2 : List (Nd ℝ) :=
  [Nd.ofFn [1, 4, 2, 2] fun p => if p.getD 1 0 = 2 * p.getD 2 0 + p.getD 3 0 then 1 else 0,
   Nd.ofFn [4, 1, 2, 2] fun p => if p.getD 0 0 = 2 * p.getD 2 0 + p.getD 3 0 then -(1 / 2) else 0]

theorem exBell2_symmetric : Symmetric [2, 2] exBell2 := by
  have key : ∀ s < 2, ∀ t < 2, ∀ s' < 2, ∀ t' < 2, operator exBell2 [s, t] [s', t'] = if s = t ∧ s' = t' then -(1 / 2) else 0 := by
    intro s hs t ht s' hs' t' ht'
    have d1 : ∀ f : List ℕ → ℝ, (Nd.ofFn [1, 4, 2, 2] f).dim 1 = 4 := fun _ => rfl
    have d2 : ∀ f : List ℕ → ℝ, (Nd.ofFn [4, 1, 2, 2] f).dim 1 = 1 := fun _ => rfl
    have h1 : ∀ f : List ℕ → ℝ, ∀ q < 4, (Nd.ofFn [1, 4, 2, 2] f).get [0, q, s, s'] = f [0, q, s, s'] :=
      fun f q hq => Nd.get_ofFn _ (valid4 (by omega) hq hs hs')
    have h2 : ∀ f : List ℕ → ℝ, ∀ q < 4, (Nd.ofFn [4, 1, 2, 2] f).get [q, 0, t, t'] = f [q, 0, t, t'] :=
      fun f q hq => Nd.get_ofFn _ (valid4 hq (by omega) ht ht')
    unfold operator exBell2
    simp only [mpoProd, d1, d2, Finset.sum_range_one, List.headD_cons, List.tail_cons, if_true, mul_one]
    simp only [Finset.sum_range_succ, Finset.sum_range_zero, zero_add, h1 _ 0 (by omega), h1 _ 1 (by omega), h1 _ 2 (by omega), h1 _ 3 (by omega),
      h2 _ 0 (by omega), h2 _ 1 (by omega), h2 _ 2 (by omega), h2 _ 3 (by omega), List.getD_cons_zero, List.getD_cons_succ]
    clear d1 d2 h1 h2
    interval_cases s <;> interval_cases s' <;> interval_cases t <;> interval_cases t' <;> simp
  intro σ τ hσ hτ
  obtain ⟨s, σ, rfl, hs, hσ⟩ := valid_cons_iff.1 hσ
  obtain ⟨t, σ, rfl, ht, hσ⟩ := valid_cons_iff.1 hσ
  obtain rfl := valid_nil_iff.1 hσ
  obtain ⟨s', τ, rfl, hs', hτ⟩ := valid_cons_iff.1 hτ
  obtain ⟨t', τ, rfl, ht', hτ⟩ := valid_cons_iff.1 hτ
  obtain rfl := valid_nil_iff.1 hτ
  rw [key s hs t ht s' hs' t' ht', key s' hs' t' ht' s hs t ht]
  exact if_congr and_comm rfl rfl

/-- The entangled pair `3/5 |00⟩ + 4/5 |11⟩`, right-canonical. -/
noncomputable def exRightA : Nd ℝ := Nd.ofFn [2, 1, 2] fun p => if p.getD 0 0 = p.getD 2 0 then (if p.getD 0 0 = 0 then 3 / 5 else 4 / 5) else 0

noncomputable def exRightB : Nd ℝ := Nd.ofFn [2, 2, 1] fun p => if p.getD 0 0 = p.getD 1 0 then 1 else 0

theorem exRight_canonical : ∀ A ∈ [exRightA, exRightB], RightCanonical A := by
  intro A hA
  simp only [List.mem_cons, List.not_mem_nil, or_false] at hA
  rcases hA with rfl | rfl
  · have g : ∀ s < 2, ∀ j < 2, exRightA.get [s, 0, j] = if s = j then (if s = 0 then 3 / 5 else 4 / 5) else 0 :=
      fun s hs j hj => Nd.get_ofFn _ (valid3 hs (by omega) hj)
    intro x hx y hy
    obtain rfl : x = 0 := Nat.lt_one_iff.1 hx
    obtain rfl : y = 0 := Nat.lt_one_iff.1 hy
    rw [show exRightA.dim 0 = 2 from rfl, show exRightA.dim 2 = 2 from rfl]
    simp [Finset.sum_range_succ, g 0 (by omega) 0 (by omega), g 1 (by omega) 0 (by omega), g 0 (by omega) 1 (by omega), g 1 (by omega) 1 (by omega)]
    norm_num
  · have g : ∀ s < 2, ∀ j < 2, exRightB.get [s, j, 0] = if s = j then 1 else 0 :=
      fun s hs j hj => Nd.get_ofFn _ (valid3 hs hj (by omega))
    intro x hx y hy
    have hx : x < 2 := hx
    have hy : y < 2 := hy
    rw [show exRightB.dim 0 = 2 from rfl, show exRightB.dim 2 = 1 from rfl]
    simp only [Finset.sum_range_succ, Finset.sum_range_zero, zero_add, g 0 (by omega) _ hx, g 1 (by omega) _ hx, g 0 (by omega) _ hy, g 1 (by omega) _ hy]
    interval_cases x <;> interval_cases y <;> simp

/-- `C129_one_site` and `C129_move_right` for an entangled pair that does not fit into the bond dimension `trunc = 1`. -/
example : ∃ (svd : SvdFn ℝ) (eig : EigFn ℝ) (st : State ℝ), dmrg1 svd eig exBell2 [exRightA, exRightB] 1 2 = .ok st ∧
    exRightA.dim 2 = 2 ∧ normSq [2, 2] st.mps = 1 ∧ (∀ A ∈ st.mps, A.dim 2 ≤ 1) ∧
    ∃ M A' N', moveRight svd exRightA exRightB 1 = .ok (A', N') ∧ A'.dim 2 ≤ 1 ∧
      distSq [2, 2] [exRightA, exRightB] [A', N'] = Truncation.weight ((svd M).2.1.drop 1) := by
  obtain ⟨⟨svd, h1, h2, h3⟩, eig, h4, h5⟩ := C124_exact_libraries
  have hm : IsMps [2, 2] 1 1 [exRightA, exRightB] := ⟨2, rfl, 1, rfl, rfl⟩
  have hpos : ∀ A ∈ [exRightA, exRightB], ∀ n ∈ A.shape, 0 < n := by
    intro A hA n hn
    simp only [List.mem_cons, List.not_mem_nil, or_false] at hA
    rcases hA with rfl | rfl <;> simp [exRightA, exRightB, Nd.ofFn] at hn <;> omega
  obtain ⟨st, e, -, h6, h7, -⟩ := C129_one_site h1 h2 h3 h4 h5 hm (mpo := exBell2) ⟨4, rfl, 1, rfl, rfl⟩ hpos (by decide) (by
    intro A hA
    simp only [List.mem_cons, List.not_mem_nil, or_false] at hA
    rcases hA with rfl | rfl <;> exact Nd.ofFn_wf _ _) exBell2_symmetric exRight_canonical Nat.one_pos (le_refl 2)
  obtain ⟨M, A', N', e', -, -, -, -, -, h8, -, -, h9⟩ := C129_move_right h1 h2 h3 hm hpos (p := 0) rfl rfl (Nd.ofFn_wf _ _) (by simp)
    (fun A hA => exRight_canonical A (List.mem_of_mem_drop hA)) 1
  exact ⟨svd, eig, st, e, rfl, h7, h6, M, A', N', e', h8, h9⟩

/-- `C129_best` for the same pair: no product state is nearer. -/
example : ∃ (svd : SvdFn ℝ) (A' N' : Nd ℝ), moveRight svd exRightA exRightB 1 = .ok (A', N') ∧
    distSq [2, 2] [exRightA, exRightB] [A', N'] ≤ distSq [2, 2] [exRightA, exRightB] [exZero, exZero] := by
  obtain ⟨svd, h1, h2, h3, h4⟩ := exists_svd_sorted
  obtain ⟨A', N', e, h⟩ := C129_best h1 h2 h3 h4 (ds := [2, 2]) (mps := [exRightA, exRightB]) ⟨2, rfl, 1, rfl, rfl⟩ (by
    intro A hA n hn
    simp only [List.mem_cons, List.not_mem_nil, or_false] at hA
    rcases hA with rfl | rfl <;> simp [exRightA, exRightB, Nd.ofFn] at hn <;> omega) (p := 0) rfl rfl (Nd.ofFn_wf _ _) (by simp)
    (fun A hA => exRight_canonical A (List.mem_of_mem_drop hA)) 1
  exact ⟨svd, A', N', e, h exZero exZero ⟨1, rfl, 1, rfl, rfl⟩ (by decide)⟩

end Dmrg
