import Verif.Lemmas.DmrgTrunc
import Verif.Lemmas.DmrgSorted
import Verif.Model.DmrgError
import Verif.Props.C124
import Mathlib.Tactic.NormNum.BigOperators

/-!
C128: truncation in DMRG.
-/

open scoped BigOperators
open Py

namespace Dmrg

theorem weight_eq (l : List ℝ) : Truncation.weight l = ∑ z ∈ Finset.range l.length, l.getD z 0 ^ 2 := by
  unfold Truncation.weight
  induction l with
  | nil => simp
  | cons a l ih => rw [List.map_cons, List.sum_cons, ih, List.length_cons, Finset.sum_range_succ']; simp; ring

theorem weight_take (S : List ℝ) (m : ℕ) : Truncation.weight (S.take m) = ∑ z ∈ Finset.range (min S.length m), S.getD z 0 ^ 2 := by
  rw [weight_eq, List.length_take, min_comm]
  refine Finset.sum_congr rfl fun z hz => ?_
  have := Finset.mem_range.1 hz
  simp only [List.getD_eq_getElem?_getD, List.getElem?_take]
  rw [if_pos (by omega)]

theorem weight_append (l l' : List ℝ) : Truncation.weight (l ++ l') = Truncation.weight l + Truncation.weight l' := by
  simp [Truncation.weight]

theorem weight_drop (S : List ℝ) (m : ℕ) :
    Truncation.weight (S.drop m) = ∑ z ∈ Finset.Ico (min S.length m) S.length, S.getD z 0 ^ 2 := by
  have h1 := weight_append (S.take m) (S.drop m)
  rw [List.take_append_drop, weight_take, weight_eq S, ← Finset.sum_range_add_sum_Ico _ (min_le_left S.length m)] at h1
  linarith

/-- The squares of numbers that are not negative sum up to at most the square of their sum. -/
theorem weight_le (l : List ℝ) (h : ∀ x ∈ l, 0 ≤ x) : 0 ≤ l.sum ∧ Truncation.weight l ≤ l.sum ^ 2 := by
  unfold Truncation.weight
  induction l with
  | nil => simp
  | cons a l ih =>
    obtain ⟨h1, h2⟩ := ih fun x hx => h x (by simp [hx])
    have ha := h a (by simp)
    simp only [List.map_cons, List.sum_cons]
    refine ⟨by linarith, ?_⟩
    nlinarith [mul_nonneg ha h1]

/-- The identity operator. -/
theorem exists_mpo : ∀ ds : List ℕ, ∃ mpo : List (Nd ℝ), IsMpo ds ds 1 1 mpo
  | [] => ⟨[], rfl⟩
  | d :: ds => by
    obtain ⟨mpo, h⟩ := exists_mpo ds
    exact ⟨Nd.ofFn [1, 1, d, d] (fun _ => 0) :: mpo, 1, rfl, h⟩

/-- `fine_grain_mps(coarse_grain_mps(A, B), [A.shape[0], B.shape[0]], direction, trunc)` with an exact singular value decomposition,
in a chain that is left-canonical on the left of the pair and right-canonical on its right: it does not fail, the new bond dimension
is at most `trunc`; with the singular values `S` of the matrix of the pair, the squared norm of the state was the sum of all squares in
`S`, now it is that of the first `trunc`, and the squared distance of the two states is the sum of the other squares. If the singular
values are not negative, the distance is at most the compress error of `compress_svd`. -/
theorem C128_fine_grain {svd : SvdFn ℝ} (hsvd : SvdShape svd) (hex : SvdExact svd) (hiso : SvdIso svd) {ds : List ℕ} {mps : List (Nd ℝ)}
    (hm : IsMps ds 1 1 mps) (hpos : ∀ A ∈ mps, ∀ n ∈ A.shape, 0 < n) {p : ℕ} {A B C : Nd ℝ} (hA : mps[p]? = some A) (hB : mps[p + 1]? = some B)
    (hl : ∀ A ∈ mps.take p, LeftCanonical A) (hr : ∀ A ∈ mps.drop (p + 2), RightCanonical A) (eC : coarseGrainMps A B = .ok C)
    (toRight : Bool) {trunc : ℕ} (ht : 0 < trunc) :
    ∃ A' B' E, fineGrainMps svd C (A.dim 0) (B.dim 0) toRight trunc = .ok (A', B') ∧ PairMatrix A B E ∧
      IsMps ds 1 1 ((mps.set p A').set (p + 1) B') ∧ A'.dim 2 ≤ trunc ∧
      normSq ds mps = Truncation.weight (svd E).2.1 ∧
      normSq ds ((mps.set p A').set (p + 1) B') = Truncation.weight ((svd E).2.1.take trunc) ∧
      distSq ds mps ((mps.set p A').set (p + 1) B') = Truncation.weight ((svd E).2.1.drop trunc) ∧
      ((∀ s ∈ (svd E).2.1, 0 ≤ s) → 0 ≤ compressError (svd E).2.1 trunc ∧
        distSq ds mps ((mps.set p A').set (p + 1) B') ≤ compressError (svd E).2.1 trunc ^ 2) := by
  obtain ⟨hp', -⟩ := List.getElem?_eq_some_iff.1 hB
  obtain ⟨mpo, ho⟩ := exists_mpo ds
  obtain ⟨c, b, hf⟩ := Fit.of hm ho hpos (by rintro rfl; cases mps <;> simp_all [IsMps])
  have lm := hf.mps.1
  have hp : p + 1 < ds.length := by omega
  have hc : Centre 2 p mps := ⟨hl, hr⟩
  have sA := hf.mps.2 p A hA
  have sB := hf.mps.2 (p + 1) B hB
  have p1 : 0 < ds.getD p 0 * b p := Nat.mul_pos (hf.dpos p (by omega)) (hf.pos p (by omega))
  have p2 : 0 < ds.getD (p + 1) 0 * b (p + 2) := Nat.mul_pos (hf.dpos _ hp) (hf.pos _ (by omega))
  obtain ⟨_, e, wC, sC, gC⟩ := coarseGrainMps_ok sA sB
  rw [eC] at e; cases e
  obtain ⟨E, A', B', C', e, wE, sE, gE, wA, sA', wB, sB', eC', wC', sC', nC, nC', nD, -, -⟩ :=
    fineGrain_trunc hsvd hex hiso wC sC p1 p2 toRight trunc
  have a0 : A.dim 0 = ds.getD p 0 := by simp [Nd.dim, sA]
  have a1 : A.dim 1 = b p := by simp [Nd.dim, sA]
  have a2 : A.dim 2 = b (p + 1) := by simp [Nd.dim, sA]
  have b0 : B.dim 0 = ds.getD (p + 1) 0 := by simp [Nd.dim, sB]
  have b2 : B.dim 2 = b (p + 2) := by simp [Nd.dim, sB]
  have hS := (hsvd E _ _ wE sE).1
  have hk : keptBond (min (ds.getD p 0 * b p) (ds.getD (p + 1) 0 * b (p + 2))) trunc = min (svd E).2.1.length trunc := by
    rw [hS]; unfold keptBond; rw [if_pos (by omega)]
  rw [← hS] at nC
  rw [hk] at nC' sA' sB'
  have e0 := split2 hA hB
  have hn : normSq ds mps = inner C C := by rw [← hc.norm2 hf hp sA sB eC, ← e0]
  have hd := hc.dist2 hf hp sA sB eC sA' sB' eC' (D := Nd.ofFn [ds.getD p 0 * ds.getD (p + 1) 0, b p, b (p + 2)] fun q => C.get q - C'.get q)
    (Nd.ofFn_wf _ _) rfl fun q hq => Nd.get_ofFn _ hq
  rw [nD _ (Nd.ofFn_wf _ _) rfl fun q hq => Nd.get_ofFn _ hq, hk, ← hS, ← weight_drop, ← e0] at hd
  rw [a0, b0]
  refine ⟨A', B', E, e, ?_⟩
  rw [set2 (by omega)]
  refine ⟨⟨wE, by rw [sE, a0, a1, b0, b2], ?_⟩, ?_, ?_, ?_, ?_, hd, fun hS0 => ?_⟩
  · rw [a0, a1, b0, b2, a2]
    intro s hs i hi t ht k hk
    rw [gE _ hs _ ht _ hi _ hk, gC _ hs _ ht _ hi _ hk]
  · rw [split2 (getElem?_getD (show p < ds.length by omega)) (getElem?_getD hp)]
    exact isMps_append (hf.left (k := p) (by omega)).1 ⟨_, sA', b (p + 2), sB', (hf.right (k := p + 2) (by omega)).1⟩
  · rw [show A'.dim 2 = min (svd E).2.1.length trunc by simp [Nd.dim, sA']]; omega
  · rw [hn, nC, weight_eq]
  · rw [hc.norm2 hf hp sA' sB' eC', nC', weight_take]
  · rw [hd]
    have hdrop : (svd E).2.1.drop (min (svd E).2.1.length trunc) = (svd E).2.1.drop trunc := by
      rcases le_total (svd E).2.1.length trunc with h | h
      · rw [min_eq_left h, List.drop_length, List.drop_eq_nil_of_le h]
      · rw [min_eq_right h]
    unfold compressError
    simp only [hdrop]
    exact weight_le _ fun x hx => hS0 x (List.mem_of_mem_drop hx)

/-- With falling singular values this is the best possible: no other pair of matrices with a bond dimension of at most `trunc` between them
gives a state nearer to the state before. -/
theorem C128_best {svd : SvdFn ℝ} (hsvd : SvdShape svd) (hex : SvdExact svd) (hiso : SvdIso svd) (hsort : SvdSorted svd) {ds : List ℕ}
    {mps : List (Nd ℝ)} (hm : IsMps ds 1 1 mps) (hpos : ∀ A ∈ mps, ∀ n ∈ A.shape, 0 < n) {p : ℕ} {A B C : Nd ℝ} (hA : mps[p]? = some A)
    (hB : mps[p + 1]? = some B) (hl : ∀ A ∈ mps.take p, LeftCanonical A) (hr : ∀ A ∈ mps.drop (p + 2), RightCanonical A)
    (eC : coarseGrainMps A B = .ok C) (toRight : Bool) {trunc : ℕ} (ht : 0 < trunc) :
    ∃ A' B', fineGrainMps svd C (A.dim 0) (B.dim 0) toRight trunc = .ok (A', B') ∧
      ∀ A₂ B₂ : Nd ℝ, IsMps ds 1 1 ((mps.set p A₂).set (p + 1) B₂) → A₂.dim 2 ≤ trunc →
        distSq ds mps ((mps.set p A').set (p + 1) B') ≤ distSq ds mps ((mps.set p A₂).set (p + 1) B₂) := by
  obtain ⟨A', B', E, e, hE, -, -, -, -, hd, -⟩ := C128_fine_grain hsvd hex hiso hm hpos hA hB hl hr eC toRight ht
  refine ⟨A', B', e, fun A₂ B₂ hm₂ hdim => ?_⟩
  rw [hd]
  obtain ⟨hp', -⟩ := List.getElem?_eq_some_iff.1 hB
  obtain ⟨mpo, ho⟩ := exists_mpo ds
  obtain ⟨c, b, hf⟩ := Fit.of hm ho hpos (by rintro rfl; cases mps <;> simp_all [IsMps])
  have lm := hf.mps.1
  have hp : p + 1 < ds.length := by omega
  have hc : Centre 2 p mps := ⟨hl, hr⟩
  have sA := hf.mps.2 p A hA
  have sB := hf.mps.2 (p + 1) B hB
  have a0 : A.dim 0 = ds.getD p 0 := by simp [Nd.dim, sA]
  have a1 : A.dim 1 = b p := by simp [Nd.dim, sA]
  have a2 : A.dim 2 = b (p + 1) := by simp [Nd.dim, sA]
  have b0 : B.dim 0 = ds.getD (p + 1) 0 := by simp [Nd.dim, sB]
  have b2 : B.dim 2 = b (p + 2) := by simp [Nd.dim, sB]
  have gE := hE.get
  have sE := hE.shape
  rw [a0, a1, b0, b2] at sE gE
  rw [a2] at gE
  rw [set2 (by omega)] at hm₂ ⊢
  obtain ⟨m₂, sA₂, sB₂⟩ := hf.pair hp hm₂
  obtain ⟨_, eC', wC, sC, gC⟩ := coarseGrainMps_ok sA sB
  rw [eC] at eC'; cases eC'
  obtain ⟨C₂, eC₂, wC₂, sC₂, gC₂⟩ := coarseGrainMps_ok sA₂ sB₂
  have hd₂ := hc.dist2 hf hp sA sB eC sA₂ sB₂ eC₂
    (D := Nd.ofFn [ds.getD p 0 * ds.getD (p + 1) 0, b p, b (p + 2)] fun q => C.get q - C₂.get q) (Nd.ofFn_wf _ _) rfl fun q hq => Nd.get_ofFn _ hq
  rw [← split2 hA hB] at hd₂
  have hm2 : m₂ ≤ trunc := by simpa [Nd.dim, sA₂] using hdim
  have hS := (hsvd E _ _ hE.wf sE).1
  have hU := fun z hz w hw => (hiso E _ _ hE.wf sE z hz w hw).1
  have hV := fun z hz w hw => (hiso E _ _ hE.wf sE z hz w hw).2
  obtain ⟨s0, s1⟩ := hsort E _ _ hE.wf sE
  have key := EckartYoung.main (m := m₂) (U := fun x z => (svd E).1.get [x, z]) (V := fun z y => (svd E).2.2.get [z, y])
    (s := fun z => (svd E).2.1.getD z 0) hU hV (fun z hz => by
      rw [← hS] at hz
      rw [List.getD_eq_getElem _ _ hz]
      exact s0 _ (List.getElem_mem hz)) (fun z z' h h' => by
      rw [← hS] at h'
      rw [List.getD_eq_getElem _ _ h', List.getD_eq_getElem _ _ (lt_of_le_of_lt h h')]
      rcases Nat.lt_or_eq_of_le h with h | rfl
      · exact List.pairwise_iff_getElem.1 s1 z z' _ _ h
      · exact le_refl _)
    (fun x j => A₂.get [x / b p, x % b p, j]) (fun j y => B₂.get [y / b (p + 2), j, y % b (p + 2)])
  rw [hd₂, inner_pair (Nd.ofFn_wf _ _) rfl (g := fun x y => ∑ z ∈ Finset.range (min (ds.getD p 0 * b p) (ds.getD (p + 1) 0 * b (p + 2))),
    (svd E).1.get [x, z] * (svd E).2.1.getD z 0 * (svd E).2.2.get [z, y] -
      ∑ j ∈ Finset.range m₂, A₂.get [x / b p, x % b p, j] * B₂.get [y / b (p + 2), j, y % b (p + 2)])]
  · simp only [← sq]
    refine le_trans ?_ key
    rw [weight_drop, hS]
    refine Finset.sum_le_sum_of_subset_of_nonneg (Finset.Ico_subset_Ico_left (min_le_min_left _ hm2)) fun _ _ _ => sq_nonneg _
  · intro s hs t ht i hi k hk
    rw [Nd.get_ofFn _ (valid3 (pair_lt hs ht) hi hk), gC _ hs _ ht _ hi _ hk, gC₂ _ hs _ ht _ hi _ hk, ← gE _ hs _ hi _ ht _ hk,
      ← hex E _ _ hE.wf sE _ (pair_lt hs hi) _ (pair_lt ht hk)]
    have d1 : (s * b p + i) / b p = s := by
      rw [mul_comm, Nat.mul_add_div (by omega), Nat.div_eq_of_lt hi, add_zero]
    have d2 : (s * b p + i) % b p = i := by rw [mul_comm, Nat.mul_add_mod, Nat.mod_eq_of_lt hi]
    have d3 : (t * b (p + 2) + k) / b (p + 2) = t := by
      rw [mul_comm, Nat.mul_add_div (by omega), Nat.div_eq_of_lt hk, add_zero]
    have d4 : (t * b (p + 2) + k) % b (p + 2) = k := by rw [mul_comm, Nat.mul_add_mod, Nat.mod_eq_of_lt hk]
    rw [d1, d2, d3, d4]

/-- `dmrg2(mpo, initial_mps, trunc, sweeps)` with any truncation (the default is 10), a symmetric operator, a right-canonical start, an
exact eigensolver and exact singular value decompositions: for every chain and every number of sweeps it does not fail, and no state in
between nor the result has a norm above 1. If there are at least three sites and two sweeps, all bond dimensions of the result are at
most `trunc`, and the result comes from a normalized state `φ` that has the least energy of all states that differ from it in the second
and the third matrix only; its squared distance from `φ` is `1 - ⟨ψ|ψ⟩`. Missing: that the result is normalized, which is false. -/
theorem C128_two_sites_partial {svd : SvdFn ℝ} {eig : EigFn ℝ} (hsvd : SvdShape svd) (hex : SvdExact svd) (hiso : SvdIso svd)
    (he : EigSize eig) (hg : EigGround eig) {ds : List ℕ} {mpo mps : List (Nd ℝ)} (hm : IsMps ds 1 1 mps) (ho : IsMpo ds ds 1 1 mpo)
    (hpos : ∀ A ∈ mps, ∀ n ∈ A.shape, 0 < n) (hd : 2 ≤ ds.length) (hw : ∀ A ∈ mps, A.Wf) (hs : Symmetric ds mpo)
    (hc : ∀ A ∈ mps, RightCanonical A) (trunc sweeps : ℕ) :
    ∃ st, dmrg2 svd eig mpo mps trunc sweeps = .ok st ∧ IsMps ds 1 1 st.mps ∧ normSq ds st.mps ≤ 1 ∧
      (∀ i L Rt cur, (i, L, Rt, cur) ∈ st.log → normSq ds cur ≤ 1) ∧
      (3 ≤ ds.length → 2 ≤ sweeps → (0 < trunc → ∀ A ∈ st.mps.tail, A.dim 1 ≤ trunc) ∧
        ∃ φ, PairOptimum ds mpo st.mps 1 φ ∧ distSq ds φ st.mps = 1 - normSq ds st.mps) := by
  obtain ⟨c, b, hf⟩ := Fit.of hm ho hpos (by rintro rfl; simp at hd)
  obtain ⟨rs, e, hrs⟩ := contractRs_ok hf 1 (by omega)
  have h0 : Inv ds mpo 2 0 (⟨mps, [one3], rs, []⟩ : State ℝ) := ⟨⟨c, b, hf⟩, .base (LeftOf.zero _ _), hrs, by simp⟩
  have g0 : GoodT ds 0 (⟨mps, [one3], rs, []⟩ : State ℝ) :=
    ⟨hw, ⟨by simp, fun A hA => hc A (List.mem_of_mem_drop hA)⟩, (normSq_right hm hc).le, by simp⟩
  have main : ∀ n, ∃ st, (List.range n).foldlM (fun st _ => sweep2 svd eig mpo trunc st) (⟨mps, [one3], rs, []⟩ : State ℝ) = .ok st ∧
      Inv ds mpo 2 0 st ∧ GoodT ds 0 st ∧ (0 < n → 2 < ds.length → Cut ds mpo st.mps 1 ∧
        (0 < trunc → ∀ k, 0 < k → k < ds.length → bond st.mps k ≤ trunc)) := by
    intro n
    induction n with
    | zero => exact ⟨_, rfl, h0, g0, fun h => absurd h (by omega)⟩
    | succ n ih =>
      obtain ⟨st1, e1, i1, g1, -⟩ := ih
      obtain ⟨st2, e2, i2, g2, h2⟩ := sweep2_trunc hsvd hex hiso he hg hs trunc i1 g1 hd
      refine ⟨st2, ?_, i2, g2, fun _ => h2⟩
      rw [List.range_succ, List.foldlM_append, e1, ok_bind, List.foldlM_cons, e2, ok_bind]; rfl
  obtain ⟨st, e', h, g, hl⟩ := main (sweeps / 2)
  obtain ⟨c', b', hf'⟩ := h.fit
  have hm' := hf'.mps.isMps
  rw [hf'.b0, hf'.bn] at hm'
  refine ⟨st, ?_, hm', g.norm, fun i L Rt cur hmem => g.nlog _ hmem, fun h3 h2 => ?_⟩
  · unfold dmrg2
    rw [e, ok_bind]
    exact e'
  · obtain ⟨h4, h5⟩ := hl (by omega) (by omega)
    refine ⟨fun ht A hA => ?_, h4⟩
    obtain ⟨k, hk, rfl⟩ := List.getElem_of_mem hA
    have hk' : k + 1 < st.mps.length := by rw [List.length_tail] at hk; omega
    have := h5 ht (k + 1) (by omega) (by rw [← hf'.mps.1]; exact hk')
    unfold bond at this
    rw [List.getD_eq_getElem?_getD, List.getElem?_eq_getElem hk'] at this
    simpa [List.getElem_tail] using this

/-- The operator `- ½ 1 ⊗ |Ω⟩⟨Ω|` on three sites, with `Ω = |00⟩ + |11⟩`. -/
noncomputable def exBell : List (Nd ℝ) :=
  [Nd.ofFn [1, 1, 2, 2] fun p => if p.getD 2 0 = p.getD 3 0 then 1 else 0,
   Nd.ofFn [1, 4, 2, 2] fun p => if p.getD 1 0 = 2 * p.getD 2 0 + p.getD 3 0 then 1 else 0,
   Nd.ofFn [4, 1, 2, 2] fun p => if p.getD 0 0 = 2 * p.getD 2 0 + p.getD 3 0 then -(1 / 2) else 0]

theorem exBell_mpo : IsMpo [2, 2, 2] [2, 2, 2] 1 1 exBell := ⟨1, rfl, 4, rfl, 1, rfl, rfl⟩

theorem exBell_operator {a s t a' s' t' : ℕ} (ha : a < 2) (hs : s < 2) (ht : t < 2) (ha' : a' < 2) (hs' : s' < 2) (ht' : t' < 2) :
    operator exBell [a, s, t] [a', s', t'] = if a = a' ∧ s = t ∧ s' = t' then -(1 / 2) else 0 := by
  have d0 : ∀ f : List ℕ → ℝ, (Nd.ofFn [1, 1, 2, 2] f).dim 1 = 1 := fun _ => rfl
  have d1 : ∀ f : List ℕ → ℝ, (Nd.ofFn [1, 4, 2, 2] f).dim 1 = 4 := fun _ => rfl
  have d2 : ∀ f : List ℕ → ℝ, (Nd.ofFn [4, 1, 2, 2] f).dim 1 = 1 := fun _ => rfl
  have h0 : ∀ f : List ℕ → ℝ, (Nd.ofFn [1, 1, 2, 2] f).get [0, 0, a, a'] = f [0, 0, a, a'] :=
    fun f => Nd.get_ofFn _ (valid4 (by omega) (by omega) ha ha')
  have h1 : ∀ f : List ℕ → ℝ, ∀ q < 4, (Nd.ofFn [1, 4, 2, 2] f).get [0, q, s, s'] = f [0, q, s, s'] :=
    fun f q hq => Nd.get_ofFn _ (valid4 (by omega) hq hs hs')
  have h2 : ∀ f : List ℕ → ℝ, ∀ q < 4, (Nd.ofFn [4, 1, 2, 2] f).get [q, 0, t, t'] = f [q, 0, t, t'] :=
    fun f q hq => Nd.get_ofFn _ (valid4 hq (by omega) ht ht')
  unfold operator exBell
  simp only [mpoProd, d0, d1, d2, Finset.sum_range_one, List.headD_cons, List.tail_cons, if_true, mul_one, h0]
  simp only [Finset.sum_range_succ, Finset.sum_range_zero, zero_add, h1 _ 0 (by omega), h1 _ 1 (by omega), h1 _ 2 (by omega), h1 _ 3 (by omega),
    h2 _ 0 (by omega), h2 _ 1 (by omega), h2 _ 2 (by omega), h2 _ 3 (by omega), List.getD_cons_zero, List.getD_cons_succ]
  clear d0 d1 d2 h0 h1 h2
  interval_cases a <;> interval_cases a' <;> simp <;> interval_cases s <;> interval_cases s' <;> interval_cases t <;> interval_cases t' <;> simp

theorem exBell_symmetric : Symmetric [2, 2, 2] exBell := by
  intro σ τ hσ hτ
  obtain ⟨a, σ, rfl, ha, hσ⟩ := valid_cons_iff.1 hσ
  obtain ⟨s, σ, rfl, hs, hσ⟩ := valid_cons_iff.1 hσ
  obtain ⟨t, σ, rfl, ht, hσ⟩ := valid_cons_iff.1 hσ
  obtain rfl := valid_nil_iff.1 hσ
  obtain ⟨a', τ, rfl, ha', hτ⟩ := valid_cons_iff.1 hτ
  obtain ⟨s', τ, rfl, hs', hτ⟩ := valid_cons_iff.1 hτ
  obtain ⟨t', τ, rfl, ht', hτ⟩ := valid_cons_iff.1 hτ
  obtain rfl := valid_nil_iff.1 hτ
  rw [exBell_operator ha hs ht ha' hs' ht', exBell_operator ha' hs' ht' ha hs ht]
  refine if_congr ⟨fun h => ⟨h.1.symm, h.2.2, h.2.1⟩, fun h => ⟨h.1.symm, h.2.2, h.2.1⟩⟩ rfl rfl

theorem exBell_energy (mps : List (Nd ℝ)) : energy [2, 2, 2] exBell mps =
    -(1 / 2) * ((amplitude mps [0, 0, 0] + amplitude mps [0, 1, 1]) ^ 2 + (amplitude mps [1, 0, 0] + amplitude mps [1, 1, 1]) ^ 2) := by
  unfold energy
  have h : (sumIdx [2, 2, 2] fun σ => sumIdx [2, 2, 2] fun τ => amplitude mps σ * operator exBell σ τ * amplitude mps τ) =
      ∑ a ∈ Finset.range 2, ∑ s ∈ Finset.range 2, ∑ t ∈ Finset.range 2, ∑ a' ∈ Finset.range 2, ∑ s' ∈ Finset.range 2, ∑ t' ∈ Finset.range 2,
        amplitude mps [a, s, t] * (if a = a' ∧ s = t ∧ s' = t' then -(1 / 2) else 0) * amplitude mps [a', s', t'] := by
    simp only [sumIdx_cons, sumIdx_nil]
    refine Finset.sum_congr rfl fun a ha => Finset.sum_congr rfl fun s hs => Finset.sum_congr rfl fun t ht => Finset.sum_congr rfl fun a' ha' =>
      Finset.sum_congr rfl fun s' hs' => Finset.sum_congr rfl fun t' ht' => ?_
    rw [exBell_operator (Finset.mem_range.1 ha) (Finset.mem_range.1 hs) (Finset.mem_range.1 ht) (Finset.mem_range.1 ha') (Finset.mem_range.1 hs')
      (Finset.mem_range.1 ht')]
  rw [h]
  simp [Finset.sum_range_succ]
  ring

/-- The matrix of a site in the state `|0⟩`. -/
noncomputable def exZero : Nd ℝ := Nd.ofFn [2, 1, 1] fun p => if p.getD 0 0 = 0 then 1 else 0

theorem exZero_canonical : RightCanonical exZero := by
  have g : ∀ s < 2, exZero.get [s, 0, 0] = if s = 0 then 1 else 0 := fun s hs => Nd.get_ofFn _ (valid3 hs (by omega) (by omega))
  intro x hx y hy
  obtain rfl : x = 0 := Nat.lt_one_iff.1 hx
  obtain rfl : y = 0 := Nat.lt_one_iff.1 hy
  rw [show exZero.dim 0 = 2 from rfl, show exZero.dim 2 = 1 from rfl]
  simp [Finset.sum_range_succ, g 0 (by omega), g 1 (by omega)]

theorem exZero_mps : IsMps [2, 2, 2] 1 1 [exZero, exZero, exZero] := ⟨1, rfl, 1, rfl, 1, rfl, rfl⟩

/-- The amplitudes of three matrices. -/
theorem amplitude3 {X A B : Nd ℝ} {b m : ℕ} (hX : X.shape = [2, 1, b]) (hA : A.shape = [2, b, m]) (hB : B.shape = [2, m, 1]) (a s t : ℕ) :
    amplitude [X, A, B] [a, s, t] = ∑ i ∈ Finset.range b, X.get [a, 0, i] * ∑ j ∈ Finset.range m, A.get [s, i, j] * B.get [t, j, 0] := by
  have d1 : X.dim 2 = b := by simp [Nd.dim, hX]
  have d2 : A.dim 2 = m := by simp [Nd.dim, hA]
  have d3 : B.dim 2 = 1 := by simp [Nd.dim, hB]
  simp [amplitude, mpsProd, d1, d2, d3]

/-- `dmrg2` does not normalize what it truncates: for the symmetric operator above, from a right-canonical normalized product state, with
`trunc = 1` and two sweeps, the result has a norm below 1, with every exact eigensolver and every exact singular value decomposition. -/
theorem C128_norm_violated {svd : SvdFn ℝ} {eig : EigFn ℝ} (hsvd : SvdShape svd) (hex : SvdExact svd) (hiso : SvdIso svd)
    (he : EigSize eig) (hg : EigGround eig) :
    ∃ st, dmrg2 svd eig exBell [exZero, exZero, exZero] 1 2 = .ok st ∧ normSq [2, 2, 2] st.mps < 1 := by
  obtain ⟨st, e, hm, hn, -, H⟩ := C128_two_sites_partial hsvd hex hiso he hg exZero_mps exBell_mpo (by
      intro A hA; obtain rfl : A = exZero := by simpa using hA
      intro n hn; simp [exZero, Nd.ofFn] at hn; omega) (by decide) (by
      intro A hA; obtain rfl : A = exZero := by simpa using hA
      exact Nd.ofFn_wf _ _) exBell_symmetric (by
      intro A hA; obtain rfl : A = exZero := by simpa using hA
      exact exZero_canonical) 1 2
  refine ⟨st, e, lt_of_le_of_ne hn fun h1 => ?_⟩
  obtain ⟨hb, φ, ⟨hφ, -, -, hmin⟩, hdist⟩ := H (by decide) (by decide)
  have hb := hb Nat.one_pos
  rw [h1, sub_self] at hdist
  have hamp : ∀ σ, Valid [2, 2, 2] σ → amplitude φ σ = amplitude st.mps σ := by
    intro σ hσ
    have h2 := le_sumIdx (s := [2, 2, 2]) (f := fun σ => (amplitude φ σ - amplitude st.mps σ) ^ 2) (fun _ _ => sq_nonneg _) hσ
    have h3 : sumIdx [2, 2, 2] (fun σ => (amplitude φ σ - amplitude st.mps σ) ^ 2) = 0 := hdist
    rw [h3] at h2
    have h4 := pow_eq_zero_iff (two_ne_zero) |>.1 (le_antisymm h2 (sq_nonneg _))
    linarith
  have hE := energy_congr (mpo := exBell) hamp
  rw [hE] at hmin
  match hst : st.mps, hm with
  | [X, A, B], ⟨b1, sX, b2, sA, b3, sB, e3⟩ =>
    rw [hst] at hmin h1 hb
    obtain rfl : b3 = 1 := e3
    have hb1 : b1 ≤ 1 := by simpa [Nd.dim, sA] using hb A (by simp)
    have hb2 : b2 ≤ 1 := by simpa [Nd.dim, sB] using hb B (by simp)
    have ns : ∀ mps : List (Nd ℝ), normSq [2, 2, 2] mps =
        amplitude mps [0, 0, 0] ^ 2 + amplitude mps [0, 0, 1] ^ 2 + (amplitude mps [0, 1, 0] ^ 2 + amplitude mps [0, 1, 1] ^ 2) +
        (amplitude mps [1, 0, 0] ^ 2 + amplitude mps [1, 0, 1] ^ 2 + (amplitude mps [1, 1, 0] ^ 2 + amplitude mps [1, 1, 1] ^ 2)) := by
      intro mps
      unfold normSq
      simp only [sumIdx_cons, sumIdx_nil, Finset.sum_range_succ, Finset.sum_range_zero]
      ring
    obtain rfl : b1 = 1 := by
      rcases Nat.lt_or_eq_of_le hb1 with h | h
      · obtain rfl : b1 = 0 := by omega
        rw [ns] at h1
        simp only [amplitude3 sX sA sB, Finset.sum_range_zero] at h1
        norm_num at h1
      · exact h
    obtain rfl : b2 = 1 := by
      rcases Nat.lt_or_eq_of_le hb2 with h | h
      · obtain rfl : b2 = 0 := by omega
        rw [ns] at h1
        simp only [amplitude3 sX sA sB, Finset.sum_range_zero, mul_zero, Finset.sum_const_zero] at h1
        norm_num at h1
      · exact h
    have am := amplitude3 sX sA sB
    simp only [Finset.sum_range_one] at am
    rw [ns] at h1
    simp only [am] at h1
    have hpos : 0 < X.get [0, 0, 0] ^ 2 + X.get [1, 0, 0] ^ 2 := by
      rcases lt_or_eq_of_le (add_nonneg (sq_nonneg (X.get [0, 0, 0])) (sq_nonneg (X.get [1, 0, 0]))) with h | h
      · exact h
      · have h0 : X.get [0, 0, 0] = 0 := by nlinarith [sq_nonneg (X.get [0, 0, 0]), sq_nonneg (X.get [1, 0, 0])]
        have h0' : X.get [1, 0, 0] = 0 := by nlinarith [sq_nonneg (X.get [0, 0, 0]), sq_nonneg (X.get [1, 0, 0])]
        rw [h0, h0'] at h1; norm_num at h1
    obtain ⟨r, hr⟩ : ∃ r : ℝ, r ^ 2 * (X.get [0, 0, 0] ^ 2 + X.get [1, 0, 0] ^ 2) = 1 := by
      refine ⟨(Real.sqrt (X.get [0, 0, 0] ^ 2 + X.get [1, 0, 0] ^ 2))⁻¹, ?_⟩
      rw [inv_pow, Real.sq_sqrt hpos.le, inv_mul_cancel₀ hpos.ne']
    have sA₂ : (Nd.ofFn [2, 1, 2] fun p => if p.getD 0 0 = p.getD 2 0 then r else 0 : Nd ℝ).shape = [2, 1, 2] := rfl
    have sB₂ : (Nd.ofFn [2, 2, 1] fun p => if p.getD 0 0 = p.getD 1 0 then (if p.getD 0 0 = 0 then 3 / 5 else 4 / 5) else 0 : Nd ℝ).shape =
      [2, 2, 1] := rfl
    have am₂ : ∀ a s t : ℕ, s < 2 → t < 2 → amplitude [X, Nd.ofFn [2, 1, 2] fun p => if p.getD 0 0 = p.getD 2 0 then r else 0,
        Nd.ofFn [2, 2, 1] fun p => if p.getD 0 0 = p.getD 1 0 then (if p.getD 0 0 = 0 then 3 / 5 else 4 / 5) else 0] [a, s, t] =
        X.get [a, 0, 0] * (if s = t then r * (if s = 0 then 3 / 5 else 4 / 5) else 0) := by
      intro a s t hs ht
      rw [amplitude3 sX sA₂ sB₂, Finset.sum_range_one]
      congr 1
      rw [Finset.sum_congr rfl fun j hj => by
        rw [Nd.get_ofFn _ (valid3 hs (by omega) (Finset.mem_range.1 hj)), Nd.get_ofFn _ (valid3 ht (Finset.mem_range.1 hj) (by omega))]]
      interval_cases s <;> interval_cases t <;> simp [Finset.sum_range_succ]
    have := hmin _ _ ⟨1, sX, 2, sA₂, 1, sB₂, rfl⟩ (by
      change normSq [2, 2, 2] [X, _, _] = 1
      rw [ns]
      simp only [am₂ _ 0 0 (by omega) (by omega), am₂ _ 0 1 (by omega) (by omega), am₂ _ 1 0 (by omega) (by omega), am₂ _ 1 1 (by omega) (by omega)]
      simp
      linarith)
    change energy [2, 2, 2] exBell [X, A, B] ≤ energy [2, 2, 2] exBell [X, _, _] at this
    rw [exBell_energy, exBell_energy] at this
    simp only [am, am₂ _ 0 0 (by omega) (by omega), am₂ _ 1 1 (by omega) (by omega)] at this
    simp only [if_true, one_ne_zero, if_false] at this
    generalize X.get [0, 0, 0] = x0 at *
    generalize X.get [1, 0, 0] = x1 at *
    generalize A.get [0, 0, 0] = y0 at *
    generalize A.get [1, 0, 0] = y1 at *
    generalize B.get [0, 0, 0] = z0 at *
    generalize B.get [1, 0, 0] = z1 at *
    have k1 : (x0 ^ 2 + x1 ^ 2) * ((y0 ^ 2 + y1 ^ 2) * (z0 ^ 2 + z1 ^ 2)) = 1 := by linarith
    have k2 : (y0 * z0 + y1 * z1) ^ 2 ≤ (y0 ^ 2 + y1 ^ 2) * (z0 ^ 2 + z1 ^ 2) := by nlinarith [sq_nonneg (y0 * z1 - y1 * z0)]
    have k3 := mul_le_mul_of_nonneg_left k2 hpos.le
    nlinarith

/-- The assumptions of `C128_norm_violated` can be met. -/
example : ∃ (svd : SvdFn ℝ) (eig : EigFn ℝ) (st : State ℝ), dmrg2 svd eig exBell [exZero, exZero, exZero] 1 2 = .ok st ∧
    normSq [2, 2, 2] [exZero, exZero, exZero] = 1 ∧ normSq [2, 2, 2] st.mps < 1 := by
  obtain ⟨⟨svd, h1, h2, h3⟩, eig, h4, h5⟩ := C124_exact_libraries
  obtain ⟨st, e, h⟩ := C128_norm_violated h1 h2 h3 h4 h5
  refine ⟨svd, eig, st, e, normSq_right exZero_mps ?_, h⟩
  intro A hA; obtain rfl : A = exZero := by simpa using hA
  exact exZero_canonical

/-- The entangled pair `3/5 |00⟩ + 4/5 |11⟩`. -/
noncomputable def exPairA : Nd ℝ := Nd.ofFn [2, 1, 2] fun p => if p.getD 0 0 = p.getD 2 0 then 1 else 0

noncomputable def exPairB : Nd ℝ := Nd.ofFn [2, 2, 1] fun p => if p.getD 0 0 = p.getD 1 0 then (if p.getD 0 0 = 0 then 3 / 5 else 4 / 5) else 0

/-- `C128_fine_grain` and `C128_best` on the last two of three sites. -/
example : ∃ (svd : SvdFn ℝ) (C A' B' E : Nd ℝ), coarseGrainMps exPairA exPairB = .ok C ∧ fineGrainMps svd C 2 2 true 1 = .ok (A', B') ∧
    normSq [2, 2, 2] [exZero, exPairA, exPairB] = 1 ∧ normSq [2, 2, 2] [exZero, A', B'] = Truncation.weight ((svd E).2.1.take 1) ∧
    distSq [2, 2, 2] [exZero, exPairA, exPairB] [exZero, A', B'] = Truncation.weight ((svd E).2.1.drop 1) ∧
    distSq [2, 2, 2] [exZero, exPairA, exPairB] [exZero, A', B'] ≤ distSq [2, 2, 2] [exZero, exPairA, exPairB] [exZero, exZero, exZero] := by
  obtain ⟨svd, h1, h2, h3, h4⟩ := exists_svd_sorted
  obtain ⟨C, eC, -, -, -⟩ := coarseGrainMps_ok (A := exPairA) (B := exPairB) (s := 2) (t := 2) (i := 1) (j := 2) (k := 1) rfl rfl
  have g : ∀ s < 2, exZero.get [s, 0, 0] = if s = 0 then 1 else 0 := fun s hs => Nd.get_ofFn _ (valid3 hs (by omega) (by omega))
  have hm : IsMps [2, 2, 2] 1 1 [exZero, exPairA, exPairB] := ⟨1, rfl, 2, rfl, 1, rfl, rfl⟩
  have hpos : ∀ A ∈ [exZero, exPairA, exPairB], ∀ n ∈ A.shape, 0 < n := by
    intro A hA n hn
    simp only [List.mem_cons, List.not_mem_nil, or_false] at hA
    rcases hA with rfl | rfl | rfl <;> simp [exZero, exPairA, exPairB, Nd.ofFn] at hn <;> omega
  have hl : ∀ A ∈ [exZero, exPairA, exPairB].take 1, LeftCanonical A := by
    intro A hA
    obtain rfl : A = exZero := by simpa using hA
    intro x hx y hy
    obtain rfl : x = 0 := Nat.lt_one_iff.1 hx
    obtain rfl : y = 0 := Nat.lt_one_iff.1 hy
    rw [show exZero.dim 0 = 2 from rfl, show exZero.dim 1 = 1 from rfl]
    simp [Finset.sum_range_succ, g 0 (by omega), g 1 (by omega)]
  obtain ⟨A', B', E, e, -, -, -, hn, hn', hd, -⟩ := C128_fine_grain h1 h2 h3 hm hpos (p := 1) rfl rfl hl (by simp) eC true Nat.one_pos
  obtain ⟨A₁, B₁, e₁, hb⟩ := C128_best h1 h2 h3 h4 hm hpos (p := 1) rfl rfl hl (by simp) eC true Nat.one_pos
  rw [e] at e₁; cases e₁
  refine ⟨svd, C, A', B', E, eC, e, ?_, hn', hd, hb exZero exZero ⟨1, rfl, 1, rfl, 1, rfl, rfl⟩ (le_refl 1)⟩
  have am : ∀ a s t : ℕ, a < 2 → s < 2 → t < 2 → amplitude [exZero, exPairA, exPairB] [a, s, t] =
      (if a = 0 then 1 else 0) * (if s = t then (if s = 0 then 3 / 5 else 4 / 5) else 0) := by
    intro a s t ha hs ht
    rw [amplitude3 (b := 1) (m := 2) rfl rfl rfl, Finset.sum_range_one, g a ha]
    congr 1
    rw [Finset.sum_congr rfl fun j hj => by
      rw [show exPairA.get [s, 0, j] = _ from Nd.get_ofFn _ (valid3 hs (by omega) (Finset.mem_range.1 hj)),
        show exPairB.get [t, j, 0] = _ from Nd.get_ofFn _ (valid3 ht (Finset.mem_range.1 hj) (by omega))]]
    interval_cases s <;> interval_cases t <;> simp [Finset.sum_range_succ]
  unfold normSq
  simp only [sumIdx_cons, sumIdx_nil, Finset.sum_range_succ, Finset.sum_range_zero, zero_add, am _ _ _ Nat.zero_lt_two Nat.zero_lt_two Nat.zero_lt_two,
    am _ _ _ Nat.zero_lt_two Nat.zero_lt_two Nat.one_lt_two, am _ _ _ Nat.zero_lt_two Nat.one_lt_two Nat.zero_lt_two,
    am _ _ _ Nat.zero_lt_two Nat.one_lt_two Nat.one_lt_two, am _ _ _ Nat.one_lt_two Nat.zero_lt_two Nat.zero_lt_two,
    am _ _ _ Nat.one_lt_two Nat.zero_lt_two Nat.one_lt_two, am _ _ _ Nat.one_lt_two Nat.one_lt_two Nat.zero_lt_two,
    am _ _ _ Nat.one_lt_two Nat.one_lt_two Nat.one_lt_two]
  norm_num

end Dmrg
