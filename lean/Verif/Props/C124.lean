import Verif.Lemmas.DmrgDescent
import Verif.Lemmas.DmrgExact
import Verif.Lemmas.DmrgLimit

/-!
C124: without truncation the energy of DMRG never rises, and it stays above the ground state energy.

`st.log` lists the optimizations in their order; its last component is the list of the matrices just before the optimization.
-/

open scoped BigOperators
open Py

namespace Dmrg

/-- `λ` is a lower bound of the operator: `λ ⟨f|f⟩ ≤ ⟨f|H|f⟩` for every vector `f` of the whole space. -/
def LowerBound (ds : List ℕ) (mpo : List (Nd ℝ)) (lam : ℝ) : Prop :=
  ∀ f : List ℕ → ℝ, lam * sumIdx ds (fun σ => f σ * f σ) ≤ sumIdx ds fun σ => sumIdx ds fun τ => f σ * operator mpo σ τ * f τ

theorem LowerBound.energy {ds : List ℕ} {mpo mps : List (Nd ℝ)} {lam : ℝ} (h : LowerBound ds mpo lam) (hn : normSq ds mps = 1) :
    lam ≤ energy ds mpo mps := by
  have := h (amplitude mps)
  change lam * normSq ds mps ≤ _ at this
  rw [hn, mul_one] at this
  exact this

theorem normSq_right {ds : List ℕ} {mps : List (Nd ℝ)} (hm : IsMps ds 1 1 mps) (hc : ∀ A ∈ mps, RightCanonical A) : normSq ds mps = 1 := by
  have := overlap_right hm hc 0 Nat.one_pos 0 Nat.one_pos
  rw [Finset.sum_range_one, if_pos rfl] at this
  exact this

/-- `dmrg1(mpo, initial_mps, trunc, sweeps)` with a symmetric operator, a right-canonical start, an exact eigensolver and exact singular
value decompositions, `trunc` being at least the bond dimensions of the start: for every chain and every number of sweeps it does not
fail, every state in between and the result are normalized, the energy of no state is above that of an earlier one (nor of the start),
and all energies are at least the ground state energy. The result is right-canonical except for its first matrix. -/
theorem C124_one_site {svd : SvdFn ℝ} {eig : EigFn ℝ} (hsvd : SvdShape svd) (hex : SvdExact svd) (hiso : SvdIso svd) (he : EigSize eig)
    (hg : EigGround eig) {ds : List ℕ} {mpo mps : List (Nd ℝ)} (hm : IsMps ds 1 1 mps) (ho : IsMpo ds ds 1 1 mpo)
    (hpos : ∀ A ∈ mps, ∀ n ∈ A.shape, 0 < n) (hd : ds ≠ []) (hw : ∀ A ∈ mps, A.Wf) (hs : Symmetric ds mpo)
    (hc : ∀ A ∈ mps, RightCanonical A) {trunc : ℕ} (ht : ∀ A ∈ mps, A.dim 2 ≤ trunc) (sweeps : ℕ) :
    ∃ st, dmrg1 svd eig mpo mps trunc sweeps = .ok st ∧ IsMps ds 1 1 st.mps ∧ normSq ds st.mps = 1 ∧
      (∀ i L Rt cur, (i, L, Rt, cur) ∈ st.log → normSq ds cur = 1) ∧
      (energy ds mpo mps :: (st.log.map (fun e => energy ds mpo e.2.2.2) ++ [energy ds mpo st.mps])).Pairwise (· ≥ ·) ∧
      (∀ lam, LowerBound ds mpo lam → lam ≤ energy ds mpo st.mps) ∧ ∀ A ∈ st.mps.drop 1, RightCanonical A := by
  obtain ⟨c, b, hf⟩ := Fit.of hm ho hpos hd
  have hd' : 0 < ds.length := List.length_pos_iff.2 hd
  have ht' : 0 < trunc := by
    have hl : 0 < mps.length := by rw [hf.mps.1]; exact hd'
    have h1 := ht _ (List.getElem_mem hl)
    have h2 := hf.mps.2 0 _ (List.getElem?_eq_getElem hl)
    have h3 := hf.pos 1 (by omega)
    have : (mps[0]).dim 2 = b 1 := by simp [Nd.dim, h2]
    omega
  obtain ⟨rs, e, hrs⟩ := contractRs_ok hf 0 (by omega)
  have h0 : Inv ds mpo 1 0 (⟨mps, [one3], rs, []⟩ : State ℝ) := ⟨⟨c, b, hf⟩, .base (LeftOf.zero _ _), hrs, by simp⟩
  have g0 : Good ds mpo trunc (energy ds mpo mps) 1 0 (⟨mps, [one3], rs, []⟩ : State ℝ) :=
    ⟨hw, fun _ => ht, ⟨by simp, fun A hA => hc A (List.mem_of_mem_drop hA)⟩, normSq_right hm hc, by simp, by simp⟩
  obtain ⟨st, e', h, g⟩ := repeatP (P := fun st => Inv ds mpo 1 0 st ∧ Good ds mpo trunc (energy ds mpo mps) 1 0 st)
    (fun st h => sweep1_good hsvd hex hiso he hg hs ht' h hd') ⟨h0, g0⟩ (sweeps / 2)
  obtain ⟨c', b', hf'⟩ := h.fit
  have hm' := hf'.mps.isMps
  rw [hf'.b0, hf'.bn] at hm'
  refine ⟨st, ?_, hm', g.norm, fun i L Rt cur hmem => g.nlog _ hmem, g.mono, fun lam hl => hl.energy g.norm, ?_⟩
  · unfold dmrg1
    rw [e, ok_bind]
    exact e'
  · have := g.centre.right
    simpa using this

/-- `dmrg2(mpo, initial_mps, sweeps=sweeps)`, without truncation, in the same way; here the bond dimensions may grow. -/
theorem C124_two_sites {svd : SvdFn ℝ} {eig : EigFn ℝ} (hsvd : SvdShape svd) (hex : SvdExact svd) (hiso : SvdIso svd) (he : EigSize eig)
    (hg : EigGround eig) {ds : List ℕ} {mpo mps : List (Nd ℝ)} (hm : IsMps ds 1 1 mps) (ho : IsMpo ds ds 1 1 mpo)
    (hpos : ∀ A ∈ mps, ∀ n ∈ A.shape, 0 < n) (hd : 2 ≤ ds.length) (hw : ∀ A ∈ mps, A.Wf) (hs : Symmetric ds mpo)
    (hc : ∀ A ∈ mps, RightCanonical A) (sweeps : ℕ) :
    ∃ st, dmrg2 svd eig mpo mps 0 sweeps = .ok st ∧ IsMps ds 1 1 st.mps ∧ normSq ds st.mps = 1 ∧
      (∀ i L Rt cur, (i, L, Rt, cur) ∈ st.log → normSq ds cur = 1) ∧
      (energy ds mpo mps :: (st.log.map (fun e => energy ds mpo e.2.2.2) ++ [energy ds mpo st.mps])).Pairwise (· ≥ ·) ∧
      (∀ lam, LowerBound ds mpo lam → lam ≤ energy ds mpo st.mps) ∧ ∀ A ∈ st.mps.drop 2, RightCanonical A := by
  obtain ⟨c, b, hf⟩ := Fit.of hm ho hpos (by rintro rfl; simp at hd)
  obtain ⟨rs, e, hrs⟩ := contractRs_ok hf 1 (by omega)
  have h0 : Inv ds mpo 2 0 (⟨mps, [one3], rs, []⟩ : State ℝ) := ⟨⟨c, b, hf⟩, .base (LeftOf.zero _ _), hrs, by simp⟩
  have g0 : Good ds mpo 0 (energy ds mpo mps) 2 0 (⟨mps, [one3], rs, []⟩ : State ℝ) :=
    ⟨hw, by omega, ⟨by simp, fun A hA => hc A (List.mem_of_mem_drop hA)⟩, normSq_right hm hc, by simp, by simp⟩
  obtain ⟨st, e', h, g⟩ := repeatP (P := fun st => Inv ds mpo 2 0 st ∧ Good ds mpo 0 (energy ds mpo mps) 2 0 st)
    (fun st h => sweep2_good hsvd hex hiso he hg hs h hd) ⟨h0, g0⟩ (sweeps / 2)
  obtain ⟨c', b', hf'⟩ := h.fit
  have hm' := hf'.mps.isMps
  rw [hf'.b0, hf'.bn] at hm'
  refine ⟨st, ?_, hm', g.norm, fun i L Rt cur hmem => g.nlog _ hmem, g.mono, fun lam hl => hl.energy g.norm, ?_⟩
  · unfold dmrg2
    rw [e, ok_bind]
    exact e'
  · have := g.centre.right
    simpa using this

/-- So with more and more sweeps the energies converge: there is an `E`, at least the ground state energy, that the energies of
`dmrg1(mpo, initial_mps, trunc, sweeps)` approach from above. (Whether it is the ground state energy depends on the start.) -/
theorem C124_converges_one_site {svd : SvdFn ℝ} {eig : EigFn ℝ} (hsvd : SvdShape svd) (hex : SvdExact svd) (hiso : SvdIso svd)
    (he : EigSize eig) (hg : EigGround eig) {ds : List ℕ} {mpo mps : List (Nd ℝ)} (hm : IsMps ds 1 1 mps) (ho : IsMpo ds ds 1 1 mpo)
    (hpos : ∀ A ∈ mps, ∀ n ∈ A.shape, 0 < n) (hd : ds ≠ []) (hw : ∀ A ∈ mps, A.Wf) (hs : Symmetric ds mpo)
    (hc : ∀ A ∈ mps, RightCanonical A) {trunc : ℕ} (ht : ∀ A ∈ mps, A.dim 2 ≤ trunc) :
    ∃ (e : ℕ → ℝ) (E : ℝ), (∀ sweeps, ∃ st, dmrg1 svd eig mpo mps trunc sweeps = .ok st ∧ energy ds mpo st.mps = e sweeps) ∧
      Antitone e ∧ Filter.Tendsto e Filter.atTop (nhds E) ∧ (∀ sweeps, E ≤ e sweeps) ∧ ∀ lam, LowerBound ds mpo lam → lam ≤ E := by
  obtain ⟨c, b, hf⟩ := Fit.of hm ho hpos hd
  have hd' : 0 < ds.length := List.length_pos_iff.2 hd
  have ht' : 0 < trunc := by
    have hl : 0 < mps.length := by rw [hf.mps.1]; exact hd'
    have h1 := ht _ (List.getElem_mem hl)
    have h2 := hf.mps.2 0 _ (List.getElem?_eq_getElem hl)
    have h3 := hf.pos 1 (by omega)
    have : (mps[0]).dim 2 = b 1 := by simp [Nd.dim, h2]
    omega
  obtain ⟨rs, e, hrs⟩ := contractRs_ok hf 0 (by omega)
  have h0 : Inv ds mpo 1 0 (⟨mps, [one3], rs, []⟩ : State ℝ) := ⟨⟨c, b, hf⟩, .base (LeftOf.zero _ _), hrs, by simp⟩
  have g0 : Good ds mpo trunc (energy ds mpo mps) 1 0 (⟨mps, [one3], rs, []⟩ : State ℝ) :=
    ⟨hw, fun _ => ht, ⟨by simp, fun A hA => hc A (List.mem_of_mem_drop hA)⟩, normSq_right hm hc, by simp, by simp⟩
  obtain ⟨s, s1, s2⟩ := repeat_seq (P := fun st => Inv ds mpo 1 0 st ∧ Good ds mpo trunc (energy ds mpo mps) 1 0 st)
    (en := fun st => energy ds mpo st.mps) (fun st E h hE => by
      obtain ⟨st', a, b⟩ := sweep1_le hsvd hex hiso he hg hs ht' ⟨h, hE⟩ hd'
      exact ⟨st', a, b.1, b.2⟩) ⟨h0, g0⟩
  obtain ⟨lam, hlam⟩ := exists_lower ds (operator mpo)
  have s3 : Antitone fun n => energy ds mpo (s (n / 2)).mps := fun m n h => s2 (Nat.div_le_div_right h)
  obtain ⟨E, h1, h2⟩ := antitone_limit s3 (lam := lam) fun n => LowerBound.energy hlam (s1 _).2.2.norm
  refine ⟨_, E, fun n => ⟨s (n / 2), ?_, rfl⟩, s3, h1, h2, fun lam hl => ge_of_tendsto' h1 fun n => hl.energy (s1 _).2.2.norm⟩
  unfold dmrg1
  rw [e, ok_bind]
  exact (s1 (n / 2)).1

/-- The same for `dmrg2(mpo, initial_mps, sweeps=sweeps)`, without truncation. -/
theorem C124_converges_two_sites {svd : SvdFn ℝ} {eig : EigFn ℝ} (hsvd : SvdShape svd) (hex : SvdExact svd) (hiso : SvdIso svd)
    (he : EigSize eig) (hg : EigGround eig) {ds : List ℕ} {mpo mps : List (Nd ℝ)} (hm : IsMps ds 1 1 mps) (ho : IsMpo ds ds 1 1 mpo)
    (hpos : ∀ A ∈ mps, ∀ n ∈ A.shape, 0 < n) (hd : 2 ≤ ds.length) (hw : ∀ A ∈ mps, A.Wf) (hs : Symmetric ds mpo)
    (hc : ∀ A ∈ mps, RightCanonical A) :
    ∃ (e : ℕ → ℝ) (E : ℝ), (∀ sweeps, ∃ st, dmrg2 svd eig mpo mps 0 sweeps = .ok st ∧ energy ds mpo st.mps = e sweeps) ∧
      Antitone e ∧ Filter.Tendsto e Filter.atTop (nhds E) ∧ (∀ sweeps, E ≤ e sweeps) ∧ ∀ lam, LowerBound ds mpo lam → lam ≤ E := by
  obtain ⟨c, b, hf⟩ := Fit.of hm ho hpos (by rintro rfl; simp at hd)
  obtain ⟨rs, e, hrs⟩ := contractRs_ok hf 1 (by omega)
  have h0 : Inv ds mpo 2 0 (⟨mps, [one3], rs, []⟩ : State ℝ) := ⟨⟨c, b, hf⟩, .base (LeftOf.zero _ _), hrs, by simp⟩
  have g0 : Good ds mpo 0 (energy ds mpo mps) 2 0 (⟨mps, [one3], rs, []⟩ : State ℝ) :=
    ⟨hw, by omega, ⟨by simp, fun A hA => hc A (List.mem_of_mem_drop hA)⟩, normSq_right hm hc, by simp, by simp⟩
  obtain ⟨s, s1, s2⟩ := repeat_seq (P := fun st => Inv ds mpo 2 0 st ∧ Good ds mpo 0 (energy ds mpo mps) 2 0 st)
    (en := fun st => energy ds mpo st.mps) (fun st E h hE => by
      obtain ⟨st', a, b⟩ := sweep2_le hsvd hex hiso he hg hs ⟨h, hE⟩ hd
      exact ⟨st', a, b.1, b.2⟩) ⟨h0, g0⟩
  obtain ⟨lam, hlam⟩ := exists_lower ds (operator mpo)
  have s3 : Antitone fun n => energy ds mpo (s (n / 2)).mps := fun m n h => s2 (Nat.div_le_div_right h)
  obtain ⟨E, h1, h2⟩ := antitone_limit s3 (lam := lam) fun n => LowerBound.energy hlam (s1 _).2.2.norm
  refine ⟨_, E, fun n => ⟨s (n / 2), ?_, rfl⟩, s3, h1, h2, fun lam hl => ge_of_tendsto' h1 fun n => hl.energy (s1 _).2.2.norm⟩
  unfold dmrg2
  rw [e, ok_bind]
  exact (s1 (n / 2)).1

/-- `energy` is what `mat_element(mps, mpo, mps)` returns, and `normSq` what it returns without operator. -/
theorem C124_energy {ds : List ℕ} {mpo mps : List (Nd ℝ)} (hm : IsMps ds 1 1 mps) (ho : IsMpo ds ds 1 1 mpo) :
    matElement mps (some mpo) mps = .ok (energy ds mpo mps) ∧ matElement mps none mps = .ok (normSq ds mps) :=
  ⟨C33_mat_element hm ho hm, C33_overlap hm hm⟩

/-- The assumptions on the libraries can be met, by the same functions for all chains. -/
theorem C124_exact_libraries : (∃ svd : SvdFn ℝ, SvdShape svd ∧ SvdExact svd ∧ SvdIso svd) ∧ ∃ eig : EigFn ℝ, EigSize eig ∧ EigGround eig :=
  ⟨exists_svd, exists_eig⟩

end Dmrg
