import Verif.Lemmas.DmrgDescent
import Mathlib.Topology.Order.MonotoneConvergence
import Mathlib.Topology.Instances.Real.Lemmas

/-!
The energies of DMRG after more and more sweeps.
-/

open scoped BigOperators
open Py

namespace Dmrg

/-! ### Sums -/

theorem sumIdx_mono {s : List ℕ} {f g : List ℕ → ℝ} (h : ∀ idx, Valid s idx → f idx ≤ g idx) : sumIdx s f ≤ sumIdx s g := by
  induction s generalizing f g with
  | nil => exact h [] (valid_nil_iff.2 rfl)
  | cons d ds ih =>
    rw [sumIdx_cons, sumIdx_cons]
    exact Finset.sum_le_sum fun k hk => ih fun idx hidx => h _ (valid_cons_iff.2 ⟨k, idx, rfl, Finset.mem_range.1 hk, hidx⟩)

theorem sumIdx_nonneg {s : List ℕ} {f : List ℕ → ℝ} (h : ∀ idx, Valid s idx → 0 ≤ f idx) : 0 ≤ sumIdx s f := by
  induction s generalizing f with
  | nil => exact h [] (valid_nil_iff.2 rfl)
  | cons d ds ih =>
    rw [sumIdx_cons]
    exact Finset.sum_nonneg fun k hk => ih fun idx hidx => h _ (valid_cons_iff.2 ⟨k, idx, rfl, Finset.mem_range.1 hk, hidx⟩)

theorem le_sumIdx {s : List ℕ} {f : List ℕ → ℝ} (h : ∀ idx, Valid s idx → 0 ≤ f idx) {p : List ℕ} (hp : Valid s p) : f p ≤ sumIdx s f := by
  induction s generalizing f p with
  | nil => rw [valid_nil_iff.1 hp]; exact le_refl _
  | cons d ds ih =>
    obtain ⟨k, idx, rfl, hk, hidx⟩ := valid_cons_iff.1 hp
    rw [sumIdx_cons]
    have h1 : ∀ k ∈ Finset.range d, ∀ idx, Valid ds idx → 0 ≤ f (k :: idx) :=
      fun k hk idx hidx => h _ (valid_cons_iff.2 ⟨k, idx, rfl, Finset.mem_range.1 hk, hidx⟩)
    refine le_trans (ih (f := fun is => f (k :: is)) (h1 k (Finset.mem_range.2 hk)) hidx) ?_
    exact Finset.single_le_sum (f := fun k => sumIdx ds fun is => f (k :: is)) (fun k hk => sumIdx_nonneg (h1 k hk)) (Finset.mem_range.2 hk)

/-- Every operator has a lower bound. -/
theorem exists_lower (ds : List ℕ) (O : List ℕ → List ℕ → ℝ) : ∃ lam : ℝ, ∀ f : List ℕ → ℝ,
    lam * sumIdx ds (fun σ => f σ * f σ) ≤ sumIdx ds fun σ => sumIdx ds fun τ => f σ * O σ τ * f τ := by
  refine ⟨-sumIdx ds fun σ => sumIdx ds fun τ => |O σ τ|, fun f => ?_⟩
  have e : (-sumIdx ds fun σ => sumIdx ds fun τ => |O σ τ|) * sumIdx ds (fun σ => f σ * f σ) =
      sumIdx ds fun σ => sumIdx ds fun τ => -sumIdx ds (fun σ => f σ * f σ) * |O σ τ| := by
    simp only [sumIdx_mul_left]
    ring
  rw [e]
  refine sumIdx_mono fun σ hσ => sumIdx_mono fun τ hτ => ?_
  have n0 : ∀ idx, Valid ds idx → 0 ≤ f idx * f idx := fun idx _ => mul_self_nonneg _
  have h1 := le_sumIdx n0 hσ
  have h2 := le_sumIdx n0 hτ
  obtain ⟨S, hS⟩ : ∃ S, S = sumIdx ds (fun σ => f σ * f σ) := ⟨_, rfl⟩
  rw [← hS] at h1 h2 ⊢
  have h3 : |f σ * f τ| ≤ S := by
    rw [abs_le]
    constructor <;> nlinarith [mul_self_nonneg (f σ - f τ), mul_self_nonneg (f σ + f τ)]
  have h4 : |f σ * O σ τ * f τ| = |f σ * f τ| * |O σ τ| := by
    rw [← abs_mul]; congr 1; ring
  have h5 := neg_abs_le (f σ * O σ τ * f τ)
  rw [h4] at h5
  nlinarith [abs_nonneg (O σ τ)]

/-! ### One step -/

section
variable {R : Type} [CommRing R] {svd : SvdFn R} {eig : EigFn R} {mpo : List (Nd R)} {trunc : ℕ} {st st' : State R} {i : ℕ}

theorem right1_log (h : right1 svd eig mpo trunc st i = .ok st') : ∃ k L Rt, (k, L, Rt, st.mps) ∈ st'.log := by
  unfold right1 at h
  simp only [bind_eq_ok] at h
  obtain ⟨L, -, ⟨Rt, rs⟩, -, _, -, _, -, _, -, _, -, _, -, _, -, h⟩ := h
  cases h
  exact ⟨i, L, Rt, by simp⟩

theorem left1_log (h : left1 svd eig mpo trunc st i = .ok st') : ∃ k L Rt, (k, L, Rt, st.mps) ∈ st'.log := by
  unfold left1 at h
  simp only [bind_eq_ok] at h
  obtain ⟨Rt, -, ⟨L, ls⟩, -, _, -, _, -, _, -, _, -, _, -, _, -, h⟩ := h
  cases h
  exact ⟨i, L, Rt, by simp⟩

theorem right2_log (h : right2 svd eig mpo trunc st i = .ok st') : ∃ k L Rt, (k, L, Rt, st.mps) ∈ st'.log := by
  unfold right2 at h
  simp only [bind_eq_ok] at h
  obtain ⟨L, -, ⟨Rt, rs⟩, -, _, -, _, -, _, -, _, -, _, -, _, -, _, -, _, -, _, -, _, -, _, -, h⟩ := h
  cases h
  exact ⟨i, L, Rt, by simp⟩

theorem left2_log (h : left2 svd eig mpo trunc st i = .ok st') : ∃ k L Rt, (k, L, Rt, st.mps) ∈ st'.log := by
  unfold left2 at h
  simp only [bind_eq_ok] at h
  obtain ⟨Rt, -, ⟨L, ls⟩, -, _, -, _, -, _, -, _, -, _, -, _, -, _, -, _, -, _, -, _, -, _, -, h⟩ := h
  cases h
  exact ⟨i - 1, L, Rt, by simp⟩

end

theorem Good.le {ds : List ℕ} {mpo : List (Nd ℝ)} {trunc : ℕ} {E₀ : ℝ} {w p : ℕ} {st : State ℝ} (h : Good ds mpo trunc E₀ w p st)
    {cur : List (Nd ℝ)} (hc : ∃ k L Rt, (k, L, Rt, cur) ∈ st.log) : energy ds mpo st.mps ≤ energy ds mpo cur := by
  obtain ⟨k, L, Rt, hc⟩ := hc
  have := (List.pairwise_append.1 (List.pairwise_cons.1 h.mono).2).2.2 (energy ds mpo cur) (List.mem_map.2 ⟨_, hc, rfl⟩) _ (List.mem_singleton.2 rfl)
  exact this

/-! ### One sweep -/

theorem sweep1_le {svd : SvdFn ℝ} {eig : EigFn ℝ} (hsvd : SvdShape svd) (hex : SvdExact svd) (hiso : SvdIso svd) (he : EigSize eig)
    (hg : EigGround eig) {ds : List ℕ} {mpo : List (Nd ℝ)} (hs : Symmetric ds mpo) {trunc : ℕ} (ht : 0 < trunc) {E₀ E : ℝ}
    {st : State ℝ} (h : (Inv ds mpo 1 0 st ∧ Good ds mpo trunc E₀ 1 0 st) ∧ energy ds mpo st.mps ≤ E) (hd : 1 ≤ ds.length) :
    ∃ st', sweep1 svd eig mpo trunc st = .ok st' ∧ ((Inv ds mpo 1 0 st' ∧ Good ds mpo trunc E₀ 1 0 st') ∧ energy ds mpo st'.mps ≤ E) := by
  obtain ⟨c, b, hf⟩ := h.1.1.fit
  have lo := hf.mpo.1
  obtain ⟨st1, e1, h1⟩ := loopR (P := fun p st => (Inv ds mpo 1 p st ∧ Good ds mpo trunc E₀ 1 p st) ∧ energy ds mpo st.mps ≤ E)
    (fun p st h hp => by
      obtain ⟨st', a, b⟩ := right1_good hsvd hex hiso he hg hs ht h.1 hp
      exact ⟨st', a, b, (b.2.le (right1_log a)).trans h.2⟩) h (ds.length - 1) (by omega)
  obtain ⟨st2, e2, h2⟩ := loopL (P := fun p st => (Inv ds mpo 1 p st ∧ Good ds mpo trunc E₀ 1 p st) ∧ energy ds mpo st.mps ≤ E)
    (fun p st h hp => by
      obtain ⟨st', a, b⟩ := left1_good hsvd hex hiso he hg hs ht h.1 hp
      exact ⟨st', a, b, (b.2.le (left1_log a)).trans h.2⟩) (ds.length - 1) st1 h1 (by omega)
  refine ⟨st2, ?_, h2⟩
  obtain ⟨c1, b1, hf1⟩ := h1.1.1.fit
  unfold sweep1
  rw [lo, e1, ok_bind, range_filter, hf1.mps.1]
  exact e2

theorem sweep2_le {svd : SvdFn ℝ} {eig : EigFn ℝ} (hsvd : SvdShape svd) (hex : SvdExact svd) (hiso : SvdIso svd) (he : EigSize eig)
    (hg : EigGround eig) {ds : List ℕ} {mpo : List (Nd ℝ)} (hs : Symmetric ds mpo) {trunc : ℕ} {E₀ E : ℝ}
    {st : State ℝ} (h : (Inv ds mpo 2 0 st ∧ Good ds mpo trunc E₀ 2 0 st) ∧ energy ds mpo st.mps ≤ E) (hd : 2 ≤ ds.length) :
    ∃ st', sweep2 svd eig mpo 0 st = .ok st' ∧ ((Inv ds mpo 2 0 st' ∧ Good ds mpo trunc E₀ 2 0 st') ∧ energy ds mpo st'.mps ≤ E) := by
  obtain ⟨c, b, hf⟩ := h.1.1.fit
  have lo := hf.mpo.1
  obtain ⟨st1, e1, h1⟩ := loopR (P := fun p st => (Inv ds mpo 2 p st ∧ Good ds mpo trunc E₀ 2 p st) ∧ energy ds mpo st.mps ≤ E)
    (fun p st h hp => by
      obtain ⟨st', a, b⟩ := right2_good hsvd hex hiso he hg hs h.1 hp
      exact ⟨st', a, b, (b.2.le (right2_log a)).trans h.2⟩) h (ds.length - 2) (by omega)
  obtain ⟨st2, e2, h2⟩ := loopL (P := fun p st => (Inv ds mpo 2 p st ∧ Good ds mpo trunc E₀ 2 p st) ∧ energy ds mpo st.mps ≤ E)
    (fun p st h hp => by
      obtain ⟨st', a, b⟩ := left2_good hsvd hex hiso he hg hs h.1 hp
      exact ⟨st', a, b, (b.2.le (left2_log a)).trans h.2⟩) (ds.length - 2) st1 h1 (by omega)
  refine ⟨st2, ?_, h2⟩
  obtain ⟨c1, b1, hf1⟩ := h1.1.1.fit
  unfold sweep2
  rw [lo, e1, ok_bind, range_filter, hf1.mps.1]
  exact e2

/-! ### All sweeps -/

/-- A sequence of states made by repeating a sweep that does not raise the energy. -/
theorem repeat_seq {P : State ℝ → Prop} {sweep : State ℝ → Res (State ℝ)} {en : State ℝ → ℝ}
    (hs : ∀ st E, P st → en st ≤ E → ∃ st', sweep st = .ok st' ∧ P st' ∧ en st' ≤ E) {st : State ℝ} (h : P st) :
    ∃ s : ℕ → State ℝ, (∀ n, (List.range n).foldlM (fun st _ => sweep st) st = .ok (s n) ∧ P (s n)) ∧ Antitone fun n => en (s n) := by
  have key : ∀ n, ∃ st', (List.range n).foldlM (fun st _ => sweep st) st = .ok st' ∧ P st' :=
    repeatP (fun st h => by obtain ⟨st', a, b, -⟩ := hs st _ h (le_refl _); exact ⟨st', a, b⟩) h
  choose s hs1 using key
  refine ⟨s, hs1, antitone_nat_of_succ_le fun n => ?_⟩
  obtain ⟨st', a, b, c⟩ := hs (s n) _ (hs1 n).2 (le_refl _)
  have h1 := (hs1 (n + 1)).1
  rw [List.range_succ, List.foldlM_append, (hs1 n).1, ok_bind, List.foldlM_cons, a, ok_bind] at h1
  cases h1
  exact c

theorem antitone_limit {e : ℕ → ℝ} (h : Antitone e) {lam : ℝ} (hl : ∀ n, lam ≤ e n) :
    ∃ E : ℝ, Filter.Tendsto e Filter.atTop (nhds E) ∧ ∀ n, E ≤ e n := by
  have hb : BddBelow (Set.range e) := ⟨lam, by rintro _ ⟨n, rfl⟩; exact hl n⟩
  exact ⟨⨅ n, e n, tendsto_atTop_ciInf h hb, fun n => ciInf_le hb n⟩

end Dmrg
