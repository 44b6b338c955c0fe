import Verif.Props.C90
import Verif.Lemmas.Fourier
import Mathlib.Analysis.Normed.Algebra.MatrixExponential
import Mathlib.Analysis.Complex.Basic

/-! C91, C92: `PO_DVR.autocorrelation` and `PO_DVR.spectrum`. -/

open Py
open scoped BigOperators

namespace PoProp

variable {σ : Type}

/-- The sum of the squares of the entries (without complex conjugation). -/
noncomputable def squares (y : List ℂ) : ℂ := (y.map fun a => a * a).sum

private theorem dot_sums : ∀ y : List ℂ,
    (((List.zipWith (fun a b : ℝ => a * b) (y.map Complex.re) (y.map Complex.re)).sum : ℝ) : ℂ) -
      (((List.zipWith (fun a b : ℝ => a * b) (y.map Complex.im) (y.map Complex.im)).sum : ℝ) : ℂ) +
      2 * Complex.I * (((List.zipWith (fun a b : ℝ => a * b) (y.map Complex.re) (y.map Complex.im)).sum : ℝ) : ℂ) = squares y
  | [] => by simp [squares]
  | a :: y => by
    have ih := dot_sums y
    unfold squares at ih ⊢
    simp only [List.map_cons, List.zipWith_cons_cons, List.sum_cons] at ih ⊢
    rw [← ih]
    conv_rhs => rw [← Complex.re_add_im a]
    push_cast
    linear_combination (-((a.im : ℂ) * a.im)) * Complex.I_sq

private theorem auto_dot (y : List ℂ) : auto dot (y.map Complex.re) (y.map Complex.im) = .ok (squares y) := by
  rw [← dot_sums y]
  rfl

private theorem stop_ne (st : Ode.Status) (h : st = stopIteration true) : st ≠ .stopped := by
  rw [h]
  simp [stopIteration]

private theorem autoLoop_vals (pep479 : Bool) (d : List ℝ → List ℝ → Res ℝ) (t2 : ℝ) (v : ℕ → Yield) (a : ℕ → ℂ) (st : Ode.Status) : ∀ (K M : ℕ) (off : ℕ),
    (∀ i, auto d (v i).2.1 (v i).2.2 = .ok (a i)) → (∀ i < M, (v (off + i)).1 < t2) → (M < K → t2 ≤ (v (off + M)).1) →
    autoLoop pep479 d t2 ((List.range K).map fun i => v (off + i)) st =
      ((List.range (min K M)).map fun i => ((v (off + i)).1 * 2, a (off + i)), if K ≤ M then st else stopIteration pep479)
  | 0, M, off, _, _, _ => by simp [autoLoop]
  | K + 1, M, off, ha, h1, h2 => by
    rw [List.range_succ_eq_map, List.map_cons, List.map_map]
    rcases hv : v (off + 0) with ⟨tau, re, im⟩
    rw [autoLoop]
    have hv1 : (v (off + 0)).1 = tau := by rw [hv]
    cases M with
    | zero =>
      have := h2 (Nat.succ_pos _)
      rw [hv1] at this
      rw [if_pos this, if_neg (by omega)]
      simp
    | succ M =>
      have hlt := h1 0 (Nat.succ_pos _)
      rw [hv1] at hlt
      rw [if_neg (not_le.2 hlt)]
      have hau : auto d re im = .ok (a (off + 0)) := by
        have := ha (off + 0)
        rw [hv] at this
        exact this
      rw [hau]
      dsimp only
      have e : (List.range K).map ((fun i => v (off + i)) ∘ Nat.succ) = (List.range K).map fun i => v (off + 1 + i) := by
        refine List.map_congr_left fun i _ => ?_
        simp only [Function.comp_apply, Nat.succ_eq_add_one]
        congr 1
        omega
      rw [e, autoLoop_vals pep479 d t2 v a st K M (off + 1) ha
        (fun i hi => by
          have := h1 (i + 1) (by omega)
          rwa [show off + (i + 1) = off + 1 + i by omega] at this)
        (fun hk => by
          have := h2 (by omega)
          rwa [show off + (M + 1) = off + 1 + M by omega] at this)]
      dsimp only
      have hm : min (K + 1) (M + 1) = min K M + 1 := by omega
      rw [hm, List.range_succ_eq_map (n := min K M), List.map_cons, List.map_map]
      refine Prod.ext ?_ ?_
      · dsimp only
        congr 1
        · rw [hv1]
        · refine List.map_congr_left fun i _ => ?_
          simp only [Function.comp_apply, Nat.succ_eq_add_one]
          rw [show off + 1 + i = off + (i + 1) by omega]
      · dsimp only
        by_cases hk : K ≤ M
        · rw [if_pos hk, if_pos (by omega)]
        · rw [if_neg hk, if_neg (by omega)]

/-- The first `M` of the values of a run are those that `autocorrelation` uses: the times before half of `stop`. -/
def Before (E : Env σ) (S : ℕ → σ) (N M : ℕ) (stop : ℝ) : Prop :=
  M ≤ N + 1 ∧ (∀ i < M, E.t (S i) < stop / 2) ∧ (M ≤ N → stop / 2 ≤ E.t (S M))

/-- The whole iteration, for any product `d`. -/
theorem auto_run (E : Env σ) (pep479 : Bool) (const : Option ℝ) (d : List ℝ → List ℝ → Res ℝ) (init : List ℂ) (s0 : σ) (e0 : ℂ) (S : ℕ → σ) (N : ℕ)
    (h0 : E.energy init s0 = .ok e0) (hr : Run E s0 S N)
    (he : ∀ i ≤ N, ∃ e, E.energy (E.y (S i)) (S i) = .ok e ∧ Tolerated const e0 e) (stop : ℝ) (M : ℕ) (hM : Before E S N M stop)
    (a : ℕ → ℂ) (ha : ∀ i, auto d ((E.y (S i)).map Complex.re) ((E.y (S i)).map Complex.im) = .ok (a i)) (k : ℕ) :
    autocorrelation E pep479 const d init stop k s0 =
      ((List.range (min k M)).map fun i => (2 * E.t (S i), a i), if k ≤ M then .suspended else stopIteration pep479) := by
  obtain ⟨hM1, hM2, hM3⟩ := hM
  unfold autocorrelation
  obtain ⟨v1, v2⟩ := C90_values E pep479 const init s0 e0 S N h0 hr he k
  dsimp only
  rw [v1]
  have key := autoLoop_vals pep479 d (stop / 2) (fun i => valueAt E (S i)) a
    (propagation E pep479 const init k s0).2 (min k (N + 1)) M 0 ha
    (fun i hi => by rw [Nat.zero_add]; exact hM2 i hi)
    (fun hk => by rw [Nat.zero_add]; exact hM3 (by omega))
  simp only [Nat.zero_add] at key
  rw [key]
  refine Prod.ext ?_ ?_
  · dsimp only
    have hm : min (min k (N + 1)) M = min k M := by omega
    rw [hm]
    refine List.map_congr_left fun i _ => ?_
    rw [mul_comm]
    rfl
  · dsimp only
    by_cases hk : k ≤ M
    · rw [if_pos (by omega), if_pos hk]
      exact v2 (by omega)
    · rw [if_neg hk]
      by_cases hkn : min k (N + 1) ≤ M
      · rw [if_pos hkn]
        cases pep479 with
        | true => exact C90_end_violated E const init s0 e0 S N h0 hr he k (by omega)
        | false => exact C90_end_partial E const init s0 e0 S N h0 hr he k (by omega)
      · rw [if_neg hkn]

/-- **C91.** `autocorrelation` yields for the times `τ < stop / 2` of the propagation the doubled time and the sum of the squares of the
vector. -/
theorem C91_values (E : Env σ) (pep479 : Bool) (const : Option ℝ) (init : List ℂ) (s0 : σ) (e0 : ℂ) (S : ℕ → σ) (N : ℕ)
    (h0 : E.energy init s0 = .ok e0) (hr : Run E s0 S N)
    (he : ∀ i ≤ N, ∃ e, E.energy (E.y (S i)) (S i) = .ok e ∧ Tolerated const e0 e) (stop : ℝ) (M : ℕ) (hM : Before E S N M stop) (k : ℕ) :
    (autocorrelation E pep479 const dot init stop k s0).1 = (List.range (min k M)).map (fun i => (2 * E.t (S i), squares (E.y (S i)))) ∧
    (k ≤ M → (autocorrelation E pep479 const dot init stop k s0).2 = .suspended) := by
  rw [auto_run E pep479 const dot init s0 e0 S N h0 hr he stop M hM _ (fun i => auto_dot _) k]
  exact ⟨rfl, fun hk => if_pos hk⟩

/-- **C91.** If the propagation is exact, the Hamiltonian is symmetric and the initial vector `ψ` is real, this is the autocorrelation
function at the doubled time: `∑ⱼ ψⱼ(τ)² = ⟨ψ(0)|ψ(2τ)⟩` with `ψ(t) = exp(-i t H / ħ) ψ`. -/
theorem C91_doubled {n : ℕ} (H : Matrix (Fin n) (Fin n) ℂ) (hH : H.transpose = H) (ψ : Fin n → ℂ) (hψ : ∀ j, star (ψ j) = ψ j)
    (hbar tau : ℝ) :
    auto dot ((List.ofFn ((NormedSpace.exp ((-(Complex.I * tau / hbar)) • H)).mulVec ψ)).map Complex.re)
      ((List.ofFn ((NormedSpace.exp ((-(Complex.I * tau / hbar)) • H)).mulVec ψ)).map Complex.im) =
    .ok (∑ j, star (ψ j) * (NormedSpace.exp ((-(Complex.I * ((2 * tau : ℝ) : ℂ) / hbar)) • H)).mulVec ψ j) := by
  rw [auto_dot]
  congr 1
  set A : Matrix (Fin n) (Fin n) ℂ := (-(Complex.I * tau / hbar)) • H with hA
  have h2 : (-(Complex.I * ((2 * tau : ℝ) : ℂ) / hbar)) • H = A + A := by
    rw [hA, ← add_smul]
    congr 1
    push_cast
    ring
  rw [h2, Matrix.exp_add_of_commute A A (Commute.refl A)]
  have hT : (NormedSpace.exp A).transpose = NormedSpace.exp A := by
    rw [← Matrix.exp_transpose, hA, Matrix.transpose_smul, hH]
  have hs : squares (List.ofFn ((NormedSpace.exp A).mulVec ψ)) =
      ∑ j, (NormedSpace.exp A).mulVec ψ j * (NormedSpace.exp A).mulVec ψ j := by
    unfold squares
    rw [List.map_ofFn, List.sum_ofFn]
    rfl
  rw [hs]
  generalize NormedSpace.exp A = U at hT
  simp only [hψ]
  change U.mulVec ψ ⬝ᵥ U.mulVec ψ = ψ ⬝ᵥ (U * U).mulVec ψ
  rw [← Matrix.mulVec_mulVec, Matrix.dotProduct_mulVec ψ, ← Matrix.mulVec_transpose, hT]

/-- **C91.** Before Python 3.7 the iteration ends after these values. -/
theorem C91_end_partial (E : Env σ) (const : Option ℝ) (init : List ℂ) (s0 : σ) (e0 : ℂ) (S : ℕ → σ) (N : ℕ)
    (h0 : E.energy init s0 = .ok e0) (hr : Run E s0 S N)
    (he : ∀ i ≤ N, ∃ e, E.energy (E.y (S i)) (S i) = .ok e ∧ Tolerated const e0 e) (stop : ℝ) (M : ℕ) (hM : Before E S N M stop) (k : ℕ)
    (hk : M < k) : (autocorrelation E false const dot init stop k s0).2 = .stopped := by
  rw [auto_run E false const dot init s0 e0 S N h0 hr he stop M hM _ (fun i => auto_dot _) k]
  exact if_neg (by omega)

private theorem loop_never (E : Env σ) (const : Option ℝ) (e0 : ℂ) : ∀ (k : ℕ) (s : σ), (loop E true const e0 k s).2 ≠ .stopped
  | 0, s => by simp [loop]
  | k + 1, s => by
    rw [loop]
    split
    · simp
    · split
      · simp
      · split
        · simp [stopIteration]
        · dsimp only
          split
          · simp
          · split
            · simp [stopIteration]
            · simp
            · split
              · simp
              · exact loop_never E const e0 k _

private theorem autoLoop_never (d : List ℝ → List ℝ → Res ℝ) (t2 : ℝ) : ∀ (l : List Yield) (st : Ode.Status), st ≠ .stopped →
    (autoLoop true d t2 l st).2 ≠ .stopped
  | [], st, h => h
  | (tau, re, im) :: l, st, h => by
    rw [autoLoop]
    split
    · simp [stopIteration]
    · split
      · simp
      · exact autoLoop_never d t2 l st h

/-- Since Python 3.7 no iteration over `autocorrelation` ends without an exception, whatever the arguments and the solver are. -/
theorem C91_end_violated (E : Env σ) (const : Option ℝ) (d : List ℝ → List ℝ → Res ℝ) (init : List ℂ) (stop : ℝ) (k : ℕ) (s : σ) :
    (autocorrelation E true const d init stop k s).2 ≠ .stopped := by
  unfold autocorrelation
  refine autoLoop_never d _ _ _ ?_
  unfold propagation
  split
  · simp
  · split
    · simp
    · exact loop_never E const _ k s

/-- So `spectrum` never returns. -/
theorem C92_spectrum_violated (E : Env σ) (const : Option ℝ) (d : List ℝ → List ℝ → Res ℝ) (window : Option (ℝ → ℂ)) (init : List ℂ)
    (len : ℝ) (k : ℕ) (s : σ) : ∃ e, spectrum E true const d window init len k s = .error e := by
  unfold spectrum
  have h := C91_end_violated E const d init len k s
  generalize autocorrelation E true const d init len k s = p at h
  obtain ⟨l, st⟩ := p
  cases st with
  | suspended => exact ⟨_, rfl⟩
  | raised e => exact ⟨_, rfl⟩
  | stopped => exact absurd rfl h

/-- **C92.** Before Python 3.7 `spectrum` works on all values of the autocorrelation function. -/
theorem C92_spectrum_partial (E : Env σ) (const : Option ℝ) (window : Option (ℝ → ℂ)) (init : List ℂ) (s0 : σ) (e0 : ℂ) (S : ℕ → σ) (N : ℕ)
    (h0 : E.energy init s0 = .ok e0) (hr : Run E s0 S N)
    (he : ∀ i ≤ N, ∃ e, E.energy (E.y (S i)) (S i) = .ok e ∧ Tolerated const e0 e) (len : ℝ) (M : ℕ) (hM : Before E S N M len) (k : ℕ)
    (hk : M < k) : spectrum E false const dot window init len k s0 =
      spectrumOf window ((List.range M).map fun i => (2 * E.t (S i), squares (E.y (S i)))) := by
  unfold spectrum
  rw [auto_run E false const dot init s0 e0 S N h0 hr he len M hM _ (fun i => auto_dot _) k, if_neg (by omega), min_eq_right (by omega)]
  rfl

/-- The value that is transformed: with the window function, if there is one. -/
noncomputable def windowed (window : Option (ℝ → ℂ)) (p : ℝ × ℂ) : ℂ :=
  match window with
  | none => p.2
  | some w => p.2 * w p.1

private theorem ifft_inv (x : List ℂ) (j : ℕ) (hj : j < x.length) :
    ∑ k ∈ Finset.range x.length, (ifft x).getD k 0 * Complex.exp (-(2 * Real.pi * Complex.I * j * k / x.length)) = x.getD j 0 := by
  have hn : (x.length : ℂ) ≠ 0 := by
    have : x.length ≠ 0 := by omega
    exact_mod_cast this
  have e : ∀ k ∈ Finset.range x.length, (ifft x).getD k 0 * Complex.exp (-(2 * Real.pi * Complex.I * j * k / x.length)) =
      ∑ m ∈ Finset.range x.length, 1 / (x.length : ℂ) * x.getD m 0 * (Grids.zeta x.length ^ (m * k) * (Grids.zeta x.length)⁻¹ ^ (j * k)) := by
    intro k hk
    unfold ifft
    rw [Grids.map_getD _ (Finset.mem_range.1 hk), Grids.exp_neg_pow, Finset.mul_sum, Finset.sum_mul]
    refine Finset.sum_congr rfl fun m _ => ?_
    rw [Grids.exp_pow]
    ring
  rw [Finset.sum_congr rfl e, Finset.sum_comm]
  have e2 : ∀ m ∈ Finset.range x.length, (∑ k ∈ Finset.range x.length, 1 / (x.length : ℂ) * x.getD m 0 *
      (Grids.zeta x.length ^ (m * k) * (Grids.zeta x.length)⁻¹ ^ (j * k))) = if m = j then x.getD j 0 else 0 := by
    intro m hm
    rw [← Finset.mul_sum, Grids.zeta_sum (Finset.mem_range.1 hm) hj]
    by_cases h : m = j
    · subst h
      rw [if_pos rfl, if_pos rfl]
      field_simp
    · rw [if_neg h, if_neg h, mul_zero]
  rw [Finset.sum_congr rfl e2, Finset.sum_ite_eq' (Finset.range x.length) j, if_pos (Finset.mem_range.2 hj)]

/-- **C92.** For equidistant times `0, τ, 2τ, ...` (up to `1e-8`) the result is the decomposition of the (windowed) autocorrelation function
into oscillations: `C(j τ) = ∑ₖ σₖ exp(-i ωₖ j τ)` with the frequencies `ωₖ = 2 π k / (n τ)`. -/
theorem C92_decomposition (window : Option (ℝ → ℂ)) (l : List (ℝ × ℂ)) (tau : ℝ) (h2 : 2 ≤ l.length) (ht : tau ≠ 0)
    (hend : (l.map Prod.fst).getLastD 0 - (l.map Prod.fst).headD 0 = tau * ((l.length : ℝ) - 1))
    (hu : ∀ (j : ℕ) (t : ℝ) (c : ℂ), l[j]? = some (t, c) → |t - j * tau| < 1e-8) :
    ∃ freq sigma, spectrumOf window l = .ok (freq, sigma) ∧ freq.length = l.length ∧ sigma.length = l.length ∧
      (∀ k < l.length, freq.getD k 0 = 2 * Real.pi * k / (l.length * tau)) ∧
      ∀ (j : ℕ) (p : ℝ × ℂ), l[j]? = some p →
        windowed window p = ∑ k ∈ Finset.range l.length, sigma.getD k 0 * Complex.exp (-(Complex.I * freq.getD k 0 * (j * tau))) := by
  have hn0 : (l.length : ℝ) ≠ 0 := by
    have : l.length ≠ 0 := by omega
    exact_mod_cast this
  have hn1 : (l.length : ℝ) - 1 ≠ 0 := by
    have h : (2 : ℝ) ≤ l.length := by exact_mod_cast h2
    linarith
  have hd : Corr.rdiv ((l.map Prod.fst).getLastD 0 - (l.map Prod.fst).headD 0) ((l.length : ℝ) - 1) = .ok tau := by
    unfold Corr.rdiv
    rw [if_neg hn1, hend, mul_div_assoc, div_self hn1, mul_one]
  have hun : ((l.map Prod.fst).zipIdx.all fun p => decide (|p.1 - (p.2 : ℝ) * tau| < 1e-8)) = true := by
    rw [List.all_eq_true]
    intro p hp
    obtain ⟨i, hi, rfl⟩ := List.mem_iff_getElem.1 hp
    have hi' : i < l.length := by simpa using hi
    rw [List.getElem_zipIdx, List.getElem_map]
    simp only [Nat.zero_add, decide_eq_true_eq]
    exact hu i l[i].1 l[i].2 (by rw [List.getElem?_eq_getElem hi'])
  have ho : Corr.rdiv (2 * Real.pi / (l.length : ℝ)) tau = .ok (2 * Real.pi / (l.length : ℝ) / tau) := by
    unfold Corr.rdiv
    rw [if_neg ht]
  have hfreq : ∀ k < l.length, ((List.range l.length).map fun k : ℕ => (k : ℝ) * (2 * Real.pi / (l.length : ℝ) / tau)).getD k 0 =
      2 * Real.pi * k / (l.length * tau) := by
    intro k hk
    rw [List.getD_eq_getElem _ _ (by simpa using hk), List.getElem_map, List.getElem_range]
    field_simp
  refine ⟨_, ifft (l.map (windowed window)), ?_, by simp, by simp [ifft], hfreq, fun j p hp => ?_⟩
  · unfold spectrumOf
    rw [if_neg (by intro h; rw [h] at h2; simp at h2)]
    dsimp only
    rw [hd, ok_bind, hun, if_pos rfl, ho]
    cases window <;> rfl
  · obtain ⟨hj, hp⟩ := List.getElem?_eq_some_iff.1 hp
    have key := ifft_inv (l.map (windowed window)) j (by simpa using hj)
    rw [List.getD_eq_getElem _ _ (by simpa using hj), List.getElem_map, hp] at key
    rw [← key, List.length_map]
    refine Finset.sum_congr rfl fun k hk => ?_
    rw [hfreq k (Finset.mem_range.1 hk)]
    congr 2
    have hnc : (l.length : ℂ) ≠ 0 := by exact_mod_cast hn0
    have htc : (tau : ℂ) ≠ 0 := by exact_mod_cast ht
    push_cast
    field_simp

/-- **C92.** Otherwise it refuses: times that are not equidistant, one value only, and none. -/
theorem C92_refuses (window : Option (ℝ → ℂ)) (l : List (ℝ × ℂ)) :
    (l = [] → spectrumOf window l = .error .valueError) ∧
    (l.length = 1 → spectrumOf window l = .error .zeroDivisionError) ∧
    (2 ≤ l.length → (∃ (j : ℕ) (p : ℝ × ℂ), l[j]? = some p ∧
        1e-8 ≤ |p.1 - j * (((l.map Prod.fst).getLastD 0 - (l.map Prod.fst).headD 0) / ((l.length : ℝ) - 1))|) →
      spectrumOf window l = .error .notImplementedError) := by
  refine ⟨fun h => if_pos h, fun h => ?_, fun h2 hj => ?_⟩
  · unfold spectrumOf
    rw [if_neg (by intro h'; rw [h'] at h; simp at h)]
    dsimp only
    unfold Corr.rdiv
    rw [if_pos (by rw [h]; norm_num)]
    rfl
  · unfold spectrumOf
    rw [if_neg (by intro h; rw [h] at h2; simp at h2)]
    dsimp only
    have hn1 : (l.length : ℝ) - 1 ≠ 0 := by
      have h : (2 : ℝ) ≤ l.length := by exact_mod_cast h2
      linarith
    unfold Corr.rdiv
    rw [if_neg hn1, ok_bind]
    obtain ⟨j, p, hj, hd⟩ := hj
    obtain ⟨hj', rfl⟩ := List.getElem?_eq_some_iff.1 hj
    rw [if_neg]
    rw [Bool.not_eq_true, List.all_eq_false]
    refine ⟨(l[j].1, j), ?_, by simpa using hd⟩
    rw [List.mem_iff_getElem]
    exact ⟨j, by simpa using hj', by simp⟩

/-- The hypotheses of `C91_values` are met by the run of C90, and those of `C92_decomposition` by three equidistant values. -/
example : Before exEnv (fun i => (i, [1, 2])) 2 2 4 := by
  refine ⟨by decide, ?_, ?_⟩
  · intro i hi
    simp only [exEnv]
    have : (i : ℝ) < 2 := by exact_mod_cast hi
    linarith
  · intro _
    simp only [exEnv]
    norm_num

example : ∃ freq sigma, spectrumOf none [(0, 1), (2, Complex.I), (4, -1)] = .ok (freq, sigma) ∧ freq.length = 3 := by
  obtain ⟨f, s, h1, h2, _⟩ := C92_decomposition none [(0, 1), (2, Complex.I), (4, -1)] 2 (by simp) (by norm_num)
    (by simp; norm_num) (by
      intro j t c h
      match j with
      | 0 => cases h; norm_num
      | 1 => cases h; norm_num
      | 2 => cases h; norm_num
      | j + 3 => simp at h)
  exact ⟨f, s, h1, h2⟩

end PoProp
