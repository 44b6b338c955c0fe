import Verif.Lemmas.Heom2
import Verif.Lemmas.Star
import Verif.Props.C46
import Verif.Props.C02
import Mathlib.Analysis.SpecialFunctions.Pow.Real

/-!
C42: the derivative of the hierarchy conserves the trace of the physical density matrix.
C43: it keeps every member Hermitian.
C44: the ladder operators couple neighbouring tiers.
C45: the extended density starts with the system density.
C56: the derivative is that of the hierarchical equations of motion.
-/

open scoped BigOperators
open Py

namespace Heom

/-- The matrix is symmetric. -/
def Symmetric (d : ℕ) (M : Nd ℂ) : Prop := ∀ a b, a < d → b < d → M.get [b, a] = M.get [a, b]

/-- The matrix is Hermitian. -/
def Hermitian (d : ℕ) (M : Nd ℂ) : Prop := ∀ a b, a < d → b < d → M.get [b, a] = (starRingEnd ℂ) (M.get [a, b])

variable {d : ℕ} {dims : List ℕ} {h op rho : Nd ℂ}

/-! ### C56 -/

/-- `hierachy.py`, for symmetric operators: the derivative of every extended density is the right-hand side of the hierarchical equations
of motion, with weights `√n` down and `√(n+1)` up. -/
theorem C56_hierachy_partial {corr : Corr.Correlation} (hk : dims.length = corr.kMax) (hh : h.shape = [d, d]) (hop : op.shape = [d, d])
    (h1 : dims.length ≤ corr.coeff.length) (h2 : dims.length ≤ corr.conjCoeff.length) (h3 : dims.length ≤ corr.derivative.length)
    (sh : Symmetric d h) (sop : Symmetric d op) (hw : rho.Wf) (hs : rho.shape = dims ++ [d, d]) :
    ∃ H ts D, Hierachy.init dims h op corr = .ok H ∧ H.diff = .ok ts ∧ derivativeOf ts rho = .ok D ∧ D.Wf ∧ D.shape = rho.shape ∧
      ∀ n a b, Valid dims n → a < d → b < d → tier D n a b =
        heomRhs d dims (entries h) (entries op) (corr.derivative.getD · 0) (corr.coeff.getD · 0) (corr.conjCoeff.getD · 0)
          (fun m => ((Real.sqrt m : ℝ) : ℂ)) (fun m => ((Real.sqrt (m + 1 : ℕ) : ℝ) : ℂ)) rho n a b := by
  obtain ⟨ts, D, e1, e2, e3, e4, e5⟩ := Hierachy.diff_ok ⟨dims, h, op, corr, 1⟩ rfl hh hop h1 h2 h3 rho hw hs
  refine ⟨⟨dims, h, op, corr, 1⟩, ts, D, ?_, e1, e2, e3, e4, ?_⟩
  · unfold Hierachy.init
    simp only [hk, Nd.ndim, hop, hh, ne_eq, not_true_eq_false, if_false, List.length_cons, List.length_nil, zero_add, Nat.reduceAdd]
    rfl
  · intro n a b hn ha hb
    rw [e5 n a b hn ha hb, heomRhs_eq]
    exact rhs2_congr _ _ _ _ _ _ _ ha hb (fun a b ha hb => sh a b ha hb) (fun _ _ _ _ => rfl) (fun a b ha hb => sop a b ha hb)
      (fun _ _ _ _ => rfl)

/-- `eom2.py`, for all operators: the unscaled equations of motion, with weights `n` down and `1` up. Exponents that are almost zero
(`close`) are dropped. -/
theorem C56_eom2 {corr : Noise} {close : ℂ → Bool} (hc : close 0 = true) (hk : dims.length = corr.kMax) (hh : h.shape = [d, d])
    (hop : op.shape = [d, d]) (h1 : dims.length ≤ corr.symm.length) (h2 : dims.length ≤ corr.asymm.length)
    (h3 : dims.length ≤ corr.exp.length) (hw : rho.Wf) (hs : rho.shape = dims ++ [d, d]) :
    ∃ H ts D, Hierachy2.init dims h op corr = .ok H ∧ H.diff close = .ok ts ∧ derivativeOf ts rho = .ok D ∧ D.Wf ∧
      D.shape = rho.shape ∧ ∀ n a b, Valid dims n → a < d → b < d → tier D n a b =
        heomRhs d dims (entries h) (entries op) (fun k => if close (corr.exp.getD k 0) then 0 else -corr.exp.getD k 0)
          (fun k => corr.symm.getD k 0 + Complex.I * corr.asymm.getD k 0)
          (fun k => (starRingEnd ℂ) (corr.symm.getD k 0 + Complex.I * corr.asymm.getD k 0))
          (fun m => (m : ℂ)) (fun _ => 1) rho n a b := by
  obtain ⟨ts, D, e1, e2, e3, e4, e5⟩ := Hierachy2.diff_ok ⟨dims, h, op, corr⟩ hc hh hop h1 h2 h3 rho hw hs
  refine ⟨⟨dims, h, op, corr⟩, ts, D, ?_, e1, e2, e3, e4, e5⟩
  unfold Hierachy2.init
  simp only [hk, Nd.ndim, hop, hh, ne_eq, not_true_eq_false, if_false, List.length_cons, List.length_nil, zero_add, Nat.reduceAdd]
  rfl

/-- `eom.py` on the members next to the physical one: a member all of whose tiers are 0 evolves as if there were no bath, and a member
gets nothing from the one below it in a mode of tier 1. -/
theorem C56_eom_decoupled {corr : Noise} (hk : dims.length = corr.kMax) (hh : h.shape = [d, d])
    (hop : op.shape = [d, d]) (h1 : dims.length ≤ corr.symm.length) (h2 : dims.length ≤ corr.asymm.length)
    (h3 : corr.exp.length = dims.length) (hw : rho.Wf) (hs : rho.shape = dims ++ [d, d]) :
    ∃ H ts D, Hierachy2.init dims h op corr = .ok H ∧ H.diff1 = .ok ts ∧ derivativeOf ts rho = .ok D ∧
      ∀ a b, a < d → b < d → Valid dims (List.replicate dims.length 0) → tier D (List.replicate dims.length 0) a b =
        -Complex.I * ((∑ s ∈ Finset.range d, h.get [a, s] * tier rho (List.replicate dims.length 0) s b) -
          ∑ s ∈ Finset.range d, tier rho (List.replicate dims.length 0) a s * h.get [s, b]) := by
  obtain ⟨ts, D, e1, e2, e3, e4, e5⟩ := Hierachy2.diff1_ok ⟨dims, h, op, corr⟩ hh hop h1 h2 h3 rho hw hs
  refine ⟨⟨dims, h, op, corr⟩, ts, D, ?_, e1, e2, ?_⟩
  · unfold Hierachy2.init
    simp only [hk, Nd.ndim, hop, hh, ne_eq, not_true_eq_false, if_false, List.length_cons, List.length_nil, zero_add, Nat.reduceAdd]
    rfl
  · intro a b ha hb hn
    rw [e5 _ a b hn ha hb]
    refine (congrArg _ (Finset.sum_eq_zero fun k _ => ?_)).trans (add_zero _)
    have hz : (List.replicate dims.length 0).getD k 0 = 0 := by
      rw [List.getD_eq_getElem?_getD, List.getElem?_replicate]; split <;> rfl
    simp only [hz]
    simp

/-- Therefore `eom.py` is not the hierarchical equations of motion, whatever the scaling: with one mode of two tiers, one state, no
Hamiltonian, no decay and the correlation coefficient `i`, tier 1 is driven by tier 0 in the equations of motion and is not in the code. -/
theorem C56_eom_violated (down up : ℕ → ℂ) (hd : down 1 ≠ 0) : ∃ (H : Hierachy2) (ts : List Term) (D rho : Nd ℂ),
    Hierachy2.init [2] ⟨[1, 1], [0]⟩ ⟨[1, 1], [1]⟩ ⟨1, [0], [1], [0]⟩ = .ok H ∧ rho.Wf ∧ rho.shape = [2, 1, 1] ∧ H.diff1 = .ok ts ∧
    derivativeOf ts rho = .ok D ∧ tier D [1] 0 0 ≠
      heomRhs 1 [2] (fun _ _ => 0) (fun _ _ => 1) (fun _ => 0) (fun _ => Complex.I) (fun _ => (starRingEnd ℂ) Complex.I) down up rho [1] 0 0 := by
  have hw : (⟨[2, 1, 1], [1, 0]⟩ : Nd ℂ).Wf := by simp [Nd.Wf]
  obtain ⟨ts, D, e1, e2, e3, e4, e5⟩ := Hierachy2.diff1_ok ⟨[2], ⟨[1, 1], [0]⟩, ⟨[1, 1], [1]⟩, ⟨1, [0], [1], [0]⟩⟩ (d := 1) rfl rfl
    (by simp) (by simp) rfl ⟨[2, 1, 1], [1, 0]⟩ hw rfl
  refine ⟨_, ts, D, ⟨[2, 1, 1], [1, 0]⟩, rfl, hw, rfl, e1, e2, ?_⟩
  rw [e5 [1] 0 0 (by simp [Valid]) (by omega) (by omega)]
  have g0 : (⟨[1, 1], [0]⟩ : Nd ℂ).get [0, 0] = 0 := rfl
  have t0 : tier ⟨[2, 1, 1], [1, 0]⟩ [0] 0 0 = 1 := rfl
  have t1 : tier ⟨[2, 1, 1], [1, 0]⟩ [1] 0 0 = 0 := rfl
  have b1 : below (⟨[2, 1, 1], [1, 0]⟩ : Nd ℂ) [1] 0 0 0 = 1 := by
    unfold below; rw [if_neg (by simp)]; exact t0
  have a1 : above [2] (⟨[2, 1, 1], [1, 0]⟩ : Nd ℂ) [1] 0 0 0 = 0 := by
    unfold above; rw [if_neg (by simp)]
  unfold heomRhs
  simp only [Finset.sum_range_one, List.length_cons, List.length_nil, zero_add, b1, a1, t1, g0]
  simp
  exact hd

/-- `hierachy.py` with a Hermitian operator that is not symmetric: the derivative is not that of the equations of motion (the code acts
with the transposed operator from the left). Here without any bath. -/
theorem C56_hierachy_violated (corr : Corr.Correlation) (hk : corr.kMax = 0) : ∃ (h rho : Nd ℂ) (H : Hierachy) (ts : List Term) (D : Nd ℂ),
    Hermitian 2 h ∧ h.shape = [2, 2] ∧ rho.Wf ∧ rho.shape = [2, 2] ∧ Hierachy.init [] h h corr = .ok H ∧ H.diff = .ok ts ∧
    derivativeOf ts rho = .ok D ∧ tier D [] 0 0 ≠ heomRhs 2 [] (entries h) (entries h) (fun _ => 0) (fun _ => 0) (fun _ => 0)
      (fun _ => 0) (fun _ => 0) rho [] 0 0 ∧ physicalTrace 2 [] D ≠ 0 := by
  let h : Nd ℂ := ⟨[2, 2], [0, -Complex.I, Complex.I, 0]⟩
  let rho : Nd ℂ := ⟨[2, 2], [0, -Complex.I, Complex.I, 0]⟩
  have g00 : h.get [0, 0] = 0 := rfl
  have g01 : h.get [0, 1] = -Complex.I := rfl
  have g10 : h.get [1, 0] = Complex.I := rfl
  have g11 : h.get [1, 1] = 0 := rfl
  have hw : rho.Wf := by simp [Nd.Wf, rho]
  obtain ⟨ts, D, e1, e2, e3, e4, e5⟩ := Hierachy.diff_ok ⟨[], h, h, corr, 1⟩ rfl (d := 2) rfl rfl (by simp) (by simp) (by simp) rho hw rfl
  have t00 : tier rho [] 0 0 = 0 := rfl
  have t01 : tier rho [] 0 1 = -Complex.I := rfl
  have t10 : tier rho [] 1 0 = Complex.I := rfl
  have t11 : tier rho [] 1 1 = 0 := rfl
  have v00 : tier D [] 0 0 = 2 * Complex.I := by
    rw [e5 [] 0 0 (by simp) (by omega) (by omega)]
    unfold rhs2 entries
    simp only [Finset.sum_range_succ, Finset.sum_range_zero, List.length_nil, zero_add, add_zero, g00, g10, g01, g11, t00, t01, t10, t11]
    ring_nf
    linear_combination (-2 * Complex.I) * Complex.I_sq
  have v11 : tier D [] 1 1 = 2 * Complex.I := by
    rw [e5 [] 1 1 (by simp) (by omega) (by omega)]
    unfold rhs2 entries
    simp only [Finset.sum_range_succ, Finset.sum_range_zero, List.length_nil, zero_add, add_zero, g00, g10, g01, g11, t00, t01, t10, t11]
    ring_nf
    linear_combination (-2 * Complex.I) * Complex.I_sq
  refine ⟨h, rho, ⟨[], h, h, corr, 1⟩, ts, D, ?_, rfl, hw, rfl, ?_, e1, e2, ?_, ?_⟩
  · intro a b ha hb
    have : (a = 0 ∨ a = 1) ∧ (b = 0 ∨ b = 1) := ⟨by omega, by omega⟩
    rcases this with ⟨rfl | rfl, rfl | rfl⟩ <;> simp [g00, g01, g10, g11]
  · unfold Hierachy.init
    simp only [hk, Nd.ndim, h, ne_eq, not_true_eq_false, if_false, List.length_cons, List.length_nil, zero_add, Nat.reduceAdd]
    rfl
  · rw [v00]
    unfold heomRhs entries
    simp only [Finset.sum_range_succ, Finset.sum_range_zero, List.length_nil, zero_add, add_zero, g00, g10, g01, g11, t00, t01, t10, t11]
    ring_nf
    simp
  · unfold physicalTrace
    simp only [Finset.sum_range_succ, Finset.sum_range_zero, List.length_nil, List.replicate_zero, zero_add, v00, v11]
    ring_nf
    simp

/-! ### C42 -/

/-- The hierarchy of `hierachy.py` is only made for as many tiers as terms of the correlation function and for system operators that are
matrices of the same shape; otherwise `AssertionError`. -/
theorem C42_refused (dims : List ℕ) (h op : Nd ℂ) (corr : Corr.Correlation) :
    (Hierachy.init dims h op corr = .ok ⟨dims, h, op, corr, 1⟩ ↔
      dims.length = corr.kMax ∧ op.shape.length = 2 ∧ op.shape = h.shape) ∧
    (¬ (dims.length = corr.kMax ∧ op.shape.length = 2 ∧ op.shape = h.shape) →
      Hierachy.init dims h op corr = .error .assertionError) := by
  unfold Hierachy.init Nd.ndim
  by_cases h1 : dims.length = corr.kMax <;> by_cases h2 : op.shape.length = 2 <;> by_cases h3 : op.shape = h.shape <;>
    simp [h1, h2, h3, throw, throwThe, MonadExceptOf.throw, bind, Except.bind, pure, Except.pure]
  all_goals simp_all

/-- So it is with the hierarchy of `eom.py` and `eom2.py`. -/
theorem C42_refused2 (dims : List ℕ) (h op : Nd ℂ) (corr : Noise) :
    (Hierachy2.init dims h op corr = .ok ⟨dims, h, op, corr⟩ ↔
      dims.length = corr.kMax ∧ op.shape.length = 2 ∧ op.shape = h.shape) ∧
    (¬ (dims.length = corr.kMax ∧ op.shape.length = 2 ∧ op.shape = h.shape) →
      Hierachy2.init dims h op corr = .error .assertionError) := by
  unfold Hierachy2.init Nd.ndim
  by_cases h1 : dims.length = corr.kMax <;> by_cases h2 : op.shape.length = 2 <;> by_cases h3 : op.shape = h.shape <;>
    simp [h1, h2, h3, throw, throwThe, MonadExceptOf.throw, bind, Except.bind, pure, Except.pure]
  all_goals simp_all

/-- `hierachy.py` conserves the trace, for symmetric operators. -/
theorem C42_hierachy_partial {corr : Corr.Correlation} (hk : dims.length = corr.kMax) (hh : h.shape = [d, d]) (hop : op.shape = [d, d])
    (h1 : dims.length ≤ corr.coeff.length) (h2 : dims.length ≤ corr.conjCoeff.length) (h3 : dims.length ≤ corr.derivative.length)
    (sh : Symmetric d h) (sop : Symmetric d op) (hpos : ∀ m ∈ dims, 0 < m) (hw : rho.Wf) (hs : rho.shape = dims ++ [d, d]) :
    ∃ H ts D, Hierachy.init dims h op corr = .ok H ∧ H.diff = .ok ts ∧ derivativeOf ts rho = .ok D ∧ physicalTrace d dims D = 0 := by
  obtain ⟨H, ts, D, e1, e2, e3, -, -, e5⟩ := C56_hierachy_partial hk hh hop h1 h2 h3 sh sop hw hs
  refine ⟨H, ts, D, e1, e2, e3, ?_⟩
  unfold physicalTrace
  rw [Finset.sum_congr rfl fun s hs => e5 _ s s (valid_zeros hpos) (Finset.mem_range.1 hs) (Finset.mem_range.1 hs)]
  exact rhs_trace

/-- For Hermitian operators that are not symmetric it does not (the trace of the derivative is not 0). -/
theorem C42_hierachy_violated (corr : Corr.Correlation) (hk : corr.kMax = 0) : ∃ (h rho : Nd ℂ) (H : Hierachy) (ts : List Term) (D : Nd ℂ),
    Hermitian 2 h ∧ h.shape = [2, 2] ∧ rho.Wf ∧ rho.shape = [2, 2] ∧ Hierachy.init [] h h corr = .ok H ∧ H.diff = .ok ts ∧
    derivativeOf ts rho = .ok D ∧ physicalTrace 2 [] D ≠ 0 := by
  obtain ⟨h, rho, H, ts, D, e1, e2, e3, e4, e5, e6, e7, -, e8⟩ := C56_hierachy_violated corr hk
  exact ⟨h, rho, H, ts, D, e1, e2, e3, e4, e5, e6, e7, e8⟩

/-- `eom2.py` conserves the trace for all operators. -/
theorem C42_eom2 {corr : Noise} {close : ℂ → Bool} (hc : close 0 = true) (hk : dims.length = corr.kMax) (hh : h.shape = [d, d])
    (hop : op.shape = [d, d]) (h1 : dims.length ≤ corr.symm.length) (h2 : dims.length ≤ corr.asymm.length)
    (h3 : dims.length ≤ corr.exp.length) (hpos : ∀ m ∈ dims, 0 < m) (hw : rho.Wf) (hs : rho.shape = dims ++ [d, d]) :
    ∃ H ts D, Hierachy2.init dims h op corr = .ok H ∧ H.diff close = .ok ts ∧ derivativeOf ts rho = .ok D ∧
      physicalTrace d dims D = 0 := by
  obtain ⟨H, ts, D, e1, e2, e3, -, -, e5⟩ := C56_eom2 hc hk hh hop h1 h2 h3 hw hs
  refine ⟨H, ts, D, e1, e2, e3, ?_⟩
  unfold physicalTrace
  rw [Finset.sum_congr rfl fun s hs => e5 _ s s (valid_zeros hpos) (Finset.mem_range.1 hs) (Finset.mem_range.1 hs)]
  exact rhs_trace

/-- `eom.py` conserves the trace for all operators (the physical density does not feel the bath). -/
theorem C42_eom {corr : Noise} (hk : dims.length = corr.kMax) (hh : h.shape = [d, d])
    (hop : op.shape = [d, d]) (h1 : dims.length ≤ corr.symm.length) (h2 : dims.length ≤ corr.asymm.length)
    (h3 : corr.exp.length = dims.length) (hpos : ∀ m ∈ dims, 0 < m) (hw : rho.Wf) (hs : rho.shape = dims ++ [d, d]) :
    ∃ H ts D, Hierachy2.init dims h op corr = .ok H ∧ H.diff1 = .ok ts ∧ derivativeOf ts rho = .ok D ∧
      physicalTrace d dims D = 0 := by
  obtain ⟨H, ts, D, e1, e2, e3, e5⟩ := C56_eom_decoupled hk hh hop h1 h2 h3 hw hs
  refine ⟨H, ts, D, e1, e2, e3, ?_⟩
  unfold physicalTrace
  rw [Finset.sum_congr rfl fun s hs => e5 s s (Finset.mem_range.1 hs) (Finset.mem_range.1 hs) (valid_zeros hpos), ← Finset.mul_sum,
    trace_comm d (fun a b => h.get [a, b]) (tier rho (List.replicate dims.length 0)), mul_zero]

/-! ### C43 -/

/-- `hierachy.py` keeps Hermiticity for Hermitian symmetric operators, real exponents and conjugate coefficients. -/
theorem C43_hierachy_partial {corr : Corr.Correlation} (hk : dims.length = corr.kMax) (hh : h.shape = [d, d]) (hop : op.shape = [d, d])
    (h1 : dims.length ≤ corr.coeff.length) (h2 : corr.conjCoeff = corr.coeff.map (starRingEnd ℂ))
    (h3 : dims.length ≤ corr.derivative.length) (h4 : ∀ g ∈ corr.derivative, (starRingEnd ℂ) g = g)
    (hh' : Hermitian d h) (hop' : Hermitian d op)
    (sh : Symmetric d h) (sop : Symmetric d op) (hw : rho.Wf) (hs : rho.shape = dims ++ [d, d]) (hr : AllHermitian d dims rho) :
    ∃ H ts D, Hierachy.init dims h op corr = .ok H ∧ H.diff = .ok ts ∧ derivativeOf ts rho = .ok D ∧ AllHermitian d dims D := by
  obtain ⟨H, ts, D, e1, e2, e3, -, -, e5⟩ := C56_hierachy_partial hk hh hop h1 (by simpa [h2] using h1) h3 sh sop hw hs
  refine ⟨H, ts, D, e1, e2, e3, ?_⟩
  intro n hn a b ha hb
  rw [e5 n a b hn ha hb, e5 n b a hn hb ha]
  refine rhs_hermitian hh' hop' ?_ ?_ ?_ ?_ hr hn ha hb
  · intro k hk'
    beta_reduce
    rw [List.getD_eq_getElem _ _ (by omega)]
    exact h4 _ (List.getElem_mem _)
  · intro k hk'
    beta_reduce
    rw [h2, List.getD_eq_getElem _ _ (by rw [List.length_map]; omega), List.getD_eq_getElem _ _ (by omega), List.getElem_map]
  · intro m; exact Complex.conj_ofReal _
  · intro m; exact Complex.conj_ofReal _

/-- `eom2.py` keeps Hermiticity for all Hermitian operators and real exponents. -/
theorem C43_eom2 {corr : Noise} {close : ℂ → Bool} (hc : close 0 = true) (hk : dims.length = corr.kMax) (hh : h.shape = [d, d])
    (hop : op.shape = [d, d]) (h1 : dims.length ≤ corr.symm.length) (h2 : dims.length ≤ corr.asymm.length)
    (h3 : dims.length ≤ corr.exp.length) (h4 : ∀ g ∈ corr.exp, (starRingEnd ℂ) g = g) (hh' : Hermitian d h) (hop' : Hermitian d op)
    (hw : rho.Wf) (hs : rho.shape = dims ++ [d, d]) (hr : AllHermitian d dims rho) :
    ∃ H ts D, Hierachy2.init dims h op corr = .ok H ∧ H.diff close = .ok ts ∧ derivativeOf ts rho = .ok D ∧ AllHermitian d dims D := by
  obtain ⟨H, ts, D, e1, e2, e3, -, -, e5⟩ := C56_eom2 hc hk hh hop h1 h2 h3 hw hs
  refine ⟨H, ts, D, e1, e2, e3, ?_⟩
  intro n hn a b ha hb
  rw [e5 n a b hn ha hb, e5 n b a hn hb ha]
  refine rhs_hermitian hh' hop' ?_ (fun _ _ => rfl) ?_ (fun _ => map_one _) hr hn ha hb
  · intro k hk'
    beta_reduce
    split
    · exact map_zero _
    · rw [map_neg, List.getD_eq_getElem _ _ (by omega), h4 _ (List.getElem_mem _)]
  · intro m; exact Complex.conj_natCast _

/-- `eom.py` keeps Hermiticity for Hermitian `h`, a Hermitian symmetric coupling operator and real exponents. -/
theorem C43_eom_partial {corr : Noise} (hk : dims.length = corr.kMax) (hh : h.shape = [d, d])
    (hop : op.shape = [d, d]) (h1 : dims.length ≤ corr.symm.length) (h2 : dims.length ≤ corr.asymm.length)
    (h3 : corr.exp.length = dims.length) (h4 : ∀ g ∈ corr.exp, (starRingEnd ℂ) g = g) (hh' : Hermitian d h) (hop' : Hermitian d op)
    (sop : Symmetric d op) (hw : rho.Wf) (hs : rho.shape = dims ++ [d, d]) (hr : AllHermitian d dims rho) :
    ∃ H ts D, Hierachy2.init dims h op corr = .ok H ∧ H.diff1 = .ok ts ∧ derivativeOf ts rho = .ok D ∧ AllHermitian d dims D := by
  obtain ⟨ts, D, e1, e2, -, -, e5⟩ := Hierachy2.diff1_ok ⟨dims, h, op, corr⟩ hh hop h1 h2 h3 rho hw hs
  refine ⟨⟨dims, h, op, corr⟩, ts, D, ?_, e1, e2, ?_⟩
  · unfold Hierachy2.init
    simp only [hk, Nd.ndim, hop, hh, ne_eq, not_true_eq_false, if_false, List.length_cons, List.length_nil, zero_add, Nat.reduceAdd]
    rfl
  · intro n hn a b ha hb
    rw [e5 n a b hn ha hb, e5 n b a hn hb ha]
    simp only
    have hbelow : ∀ k a b, k < dims.length → a < d → b < d → below rho n k b a = (starRingEnd ℂ) (below rho n k a b) := by
      intro k a b hk ha hb
      unfold below
      split
      · simp
      · exact hr _ (valid_set hn (by have := hn.getD_lt hk 0 0; omega)) a b ha hb
    have habove : ∀ k a b, k < dims.length → a < d → b < d → above dims rho n k b a = (starRingEnd ℂ) (above dims rho n k a b) := by
      intro k a b hk ha hb
      unfold above
      split
      · rename_i hlt
        exact hr _ (valid_set hn hlt) a b ha hb
      · simp
    rw [map_add, map_mul, map_neg, Complex.conj_I, map_sub, star_sum_mul, star_sum_mul, map_sum]
    refine congrArg₂ (· + ·) ?_ (Finset.sum_congr rfl fun k hk => ?_)
    · rw [Finset.sum_congr (s₁ := Finset.range d) (f := fun s => (starRingEnd ℂ) (tier rho n s b) * (starRingEnd ℂ) (h.get [a, s]))
        (g := fun s => tier rho n b s * h.get [s, a]) rfl fun s hs => by
          rw [hr n hn s b (Finset.mem_range.1 hs) hb, hh' a s ha (Finset.mem_range.1 hs)],
        Finset.sum_congr (s₁ := Finset.range d) (f := fun s => (starRingEnd ℂ) (h.get [s, b]) * (starRingEnd ℂ) (tier rho n a s))
        (g := fun s => h.get [b, s] * tier rho n s a) rfl fun s hs => by
          rw [hr n hn a s ha (Finset.mem_range.1 hs), hh' s b (Finset.mem_range.1 hs) hb]]
      ring
    · have hk := Finset.mem_range.1 hk
      have hg : (starRingEnd ℂ) (-corr.exp.getD k 0) = -corr.exp.getD k 0 := by
        rw [map_neg, List.getD_eq_getElem _ _ (by omega), h4 _ (List.getElem_mem _)]
      generalize (corr.symm.getD k 0 + Complex.I * corr.asymm.getD k 0) = c
      rw [map_sub, map_mul, map_mul, hg, Complex.conj_natCast, hr n hn a b ha hb, map_mul, Complex.conj_I, map_sub, star_sum_mul,
        star_sum_mul]
      generalize hw1 : ((Real.sqrt (n.getD k 0 - 1 : ℕ) : ℝ) : ℂ) = w1
      generalize hw2 : ((Real.sqrt (n.getD k 0 : ℕ) : ℝ) : ℂ) = w2
      have c1 : (starRingEnd ℂ) w1 = w1 := by rw [← hw1]; exact Complex.conj_ofReal _
      have c2 : (starRingEnd ℂ) w2 = w2 := by rw [← hw2]; exact Complex.conj_ofReal _
      rw [Finset.sum_congr (s₁ := Finset.range d) (f := fun s => (starRingEnd ℂ) (w1 * below rho n k s b + c * (w2 * above dims rho n k s b)) *
            (starRingEnd ℂ) (op.get [s, a]))
          (g := fun s => (w1 * below rho n k b s + (starRingEnd ℂ) c * (w2 * above dims rho n k b s)) * op.get [s, a]) rfl fun s hs => by
          have hs := Finset.mem_range.1 hs
          rw [map_add, map_mul, map_mul, map_mul, c1, c2, hbelow k s b hk hs hb, habove k s b hk hs hb, ← hop' s a hs ha, sop s a hs ha],
        Finset.sum_congr (s₁ := Finset.range d) (f := fun s => (starRingEnd ℂ) (op.get [s, b]) *
            (starRingEnd ℂ) (w1 * below rho n k a s + (starRingEnd ℂ) c * (w2 * above dims rho n k a s)))
          (g := fun s => op.get [s, b] * (w1 * below rho n k s a + c * (w2 * above dims rho n k s a))) rfl fun s hs => by
          have hs := Finset.mem_range.1 hs
          rw [map_add, map_mul, map_mul, map_mul, c1, c2, Complex.conj_conj, hbelow k a s hk ha hs, habove k a s hk ha hs,
            ← hop' s b hs hb, sop s b hs hb]]
      ring

/-- The coupling operator `σ_y` of the counterexamples. -/
def exSigmaY : Nd ℂ := ⟨[2, 2], [0, -Complex.I, Complex.I, 0]⟩

theorem exSigmaY_hermitian : Hermitian 2 exSigmaY := by
  intro a b ha hb
  have g00 : exSigmaY.get [0, 0] = 0 := rfl
  have g01 : exSigmaY.get [0, 1] = -Complex.I := rfl
  have g10 : exSigmaY.get [1, 0] = Complex.I := rfl
  have g11 : exSigmaY.get [1, 1] = 0 := rfl
  have : (a = 0 ∨ a = 1) ∧ (b = 0 ∨ b = 1) := ⟨by omega, by omega⟩
  rcases this with ⟨rfl | rfl, rfl | rfl⟩ <;> simp [g00, g01, g10, g11]

/-- The symmetry of the coupling operator is needed: `eom.py` transposes `h` but not `op`. With `op = σ_y`, the only nonzero member `σ_y` at
the last of three tiers, and `c = 1`, the derivative of the member in the middle is `2 i` times the identity. -/
theorem C43_eom_violated : ∃ (H : Hierachy2) (ts : List Term) (D rho : Nd ℂ),
    Hierachy2.init [3] ⟨[2, 2], [0, 0, 0, 0]⟩ exSigmaY ⟨1, [1], [0], [0]⟩ = .ok H ∧ rho.Wf ∧ rho.shape = [3] ++ [2, 2] ∧
    AllHermitian 2 [3] rho ∧ H.diff1 = .ok ts ∧ derivativeOf ts rho = .ok D ∧ ¬ AllHermitian 2 [3] D := by
  let rho : Nd ℂ := ⟨[3, 2, 2], [0, 0, 0, 0, 0, 0, 0, 0, 0, -Complex.I, Complex.I, 0]⟩
  have hw : rho.Wf := by simp [Nd.Wf, rho]
  obtain ⟨ts, D, e1, e2, -, -, e5⟩ := Hierachy2.diff1_ok ⟨[3], ⟨[2, 2], [0, 0, 0, 0]⟩, exSigmaY, ⟨1, [1], [0], [0]⟩⟩ (d := 2) rfl rfl
    (by simp) (by simp) rfl rho hw rfl
  refine ⟨_, ts, D, rho, rfl, hw, rfl, ?_, e1, e2, fun hD => ?_⟩
  · intro n hn a b ha hb
    obtain ⟨m, rfl⟩ : ∃ m, n = [m] := by
      cases n with
      | nil => simp [Valid] at hn
      | cons m n => cases n with
        | nil => exact ⟨m, rfl⟩
        | cons _ _ => simp [Valid] at hn
    have hm : m < 3 := by simpa [Valid] using hn
    have : (m = 0 ∨ m = 1 ∨ m = 2) ∧ (a = 0 ∨ a = 1) ∧ (b = 0 ∨ b = 1) := ⟨by omega, by omega, by omega⟩
    have t000 : tier rho [0] 0 0 = 0 := rfl
    have t001 : tier rho [0] 0 1 = 0 := rfl
    have t010 : tier rho [0] 1 0 = 0 := rfl
    have t011 : tier rho [0] 1 1 = 0 := rfl
    have t100 : tier rho [1] 0 0 = 0 := rfl
    have t101 : tier rho [1] 0 1 = 0 := rfl
    have t110 : tier rho [1] 1 0 = 0 := rfl
    have t111 : tier rho [1] 1 1 = 0 := rfl
    have t200 : tier rho [2] 0 0 = 0 := rfl
    have t201 : tier rho [2] 0 1 = -Complex.I := rfl
    have t210 : tier rho [2] 1 0 = Complex.I := rfl
    have t211 : tier rho [2] 1 1 = 0 := rfl
    rcases this with ⟨rfl | rfl | rfl, rfl | rfl, rfl | rfl⟩ <;>
      simp [t000, t001, t010, t011, t100, t101, t110, t111, t200, t201, t210, t211]
  · have g00 : exSigmaY.get [0, 0] = 0 := rfl
    have g10 : exSigmaY.get [1, 0] = Complex.I := rfl
    have z00 : (⟨[2, 2], [0, 0, 0, 0]⟩ : Nd ℂ).get [0, 0] = 0 := rfl
    have z01 : (⟨[2, 2], [0, 0, 0, 0]⟩ : Nd ℂ).get [0, 1] = 0 := rfl
    have z10 : (⟨[2, 2], [0, 0, 0, 0]⟩ : Nd ℂ).get [1, 0] = 0 := rfl
    have t00 : tier rho [1] 0 0 = 0 := rfl
    have a10 : above [3] rho [1] 0 1 0 = Complex.I := rfl
    have a01 : above [3] rho [1] 0 0 1 = -Complex.I := rfl
    have v : tier D [1] 0 0 = 2 * Complex.I := by
      rw [e5 [1] 0 0 (by simp [Valid]) (by omega) (by omega)]
      simp only [Finset.sum_range_succ, Finset.sum_range_zero, List.length_cons, List.length_nil, zero_add, g00, g10, z00, z01, z10, t00,
        a10, a01, List.getD_cons_zero, Nat.sub_self, Nat.cast_zero, Real.sqrt_zero, Complex.ofReal_zero, zero_mul, mul_zero, sub_zero,
        Nat.cast_one, Real.sqrt_one, Complex.ofReal_one, map_one, one_mul, mul_one, neg_zero, add_zero, map_add, map_mul, map_zero]
      linear_combination (-2 * Complex.I) * Complex.I_sq
    have := hD [1] (by simp [Valid]) 0 0 (by omega) (by omega)
    rw [v, map_mul, Complex.conj_I] at this
    have h2 := congrArg Complex.im this
    simp at h2
    norm_num at h2

/-- In `hierachy.py` no operator is transposed: already without a bath, `h = ρ = σ_y` gives the derivative `2 i` times the identity. -/
theorem C43_hierachy_violated (corr : Corr.Correlation) (hk : corr.kMax = 0) : ∃ (H : Hierachy) (ts : List Term) (D : Nd ℂ),
    Hierachy.init [] exSigmaY exSigmaY corr = .ok H ∧ AllHermitian 2 [] exSigmaY ∧ H.diff = .ok ts ∧
    derivativeOf ts exSigmaY = .ok D ∧ ¬ AllHermitian 2 [] D := by
  have hw : exSigmaY.Wf := by simp [Nd.Wf, exSigmaY]
  have g00 : exSigmaY.get [0, 0] = 0 := rfl
  have g01 : exSigmaY.get [0, 1] = -Complex.I := rfl
  have g10 : exSigmaY.get [1, 0] = Complex.I := rfl
  have g11 : exSigmaY.get [1, 1] = 0 := rfl
  obtain ⟨ts, D, e1, e2, e3, e4, e5⟩ := Hierachy.diff_ok ⟨[], exSigmaY, exSigmaY, corr, 1⟩ rfl (d := 2) rfl rfl (by simp) (by simp) (by simp) exSigmaY hw rfl
  have t00 : tier exSigmaY [] 0 0 = 0 := rfl
  have t01 : tier exSigmaY [] 0 1 = -Complex.I := rfl
  have t10 : tier exSigmaY [] 1 0 = Complex.I := rfl
  have t11 : tier exSigmaY [] 1 1 = 0 := rfl
  have v00 : tier D [] 0 0 = 2 * Complex.I := by
    rw [e5 [] 0 0 (by simp) (by omega) (by omega)]
    unfold rhs2 entries
    simp only [Finset.sum_range_succ, Finset.sum_range_zero, List.length_nil, zero_add, add_zero, g00, g10, g01, g11, t00, t01, t10, t11]
    ring_nf
    linear_combination (-2 * Complex.I) * Complex.I_sq
  refine ⟨⟨[], exSigmaY, exSigmaY, corr, 1⟩, ts, D, ?_, ?_, e1, e2, fun hD => ?_⟩
  · unfold Hierachy.init
    simp only [hk, Nd.ndim, exSigmaY, ne_eq, not_true_eq_false, if_false, List.length_cons, List.length_nil, zero_add, Nat.reduceAdd]
    rfl
  · intro n hn a b ha hb
    cases n with
    | nil => exact exSigmaY_hermitian a b ha hb
    | cons _ _ => simp [Valid] at hn
  · have := hD [] (by simp) 0 0 (by omega) (by omega)
    rw [v00, map_mul, Complex.conj_I] at this
    have h2 := congrArg Complex.im this
    simp at h2
    norm_num at h2

/-- In particular for every `Drude` bath of the code (zero or finite temperature, real poles as those of `matsubara` and `pade`). -/
theorem C43_drude_partial {gamma lam : ℝ} {beta : Option ℝ} {decomp : ℕ → Res (List ℂ × List ℂ)}
    (hl : ∀ n r, decomp n = .ok r → r.1.length = n ∧ r.2.length = n)
    (hd : ∀ n r, decomp n = .ok r → ∀ p ∈ r.1, (starRingEnd ℂ) p = p) {corr : Corr.Correlation}
    (hc : Corr.drude gamma lam dims.length beta decomp = .ok corr) (hh : h.shape = [d, d]) (hop : op.shape = [d, d])
    (hh' : Hermitian d h) (hop' : Hermitian d op)
    (sh : Symmetric d h) (sop : Symmetric d op) (hw : rho.Wf) (hs : rho.shape = dims ++ [d, d]) (hr : AllHermitian d dims rho) :
    ∃ H ts D, Hierachy.init dims h op corr = .ok H ∧ H.diff = .ok ts ∧ derivativeOf ts rho = .ok D ∧ AllHermitian d dims D := by
  obtain ⟨e1, e2⟩ := Corr.C46_drude_partial hl hc
  obtain ⟨e3, e4⟩ := Corr.drude_real hd hc
  unfold Corr.Consistent at e2
  exact C43_hierachy_partial e1.symm hh hop (by omega) e3 (by omega) e4 hh' hop' sh sop hw hs hr

/-! ### C44 -/

/-- The operators of `hierachy.py`: applied to axis `k` of an array, `_raiser` takes tier `n` from tier `n - 1` with weight `√n`, `_lower`
takes it from tier `n + 1` with weight `√(n + 1)` (and gives 0 at the last tier), `_numberer` multiplies by `n`. -/
theorem C44_hierachy_partial (H : Hierachy) {k : ℕ} (hk : k < H.nDims.length) (A : Nd ℂ) (hA : k < A.shape.length)
    (hd : A.shape.getD k 0 = H.nDims.getD k 0) :
    (∃ M c, H.raiser k = .ok M ∧ Tensor.partialProduct A k (some M) 0 = .ok c ∧ c.shape = A.shape ∧ ∀ p, Valid A.shape p →
      c.get p = if p.getD k 0 = 0 then 0 else ((Real.sqrt (p.getD k 0 : ℕ) : ℝ) : ℂ) * A.get (p.set k (p.getD k 0 - 1))) ∧
    (∃ M c, H.lower k = .ok M ∧ Tensor.partialProduct A k (some M) 0 = .ok c ∧ c.shape = A.shape ∧ ∀ p, Valid A.shape p →
      c.get p = if p.getD k 0 + 1 < H.nDims.getD k 0 then
        ((Real.sqrt (p.getD k 0 + 1 : ℕ) : ℝ) : ℂ) * A.get (p.set k (p.getD k 0 + 1)) else 0) ∧
    (∃ M c, H.numberer k = .ok M ∧ Tensor.partialProduct A k (some M) 0 = .ok c ∧ c.shape = A.shape ∧ ∀ p, Valid A.shape p →
      c.get p = (p.getD k 0 : ℂ) * A.get p) := by
  have hlt : ∀ p, Valid A.shape p → p.getD k 0 < H.nDims.getD k 0 := fun p hp => hd ▸ hp.getD_lt hA 0 0
  obtain ⟨R, r1, r2, r3, r4⟩ := H.raiser_ok hk
  obtain ⟨L, l1, l2, l3, l4⟩ := H.lower_ok hk
  obtain ⟨c1, a1, a2, a3, a4⟩ := partialProduct_mat A R hA hd r3
  obtain ⟨c2, b1, b2, b3, b4⟩ := partialProduct_mat A L hA hd l3
  obtain ⟨c3, n1, n2, n3, n4⟩ := partialProduct_mat A _ hA hd (arange_shape (H.nDims.getD k 0))
  refine ⟨⟨R, c1, r1, a1, a3, fun p hp => ?_⟩, ⟨L, c2, l1, b1, b3, fun p hp => ?_⟩, ⟨_, c3, H.numberer_ok hk, n1, n3, fun p hp => ?_⟩⟩
  · rw [a4 p hp]; exact sum_down (hlt p hp) (fun x => A.get (p.set k x)) _ r4
  · rw [b4 p hp]; exact sum_up (hlt p hp) (fun x => A.get (p.set k x)) (fun b => ((Real.sqrt (b + 1 : ℕ) : ℝ) : ℂ)) l4
  · rw [n4 p hp, sum_diag (hlt p hp) (fun x => A.get (p.set k x)) (fun x => (x : ℂ)) fun a b ha hb => arange_diag_get ha hb,
      set_self (by rw [hp.length_eq]; exact hA)]

/-- The operators of `eom2.py`: the same with weights 1 (the equations of motion put the weight `n` there by `_raiser @ _numberer`). -/
theorem C44_eom2_partial (H : Hierachy2) {k : ℕ} (hk : k < H.nDims.length) (A : Nd ℂ) (hA : k < A.shape.length)
    (hd : A.shape.getD k 0 = H.nDims.getD k 0) :
    (∃ M N P c, H.raiser k = .ok M ∧ H.numberer k = .ok N ∧ M.matmul N = .ok P ∧ Tensor.partialProduct A k (some P) 0 = .ok c ∧
      c.shape = A.shape ∧ ∀ p, Valid A.shape p →
      c.get p = if p.getD k 0 = 0 then 0 else (p.getD k 0 : ℂ) * A.get (p.set k (p.getD k 0 - 1))) ∧
    (∃ M c, H.raiser k = .ok M ∧ Tensor.partialProduct A k (some M) 0 = .ok c ∧ c.shape = A.shape ∧ ∀ p, Valid A.shape p →
      c.get p = if p.getD k 0 = 0 then 0 else A.get (p.set k (p.getD k 0 - 1))) ∧
    (∃ M c, H.lower k = .ok M ∧ Tensor.partialProduct A k (some M) 0 = .ok c ∧ c.shape = A.shape ∧ ∀ p, Valid A.shape p →
      c.get p = if p.getD k 0 + 1 < H.nDims.getD k 0 then A.get (p.set k (p.getD k 0 + 1)) else 0) ∧
    (∃ M c, H.numberer k = .ok M ∧ Tensor.partialProduct A k (some M) 0 = .ok c ∧ c.shape = A.shape ∧ ∀ p, Valid A.shape p →
      c.get p = (p.getD k 0 : ℂ) * A.get p) := by
  have hlt : ∀ p, Valid A.shape p → p.getD k 0 < H.nDims.getD k 0 := fun p hp => hd ▸ hp.getD_lt hA 0 0
  obtain ⟨P, p1, p2, p3, p4⟩ := eye_matmul 1 (arange_shape (H.nDims.getD k 0)) (fun a b ha hb => arange_diag_get ha hb)
  obtain ⟨c0, z1, z2, z3, z4⟩ := partialProduct_mat A P hA hd p3
  obtain ⟨c1, a1, a2, a3, a4⟩ := partialProduct_mat A _ hA hd (eye_shape (H.nDims.getD k 0) 1)
  obtain ⟨c2, b1, b2, b3, b4⟩ := partialProduct_mat A _ hA hd (eye_shape (H.nDims.getD k 0) (-1))
  obtain ⟨c3, n1, n2, n3, n4⟩ := partialProduct_mat A _ hA hd (arange_shape (H.nDims.getD k 0))
  refine ⟨⟨_, _, P, c0, H.raiser_ok hk, H.num_ok hk, p1, z1, z3, fun p hp => ?_⟩, ⟨_, c1, H.raiser_ok hk, a1, a3, fun p hp => ?_⟩,
    ⟨_, c2, H.lower_ok hk, b1, b3, fun p hp => ?_⟩, ⟨_, c3, H.num_ok hk, n1, n3, fun p hp => ?_⟩⟩
  · rw [z4 p hp]; exact sum_down (hlt p hp) (fun x => A.get (p.set k x)) (fun x => (x : ℂ)) p4
  · rw [a4 p hp, sum_down (hlt p hp) (fun x => A.get (p.set k x)) (fun _ => 1) fun a b ha hb => eye_get 1 ha hb]; simp only [one_mul]
  · rw [b4 p hp, sum_up (hlt p hp) (fun x => A.get (p.set k x)) (fun _ => 1) fun a b ha hb => eye_get (-1) ha hb]; simp only [one_mul]
  · rw [n4 p hp, sum_diag (hlt p hp) (fun x => A.get (p.set k x)) (fun x => (x : ℂ)) fun a b ha hb => arange_diag_get ha hb,
      set_self (by rw [hp.length_eq]; exact hA)]

/-- The operators of `eom.py` are exchanged: what is called `_raiser` takes tier `n` from tier `n + 1`, `_lower` from tier `n - 1`. -/
theorem C44_eom_violated (H : Hierachy2) {k : ℕ} (hk : k < H.nDims.length) (A : Nd ℂ) (hA : k < A.shape.length)
    (hd : A.shape.getD k 0 = H.nDims.getD k 0) :
    (∃ M c, H.lower1 k = .ok M ∧ Tensor.partialProduct A k (some M) 0 = .ok c ∧ c.shape = A.shape ∧ ∀ p, Valid A.shape p →
      c.get p = if p.getD k 0 = 0 then 0 else A.get (p.set k (p.getD k 0 - 1))) ∧
    (∃ M c, H.raiser1 k = .ok M ∧ Tensor.partialProduct A k (some M) 0 = .ok c ∧ c.shape = A.shape ∧ ∀ p, Valid A.shape p →
      c.get p = if p.getD k 0 + 1 < H.nDims.getD k 0 then A.get (p.set k (p.getD k 0 + 1)) else 0) := by
  obtain ⟨-, ⟨M, c, m1, m2⟩, ⟨N, e, n1, n2⟩, -⟩ := C44_eom2_partial H hk A hA hd
  rw [H.raiser_ok hk] at m1
  rw [H.lower_ok hk] at n1
  exact ⟨⟨M, c, m1 ▸ H.lower1_ok hk, m2⟩, ⟨N, e, n1 ▸ H.raiser1_ok hk, n2⟩⟩

/-! ### C45 -/

private theorem get_ofFn_data {s p : List ℕ} (f : List ℕ → ℂ) (hv : Valid s p) : (⟨s, (Nd.ofFn s f).data⟩ : Nd ℂ).get p = f p :=
  Nd.get_ofFn f hv

/-- `gen_extended_rho` puts `rho` at tier 0 of all modes and zeros elsewhere. -/
theorem C45_extended (hr : rho.shape = [d, d]) (hpos : ∀ m ∈ dims, 0 < m) :
    ∃ A, genExtendedRho dims rho = .ok A ∧ A.Wf ∧ A.shape = dims ++ [d, d] ∧ ∀ n a b, Valid dims n → a < d → b < d →
      tier A n a b = if n = List.replicate dims.length 0 then rho.get [a, b] else 0 := by
  have hp : dims.prod ≠ 0 := (prod_pos hpos).ne'
  refine ⟨⟨dims ++ [d, d], (Nd.ofFn (dims.prod :: [d, d]) fun p => (if p.getD 0 0 = 0 then (1 : ℂ) else 0) * rho.get (p.drop 1)).data⟩,
    ?_, ?_, rfl, ?_⟩
  · unfold genExtendedRho
    rw [hr]
    dsimp only
    simp only [List.length_cons, List.length_nil, zero_add, Nat.reduceAdd, List.getD_cons_zero, List.getD_cons_succ, and_self, not_true_eq_false, if_false, if_neg hp]
    unfold Nd.reshape
    rw [if_pos (by simp)]
  · have := Nd.ofFn_wf (dims.prod :: [d, d]) fun p => (if p.getD 0 0 = 0 then (1 : ℂ) else 0) * rho.get (p.drop 1)
    unfold Nd.Wf at this ⊢
    rw [this]
    simp
  · intro n a b hn ha hb
    unfold tier
    have hv : Valid (dims.prod :: [d, d]) (ravel dims n :: [a, b]) := by
      simp [ravel_lt hn, ha, hb, Valid]
    have key : ∀ data : List ℂ, (⟨dims ++ [d, d], data⟩ : Nd ℂ).get (n ++ [a, b]) =
        (⟨dims.prod :: [d, d], data⟩ : Nd ℂ).get (ravel dims n :: [a, b]) := by
      intro data
      unfold Nd.get
      dsimp only
      rw [ravel_append hn.length_eq]
      rfl
    rw [key]
    refine (get_ofFn_data _ hv).trans ?_
    simp only [List.getD_cons_zero, List.drop_succ_cons, List.drop_zero, ravel_zero_iff hpos hn, ite_mul, one_mul, zero_mul]

/-- `gen_extended_rho` refuses what is not a square matrix. -/
theorem C45_not_square (hr : ¬ (rho.shape.length = 2 ∧ rho.shape.getD 0 0 = rho.shape.getD 1 0)) :
    genExtendedRho dims rho = .error .assertionError := by
  unfold genExtendedRho
  dsimp only
  rw [if_pos hr]
  rfl

/-- With an empty tier there is no place for it: `IndexError`. -/
theorem C45_empty (hr : rho.shape = [d, d]) (h0 : 0 ∈ dims) : genExtendedRho dims rho = .error .indexError := by
  unfold genExtendedRho
  rw [hr]
  have hp : dims.prod = 0 := List.prod_eq_zero h0
  dsimp only
  simp only [List.length_cons, List.length_nil, zero_add, Nat.reduceAdd, List.getD_cons_zero, List.getD_cons_succ, and_self,
    not_true_eq_false, if_false, if_pos hp]
  rfl

/-- `simple_heom` builds a complete network with leaves named after the system indices and the modes, and it represents the extended
density: the amplitude is the entry of `rho` if all modes are at tier 0, and zero otherwise. -/
theorem C45_simple_heom (h0 : Heap ℂ) (hi : h0.LinkInv) (hr : rho.shape = [d, d]) (hd : 0 < d) (hpos : ∀ m ∈ dims, 0 < m) :
    ∃ (h' : Heap ℂ) (r : ℕ) (F : Forest) (leaves : List ℕ), simpleHeom h0 rho dims = .ok (h', r) ∧ h'.IsTTN r F ∧ h'.Rooted r F ∧
      (∀ b ∈ r :: F.ids, h'.checkCompletness b true = .ok ()) ∧
      h'.leafList r F = leaves.zip ([d, d] ++ dims) ∧ leaves.length = dims.length + 2 ∧
      leaves.map (fun l => (h'.node l).name) =
        ([dims.length, dims.length + 1] ++ List.range dims.length).map (fun k => some (strNat k)) ∧
      ∀ x n a b, Valid dims n → a < d → b < d → leaves.map x = [a, b] ++ n →
        h'.treeAmp r F x = if n = List.replicate dims.length 0 then rho.get [a, b] else 0 := by
  have hp : dims.prod ≠ 0 := (prod_pos hpos).ne'
  set A : Nd ℂ := ⟨[d, d] ++ dims, (Nd.ofFn ([d, d] ++ [dims.prod]) fun p => rho.get (p.take 2) *
    (if p.getD 2 0 = 0 then (1 : ℂ) else 0)).data⟩ with hA
  have hw : A.Wf := by
    have := Nd.ofFn_wf ([d, d] ++ [dims.prod]) fun p => rho.get (p.take 2) * (if p.getD 2 0 = 0 then (1 : ℂ) else 0)
    unfold Nd.Wf at this ⊢
    rw [hA, this]
    simp
  set names : List (List Char) := [strNat dims.length, strNat (dims.length + 1)] ++ (List.range dims.length).map strNat with hnames
  have hl : names.length = A.ndim := by simp [hnames, hA, Nd.ndim]
  have hlen : names.length = dims.length + 2 := by simp [hnames]
  obtain ⟨s1, s2, s3, s4, s5, s6, s7⟩ := star_ttn h0 hi "root".toList A hw (by
    intro m hm
    simp only [hA, List.cons_append, List.nil_append, List.mem_cons] at hm
    rcases hm with rfl | rfl | hm
    · exact hd
    · exact hd
    · exact hpos m hm) names hl
  refine ⟨_, h0.next, starForest names.length 0 (h0.next + 1), (List.range names.length).map fun t => h0.next + 1 + t, ?_, s1, s2, s7, ?_, ?_,
    ?_, ?_⟩
  · unfold simpleHeom getNState
    rw [hr, if_pos (by simp), ok_bind, if_neg hp]
    dsimp only
    unfold Nd.reshape
    rw [if_pos (by simp)]
    rfl
  · rw [s4]
    apply List.ext_getElem
    · simp [hlen]
    · intro t h1 h2
      simp only [List.getElem_map, List.getElem_range, List.getElem_zip, Prod.mk.injEq, true_and]
      rw [List.getD_eq_getElem]
  · simp [hlen]
  · rw [List.map_map]
    apply List.ext_getElem
    · simp [hlen]
    · intro t h1 h2
      have ht : t < names.length := by simpa using h1
      simp only [List.getElem_map, List.getElem_range, Function.comp_apply]
      rw [s5 t ht]
      congr 1
      have : names = ([dims.length, dims.length + 1] ++ List.range dims.length).map strNat := by simp [hnames]
      rw [List.getElem_of_eq this, List.getElem_map]
  · intro x n a b hn ha hb hx
    rw [s6]
    rw [List.map_map] at hx
    have hx' : (List.range A.ndim).map (fun t => x (h0.next + 1 + t)) = [a, b] ++ n := by rw [← hl]; exact hx
    rw [hx']
    have hv : Valid ([d, d] ++ [dims.prod]) ([a, b] ++ [ravel dims n]) := by
      simp [ravel_lt hn, ha, hb, Valid]
    have key : ∀ data : List ℂ, (⟨[d, d] ++ dims, data⟩ : Nd ℂ).get ([a, b] ++ n) =
        (⟨[d, d] ++ [dims.prod], data⟩ : Nd ℂ).get ([a, b] ++ [ravel dims n]) := by
      intro data
      unfold Nd.get
      dsimp only
      rw [ravel_append (s₁ := [d, d]) (i₁ := [a, b]) rfl, ravel_append (s₁ := [d, d]) (i₁ := [a, b]) rfl]
      simp [ravel]
    rw [hA, key]
    refine (get_ofFn_data _ hv).trans ?_
    simp only [List.cons_append, List.nil_append, List.take_succ_cons, List.take_zero, List.getD_cons_succ, List.getD_cons_zero,
      ravel_zero_iff hpos hn, mul_ite, mul_one, mul_zero]

/-! The hypotheses can be met: a spin with two modes of three and two tiers in a Drude bath at zero temperature, and the tunnelling
Hamiltonian. -/

/-- `σ_x` -/
def exX : Nd ℂ := ⟨[2, 2], [0, 1, 1, 0]⟩
/-- `σ_z` -/
def exZ : Nd ℂ := ⟨[2, 2], [1, 0, 0, -1]⟩
/-- The initial density: the first state. -/
def exRho : Nd ℂ := ⟨[2, 2], [1, 0, 0, 0]⟩

private theorem two {a : ℕ} (h : a < 2) : a = 0 ∨ a = 1 := by omega

theorem exX_ok : exX.shape = [2, 2] ∧ Symmetric 2 exX ∧ Hermitian 2 exX := by
  refine ⟨rfl, ?_, ?_⟩ <;> intro a b ha hb <;> rcases two ha with rfl | rfl <;> rcases two hb with rfl | rfl <;>
    simp [exX, Nd.get, ravel]

theorem exZ_ok : exZ.shape = [2, 2] ∧ Symmetric 2 exZ ∧ Hermitian 2 exZ := by
  refine ⟨rfl, ?_, ?_⟩ <;> intro a b ha hb <;> rcases two ha with rfl | rfl <;> rcases two hb with rfl | rfl <;>
    simp [exZ, Nd.get, ravel]

/-- The extended density of the example is Hermitian at all tiers. -/
theorem exExt : ∃ A, genExtendedRho [3, 2] exRho = .ok A ∧ A.Wf ∧ A.shape = [3, 2] ++ [2, 2] ∧ AllHermitian 2 [3, 2] A := by
  obtain ⟨A, h1, h2, h3, h4⟩ := C45_extended (d := 2) (dims := [3, 2]) (rho := exRho) rfl (by simp)
  refine ⟨A, h1, h2, h3, ?_⟩
  intro n hn a b ha hb
  rw [h4 n a b hn ha hb, h4 n b a hn hb ha]
  rcases two ha with rfl | rfl <;> rcases two hb with rfl | rfl <;> split <;> simp [exRho, Nd.get, ravel]

example : ∃ corr A H ts D, Corr.drude 1 2 2 none Corr.matsubara = .ok corr ∧ genExtendedRho [3, 2] exRho = .ok A ∧
    Hierachy.init [3, 2] exX exZ corr = .ok H ∧ H.diff = .ok ts ∧ derivativeOf ts A = .ok D ∧ physicalTrace 2 [3, 2] D = 0 ∧
    AllHermitian 2 [3, 2] D := by
  obtain ⟨corr, hc⟩ := Corr.C46_drude_zero 1 2 2 Corr.matsubara
  obtain ⟨A, a1, a2, a3, a4⟩ := exExt
  have hl : ∀ n r, Corr.matsubara n = .ok r → r.1.length = n ∧ r.2.length = n := by
    intro n r hr
    obtain ⟨r', h1, h2⟩ := (Corr.C46_decompositions_partial (fun d _ => d) (fun _ _ => rfl) n).1
    cases h1.symm.trans hr
    exact h2
  obtain ⟨e1, e2⟩ := Corr.C46_drude_partial hl hc
  unfold Corr.Consistent at e2
  obtain ⟨H, ts, D, h1, h2, h3, h4⟩ := C42_hierachy_partial (dims := [3, 2]) (corr := corr) e1.symm exX_ok.1 exZ_ok.1
    (by simp; omega) (by simp; omega) (by simp; omega) exX_ok.2.1 exZ_ok.2.1 (by simp) a2 a3
  obtain ⟨H', ts', D', h1', h2', h3', h4'⟩ := C43_drude_partial (dims := [3, 2]) hl
    (fun n => (Corr.C47_decompositions (fun d _ => d) n).1) hc exX_ok.1 exZ_ok.1 exX_ok.2.2 exZ_ok.2.2 exX_ok.2.1 exZ_ok.2.1 a2 a3 a4
  cases h1.symm.trans h1'
  cases h2.symm.trans h2'
  cases h3.symm.trans h3'
  exact ⟨corr, A, H, ts, D, hc, a1, h1, h2, h3, h4, h4'⟩

example : ∃ A H ts D, genExtendedRho [3, 2] exRho = .ok A ∧
    Hierachy2.init [3, 2] exX exZ ⟨2, [1, 2], [3, 0], [1, 0]⟩ = .ok H ∧ H.diff (fun z => decide (‖z‖ < 1e-8)) = .ok ts ∧
    derivativeOf ts A = .ok D ∧ physicalTrace 2 [3, 2] D = 0 ∧ AllHermitian 2 [3, 2] D := by
  obtain ⟨A, a1, a2, a3, a4⟩ := exExt
  have hc : (decide (‖(0 : ℂ)‖ < 1e-8)) = true := by simp; norm_num
  obtain ⟨H, ts, D, h1, h2, h3, h4⟩ := C42_eom2 (dims := [3, 2]) (corr := ⟨2, [1, 2], [3, 0], [1, 0]⟩) (close := fun z => decide (‖z‖ < 1e-8)) hc rfl exX_ok.1 exZ_ok.1
    (by simp) (by simp) (by simp) (by simp) a2 a3
  obtain ⟨H', ts', D', h1', h2', h3', h4'⟩ := C43_eom2 (dims := [3, 2]) (corr := ⟨2, [1, 2], [3, 0], [1, 0]⟩) (close := fun z => decide (‖z‖ < 1e-8)) hc rfl exX_ok.1 exZ_ok.1
    (by simp) (by simp) (by simp) (by simp) exX_ok.2.2 exZ_ok.2.2 a2 a3 a4
  cases h1.symm.trans h1'
  cases h2.symm.trans h2'
  cases h3.symm.trans h3'
  exact ⟨A, H, ts, D, a1, h1, h2, h3, h4, h4'⟩

example : ∃ A H ts D, genExtendedRho [3, 2] exRho = .ok A ∧
    Hierachy2.init [3, 2] exX exZ ⟨2, [1, 2], [3, 0], [1, 0]⟩ = .ok H ∧ H.diff1 = .ok ts ∧
    derivativeOf ts A = .ok D ∧ AllHermitian 2 [3, 2] D := by
  obtain ⟨A, a1, a2, a3, a4⟩ := exExt
  obtain ⟨H, ts, D, h1, h2, h3, h4⟩ := C43_eom_partial (dims := [3, 2]) (corr := ⟨2, [1, 2], [3, 0], [1, 0]⟩) rfl exX_ok.1 exZ_ok.1
    (by simp) (by simp) (by simp) (by simp) exX_ok.2.2 exZ_ok.2.2 exZ_ok.2.1 a2 a3 a4
  exact ⟨A, H, ts, D, a1, h1, h2, h3, h4⟩

example : ∃ h' r, simpleHeom Heap.empty exRho [3, 2] = .ok (h', r) := by
  obtain ⟨h', r, F, l, h1, -⟩ := C45_simple_heom (d := 2) (dims := [3, 2]) (rho := exRho) Heap.empty (Heap.linkInv_of_reachable .empty) rfl (by omega) (by simp)
  exact ⟨h', r, h1⟩

end Heom
