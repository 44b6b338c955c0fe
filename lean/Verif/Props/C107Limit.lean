import Verif.Props.C107
import Verif.Lemmas.PartitionLimit

/-!
C107: the limit of small time steps. The relative partition function is `Z(β) / Z(0)` in the limit.
-/

open scoped BigOperators Matrix Topology
open Py Filter

namespace ML

open Heap

variable {T : Type} [Zero T]

/-- One tensor with two leaves `a` and `b` of dimension `d`, in the maximally entangled state, a Hermitian Hamiltonian `H` on leaf `a`, the
coefficient of `minitn/heom/propagate.py`, `direct_step` with `ode_method='RK4'`. With `n` steps of length `β / (2 n)` no step fails, and
`relative_partition_function` is a real number that tends to `tr exp(-β (H / hbar + init_energy)) / tr 1` as `n` grows. -/
theorem C107_limit_partial {s : Obj T ℂ} {F : Forest}
    (hr : DirectReady { s with time := none } F) (hone : ∀ l ∈ F.ids, s.heap.isLeaf l = true) {a b d : ℕ} (hab : a ≠ b) (hd : 0 < d)
    (hD : s.heap.leafList s.root F = [(a, d), (b, d)]) (hterms : ∀ term ∈ s.allTerms none, ∀ p ∈ term, p.1 = a) {z : ℂ} (hz : z * star z = 1 / (d : ℂ))
    (hψ : SameState [(a, d), (b, d)] (s.heap.treeAmp s.root F) (fun y => if y a = y b then z else 0)) (lin : Linalg ℂ) {hbar : ℝ} (hh : hbar ≠ 0)
    (initEnergy : Option ℝ) (β : ℝ) {H : Matrix (Fin d) (Fin d) ℂ} (hherm : H.IsHermitian)
    (hH : ∀ v w : Fin d, H v w = ((s.allTerms none).map fun term => opEntry (opOn 0 term a) v w).sum) {fuel : ℕ} (hf : F.ids.length < fuel) :
    ∃ r : ℕ → ℝ,
      (∀ n : ℕ, 0 < n → ∃ s' N,
        imaginaryRun (fun z => (Real.sqrt z.re : ℂ))
          (rk4Step fuel lin (heomCoefficient (hbar : ℂ) (none : Option T)) (initEnergy.map Complex.ofReal) ((β / (2 * n) : ℝ) : ℂ)) n (startNorm s) =
          .ok (s', N) ∧
        relativePartitionFunction (s', N) = (r n : ℂ)) ∧
      Tendsto (fun n : ℕ => (r n : ℂ)) atTop
        (𝓝 (Matrix.trace (NormedSpace.exp ((-β : ℂ) • ((1 / (hbar : ℂ)) • H + ((initEnergy.getD 0 : ℝ) : ℂ) • (1 : Matrix (Fin d) (Fin d) ℂ)))) /
          Matrix.trace (1 : Matrix (Fin d) (Fin d) ℂ))) := by
  have hc : heomCoefficient (hbar : ℂ) (none : Option T) = -(hbar : ℂ) := by simp [heomCoefficient]
  have hc0 : heomCoefficient (hbar : ℂ) (none : Option T) ≠ 0 := by rw [hc]; exact neg_ne_zero.2 (by exact_mod_cast hh)
  have hE0 : (initEnergy.map Complex.ofReal).getD 0 = ((initEnergy.getD 0 : ℝ) : ℂ) := by cases initEnergy <;> simp
  obtain ⟨G, hG⟩ : ∃ G : Matrix (Fin d) (Fin d) ℂ, G = (1 / heomCoefficient (hbar : ℂ) (none : Option T)) • H -
    ((initEnergy.map Complex.ofReal).getD 0) • (1 : Matrix (Fin d) (Fin d) ℂ) := ⟨_, rfl⟩
  have hG' : (1 / (hbar : ℂ)) • H + ((initEnergy.getD 0 : ℝ) : ℂ) • (1 : Matrix (Fin d) (Fin d) ℂ) = -G := by
    rw [hG, hc, hE0, one_div, one_div, inv_neg, neg_smul]
    abel
  have hGh : G.IsHermitian := by
    have h1 : (-G).IsHermitian := by
      rw [← hG']
      refine Matrix.IsHermitian.add ?_ ?_
      · rw [← Complex.ofReal_one, ← Complex.ofReal_div]
        unfold Matrix.IsHermitian
        rw [Matrix.conjTranspose_smul, hherm.eq]
        congr 1
        exact Complex.conj_ofReal _
      · unfold Matrix.IsHermitian
        rw [Matrix.conjTranspose_smul, Matrix.conjTranspose_one]
        congr 1
        exact Complex.conj_ofReal _
    have := h1.neg
    rwa [neg_neg] at this
  obtain ⟨U, l, u1, u2, hU⟩ := PartitionLimit.diagonalise hGh
  refine ⟨fun n => (∑ i, PartitionLimit.poly (β / 2 / n * l i) ^ (2 * n)) / d, fun n hn => ?_, ?_⟩
  · have htr : ∀ k, Matrix.trace (PartitionLimit.taylor G (β / 2 / n) ^ k * (PartitionLimit.taylor G (β / 2 / n) ^ k)ᴴ) =
        ((∑ i, PartitionLimit.poly (β / 2 / n * l i) ^ (2 * k) : ℝ) : ℂ) := by
      intro k
      rw [hU]
      exact PartitionLimit.trace_taylor u1 u2 _ k
    obtain ⟨s', N, a1, -, a3⟩ := C107_partition_partial sqrtOk_complex hr hone hab hD hterms hz hψ lin hc0 (initEnergy.map Complex.ofReal)
      ((β / 2 / n : ℝ) : ℂ) hH hG (E := PartitionLimit.taylor G (β / 2 / n)) rfl hf hn (by
        intro k _ _
        rw [htr k]
        have : 0 < ∑ i, PartitionLimit.poly (β / 2 / n * l i) ^ (2 * k) :=
          Finset.sum_pos (fun i _ => pow_pos (PartitionLimit.poly_pos _) _) ⟨⟨0, hd⟩, Finset.mem_univ _⟩
        exact_mod_cast this.ne')
    refine ⟨s', N, ?_, ?_⟩
    · rw [show β / (2 * n) = β / 2 / n by rw [div_div]]
      exact a1
    · rw [a3, htr n]
      push_cast
      rfl
  · have e : Matrix.trace (NormedSpace.exp ((-β : ℂ) • ((1 / (hbar : ℂ)) • H + ((initEnergy.getD 0 : ℝ) : ℂ) • (1 : Matrix (Fin d) (Fin d) ℂ)))) =
        ((∑ i, Real.exp (2 * (β / 2) * l i) : ℝ) : ℂ) := by
      rw [hG', smul_neg, neg_smul, neg_neg, hU, PartitionLimit.trace_exp u1 u2]
      congr 1
      refine Finset.sum_congr rfl fun i _ => ?_
      congr 1
      ring
    rw [e, Matrix.trace_one, Fintype.card_fin]
    have h1 := ((PartitionLimit.trace_limit l (β / 2)).div_const (d : ℝ))
    have h2 := (Complex.continuous_ofReal.tendsto _).comp h1
    push_cast at h2 ⊢
    refine h2.congr fun n => ?_
    simp

/-- The hypotheses hold for the two-level system of `C107.lean`. -/
example (lin : Linalg ℂ) (β : ℝ) : ∃ r : ℕ → ℝ,
    (∀ n : ℕ, 0 < n → ∃ s' N,
      imaginaryRun (fun z => (Real.sqrt z.re : ℂ)) (rk4Step 5 lin (heomCoefficient ((1 : ℝ) : ℂ) (none : Option ℝ)) ((none : Option ℝ).map Complex.ofReal)
        ((β / (2 * n) : ℝ) : ℂ)) n (startNorm exPairObj) = .ok (s', N) ∧
      relativePartitionFunction (s', N) = (r n : ℂ)) ∧
    Tendsto (fun n : ℕ => (r n : ℂ)) atTop
      (𝓝 (Matrix.trace (NormedSpace.exp ((-β : ℂ) • ((1 / ((1 : ℝ) : ℂ)) • Matrix.diagonal ![1, -1] + (((none : Option ℝ).getD 0 : ℝ) : ℂ) • (1 : Matrix (Fin 2) (Fin 2) ℂ)))) /
        Matrix.trace (1 : Matrix (Fin 2) (Fin 2) ℂ))) :=
  C107_limit_partial exPair_ready exPair_one (a := 1) (b := 2) (d := 2) (by decide) (by decide) exPair_leaves
    (by
      intro term ht p hp
      have ht' : term ∈ exPairObj.hList := ht
      simp only [exPairObj, List.mem_cons, List.not_mem_nil, or_false] at ht'
      subst ht'
      simp only [List.mem_cons, List.not_mem_nil, or_false] at hp
      subst hp; rfl)
    (z := rt2) (by
      unfold rt2
      rw [show star (((Real.sqrt 2)⁻¹ : ℝ) : ℂ) = (((Real.sqrt 2)⁻¹ : ℝ) : ℂ) from Complex.conj_ofReal _, ← Complex.ofReal_mul, ← mul_inv,
        Real.mul_self_sqrt (by norm_num)]
      norm_num)
    exPair_state lin one_ne_zero none β (H := Matrix.diagonal ![1, -1])
    (by
      unfold Matrix.IsHermitian
      rw [Matrix.diagonal_conjTranspose]
      congr 1
      funext i
      fin_cases i <;> simp)
    (by
      intro v w
      show _ = ([[(1, TermOp.mat ⟨[2, 2], [1, 0, 0, -1]⟩)]].map fun term => opEntry (opOn (0 : ℝ) term 1) v w).sum
      fin_cases v <;> fin_cases w <;> simp [opOn, opEntry, TermOp.at, Nd.get, ravel])
    (fuel := 5) (by decide)

end ML
