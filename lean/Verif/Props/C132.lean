import Verif.Lemmas.Regular
import Verif.Lemmas.FormEnv
import Verif.Spec.Regular
import Verif.Props.C60
import Verif.Props.C131

/-!
C132: the regularized inverse densities.
-/

open scoped BigOperators ComplexOrder
open Py

namespace ML

open Heap

variable {T : Type} [Zero T]

theorem bond_far {s : Obj T ℂ} {F : Forest} (ht : s.heap.IsTTN s.root F) {e : ℕ × ℕ × ℕ × ℕ} (he : e ∈ s.heap.bonds s.root F) (c j : ℕ)
    (h : s.heap.acc e.2.2.1 e.2.2.2 = some (c, j)) : s.heap.isLeaf c = false := by
  have h1 := ht.isNet.isLink e he
  have h2 := ht.links.sym _ _ _ _ h1.1.1
  rw [h] at h2
  cases h2
  exact (mem_tensors.1 h1.2.1).2

/-- **C132, densities.** In every tree tensor network, whatever its arrays, the density matrix of every tensor but the root is Hermitian and positive semidefinite. -/
theorem C132_density {s : Obj T ℂ} {F : Forest} (ht : s.heap.IsTTN s.root F) {e : ℕ × ℕ × ℕ × ℕ} (he : e ∈ s.heap.bonds s.root F) {d : Nd ℂ}
    (hd : IsDensity s e.2.2.1 e.2.2.2 d) : d.Wf ∧ d.shape = [s.heap.hdim (e.2.2.1, e.2.2.2), s.heap.hdim (e.2.2.1, e.2.2.2)] ∧
    (∀ v < s.heap.hdim (e.2.2.1, e.2.2.2), ∀ w < s.heap.hdim (e.2.2.1, e.2.2.2), d.get [w, v] = star (d.get [v, w])) ∧
    ∀ w, 0 ≤ quadForm (s.heap.hdim (e.2.2.1, e.2.2.2)) d w := by
  obtain ⟨h1, h2, m, a, h3⟩ := density_gram hd (bond_far ht he) (mem_bonds.1 he).2
  have hp := posSemidef_of_gram h3
  refine ⟨h1, h2, fun v hv w hw => ?_, fun w => ?_⟩
  · have := congrFun (congrFun hp.1 ⟨w, hw⟩) ⟨v, hv⟩
    exact this.symm
  · have := hp.dotProduct_mulVec_nonneg (fun i => w i.1)
    refine this.trans_eq ?_
    unfold quadForm mulVec
    rw [Finset.sum_range]
    refine Finset.sum_congr rfl fun i _ => ?_
    rw [Finset.sum_range]
    rfl

theorem density_regular {s : Obj T ℂ} {F : Forest} (ht : s.heap.IsTTN s.root F) {lin : Linalg ℂ} {eps : ℝ} (h0 : 0 < eps) (hlin : lin.Regular eps)
    {e : ℕ × ℕ × ℕ × ℕ} (he : e ∈ s.heap.bonds s.root F) {d : Nd ℂ} (hd : IsDensity s e.2.2.1 e.2.2.2 d) {n : ℕ} (hn : n = s.heap.hdim (e.2.2.1, e.2.2.2)) :
    ∃ M, lin.invert (some d) n = .ok M ∧ M.Wf ∧ M.shape = [n, n] ∧
      (∀ b < n, ∀ z < n, ∑ c ∈ Finset.range n, M.get [b, c] * (d.get [c, z] + if c = z then (eps : ℂ) else 0) = if b = z then 1 else 0) ∧
      ∀ lam : ℝ, 0 ≤ lam → (∀ w, lam * sqNorm n w ≤ (quadForm n d w).re) → ∀ w, (lam + eps) ^ 2 * sqNorm n (mulVec n M w) ≤ sqNorm n w ∧
        (lam + eps) ^ 2 * sqNorm n (fun b => mulVec n M (mulVec n d w) b - w b) ≤ eps ^ 2 * sqNorm n w := by
  subst hn
  exact invert_regular h0 hlin (C132_density ht he hd).1 (C132_density ht he hd).2.1 fun w => (Complex.le_def.1 ((C132_density ht he hd).2.2.2 w)).1

/-- **C132, the inverses.** With `pinv=False` and a positive `regular_err` the inverses are found for every tree tensor network, also when
densities are singular, and the matrix kept for a tensor is the inverse of its density plus `regular_err` times the identity. If the
density is at least `lam` (it is always at least 0), then the matrix shortens every vector at least by the factor `lam + regular_err`, and its product with the density differs
from the identity by at most `regular_err / (lam + regular_err)`. -/
theorem C132_inverse {s : Obj T ℂ} {F : Forest} (ht : s.heap.IsTTN s.root F) (hroot : s.heap.Rooted s.root F)
    (hnorm : ∀ t ∈ s.heap.tensors s.root F, (s.heap.node t).axis ≠ none → s.heap.MarkOk t)
    (hax : ∀ l ∈ F.ids, s.heap.isLeaf l = true → (s.heap.node l).axis = none)
    {lin : Linalg ℂ} {eps : ℝ} (h0 : 0 < eps) (hlin : lin.Regular eps) {fuel : ℕ} (hf : F.ids.length < fuel) :
    ∃ h' inv, formInvDensity fuel lin s = .ok ({ s with heap := h' }, inv) ∧ Clean s F { s with heap := h' } ∧
      ∀ e ∈ s.heap.bonds s.root F, ∃ n d M, n = s.heap.hdim (e.2.2.1, e.2.2.2) ∧ IsDensity s e.2.2.1 e.2.2.2 d ∧ inv.get? e.2.2.1 = some M ∧
        M.shape = [n, n] ∧
        (∀ b < n, ∀ z < n, ∑ c ∈ Finset.range n, M.get [b, c] * (d.get [c, z] + if c = z then (eps : ℂ) else 0) = if b = z then 1 else 0) ∧
        (∀ w, eps ^ 2 * sqNorm n (mulVec n M w) ≤ sqNorm n w) ∧
        ∀ lam : ℝ, 0 ≤ lam → (∀ w, lam * sqNorm n w ≤ (quadForm n d w).re) → ∀ w, (lam + eps) ^ 2 * sqNorm n (mulVec n M w) ≤ sqNorm n w ∧
          (lam + eps) ^ 2 * sqNorm n (fun b => mulVec n M (mulVec n d w) b - w b) ≤ eps ^ 2 * sqNorm n w := by
  obtain ⟨h', inv, a1, a2, a3⟩ := formInvDensity_ok ht hroot hnorm hax (lin := lin) hf fun e he d hd => by
    obtain ⟨M, hM, -⟩ := density_regular ht h0 hlin he hd rfl
    exact ⟨M, hM⟩
  refine ⟨h', inv, a1, a2, fun e he => ?_⟩
  obtain ⟨d, M, b1, b2, b3⟩ := a3 e he
  obtain ⟨M', c1, c2, c3, c4, c5⟩ := density_regular ht h0 hlin he b2 rfl
  obtain rfl : M' = M := Except.ok.inj (c1.symm.trans b3)
  refine ⟨_, d, M', rfl, b2, b1, c3, c4, fun w => ?_, c5⟩
  have := (c5 0 le_rfl (fun w => by rw [zero_mul]; exact (Complex.le_def.1 ((C132_density ht he b2).2.2.2 w)).1) w).1
  rwa [zero_add] at this

theorem works_of_regular {s : Obj T ℂ} {F : Forest} (ht : s.heap.IsTTN s.root F) {lin : Linalg ℂ} {eps : ℝ} (h0 : 0 < eps) (hlin : lin.Regular eps) :
    lin.Works s F := fun e he d hd => by
  obtain ⟨M, hM, -, h2, -⟩ := density_regular ht h0 hlin he hd rfl
  exact ⟨M, hM, h2⟩

/-- **C132, the norm.** With `pinv=False` and a positive `regular_err`, the equations of motion of `direct_step` have a value for every state,
whatever the ranks of its densities, and without `init_energy` they do not change the norm if the Hamiltonian is Hermitian. -/
theorem C132_norm {s : Obj T ℂ} {F : Forest} (hr : DirectReady s F) {lin : Linalg ℂ} {eps : ℝ} (h0 : 0 < eps) (hlin : lin.Regular eps)
    {coef : ℂ} (hcoef : coef ≠ 0) (hg : Generates s F coef) {fuel : ℕ} (hf : F.ids.length < fuel) :
    ∃ s', derivative fuel lin coef none s = .ok s' ∧
      dot s F (velocity s s' F) (s.heap.treeAmp s.root F) + dot s F (s.heap.treeAmp s.root F) (velocity s s' F) = 0 :=
  C61_norm_partial hr (works_of_regular hr.ttn h0 hlin) hcoef hg hf

/-! ### A product state -/

open SplitProp

/-- The two spins in the product state `|00>`. -/
noncomputable def exFlat : Heap ℂ := exSpins.setArray 0 (some ⟨[2, 2], [1, 0, 0, 0]⟩)

noncomputable def exFlatObj : Obj ℝ ℂ := exSpinState.ext.obj exFlat 0

open Classical in
/-- `scipy.linalg.inv` and `regular_err = 1e-8`. -/
noncomputable def exRegLin : Linalg ℂ where
  pinv2 := fun _ => .error .valueError
  inv := fun d => if h : ∃ (M : Nd ℂ) (n : ℕ), d.shape = [n, n] ∧ M.Wf ∧ M.shape = [n, n] ∧ LeftInv n (fun b c => M.get [b, c]) d then .ok h.choose else .error .valueError
  usePinv := false
  regularErr := ((10⁻¹ ^ 8 : ℝ) : ℂ)

theorem exRegLin_regular : exRegLin.Regular (10⁻¹ ^ 8) where
  pinv := rfl
  err := rfl
  inv := by
    intro n d hd hs ⟨N, hN⟩
    have h : ∃ (M : Nd ℂ) (n : ℕ), d.shape = [n, n] ∧ M.Wf ∧ M.shape = [n, n] ∧ LeftInv n (fun b c => M.get [b, c]) d := by
      refine ⟨Nd.ofFn [n, n] fun w => N (w.getD 0 0) (w.getD 1 0), n, hs, Nd.ofFn_wf _ _, rfl, fun b hb z hz => ?_⟩
      rw [← hN b hb z hz]
      refine Finset.sum_congr rfl fun c hc => ?_
      beta_reduce
      rw [Nd.get_ofFn _ (by simp [Valid, hb, Finset.mem_range.1 hc])]
      rfl
    obtain ⟨m, h1, h2, h3, h4⟩ := h.choose_spec
    obtain rfl : m = n := by simpa using h1.symm.trans hs
    exact ⟨h.choose, by simp only [exRegLin]; rw [dif_pos h], h2, h3, h4⟩

theorem exFlat_sim : (∀ t, exFlat.isLeaf t = exSpins.isLeaf t) ∧ exFlat.bonds 0 exTwoForest = [(0, 0, 1, 1)] ∧ exFlat.tensors 0 exTwoForest = [0, 1] ∧
    exFlat.leafList 0 exTwoForest = exSpins.leafList 0 exTwoForest :=
  ⟨fun t => by unfold exFlat Heap.isLeaf; rw [node_setArray]; split <;> rfl, by decide +kernel, by decide +kernel, by rw [exSpin_leaves]; decide +kernel⟩

theorem exFlat_ttn : exFlat.IsTTN 0 exTwoForest := exSpins_ttn.setArray (A := ⟨[2, 2], [3/5, 0, 0, 4/5 * Complex.I]⟩) rfl (by simp [Nd.Wf]) rfl

theorem exFlat_canonical : exFlat.Canonical 1 1 := by
  obtain ⟨A, h1, h2, h3⟩ := exSpins_canonical
  exact ⟨A, h1, h2, h3⟩

theorem exFlat_ready : DirectReady exFlatObj exTwoForest where
  ttn := exFlat_ttn
  rooted := ⟨rfl, by decide +kernel⟩
  can := by
    intro e he
    have he' : e ∈ exFlat.bonds 0 exTwoForest := he
    rw [exFlat_sim.2.1, List.mem_singleton] at he'
    subst he'; exact exFlat_canonical
  norm := by
    intro t ht hx
    have ht' : t ∈ exFlat.tensors 0 exTwoForest := ht
    rw [exFlat_sim.2.2.1] at ht'
    simp only [List.mem_cons, List.not_mem_nil, or_false] at ht'
    rcases ht' with rfl | rfl
    · exact absurd rfl hx
    · intro A _ _ _; exact exFlat_canonical
  axes := (by decide +kernel : ∀ l ∈ exTwoForest.ids, exFlat.isLeaf l = true → (exFlat.node l).axis = none)
  leaf := fun term ht p hp => by
    have := (exSpin_start.leaf term ht p hp).1
    rw [← exFlat_sim.1] at this
    exact this
  fits := by
    intro term ht p hp
    have hp' : p ∈ exFlat.leafList 0 exTwoForest := hp
    rw [exFlat_sim.2.2.2, exSpin_leaves] at hp'
    have ht' : term ∈ exSpinTerms := ht
    simp only [exSpinTerms, List.mem_cons, List.not_mem_nil, or_false] at ht' hp'
    rcases ht' with rfl | rfl <;> rcases hp' with rfl | rfl
    · rfl
    all_goals exact ⟨by simp [Nd.Wf, TermOp.at], rfl⟩
  terms := by simp [exFlatObj, exSpinState, exSpinTerms, Obj.allTerms, SplitProp.Ext.obj]

theorem exFlat_generates : Generates exFlatObj exTwoForest 1 := by
  have := exSpin_generates
  have e1 : (exSpinState.ext.obj exSpins 0).heap.leafList (exSpinState.ext.obj exSpins 0).root exTwoForest = exFlatObj.heap.leafList exFlatObj.root exTwoForest :=
    exFlat_sim.2.2.2.symm
  unfold Generates hEntry termEntry at *
  rw [e1] at this
  exact this

/-- The density of tensor 1 in the product state is singular. -/
example : ∀ d, IsDensity exFlatObj 1 1 d → ¬ ∃ N, LeftInv 2 N d := by
  intro d hd ⟨N, hN⟩
  obtain ⟨E, h1, h2⟩ := hd
  have h3 : IsField (exFlatObj.withTerm []) 1 1 ((exFlatObj.withTerm []).branchEnv 0 0 (.cons 1 0 2 .nil .nil)) :=
    ⟨0, 0, by decide +kernel, .inr ⟨by decide +kernel, .cons 1 0 2 .nil .nil, ⟨by decide +kernel, ⟨by decide +kernel, trivial, trivial⟩, by decide +kernel,
      ⟨fun _ => rfl, trivial, trivial⟩⟩, rfl⟩⟩
  rw [h1.unique h3] at h2
  have hn : (exFlatObj.withTerm []).hdim (1, 1) = 2 := by decide +kernel
  simp only [hn] at h2
  obtain ⟨-, -, h4⟩ := h2
  have h5 : ∀ c < 2, (exFlatObj.withTerm []).branchEnv 0 0 (.cons 1 0 2 .nil .nil) c 1 = 0 := by
    intro c hc
    have hb : (exFlatObj.withTerm []).bonds 0 (.cons 1 0 2 .nil .nil) = [] := by decide +kernel
    have ht : (exFlatObj.withTerm []).tensors 0 (.cons 1 0 2 .nil .nil) = [0] := by decide +kernel
    have hl : (exFlatObj.withTerm []).leafList 0 (.cons 1 0 2 .nil .nil) = [(2, 2)] := by decide +kernel
    have hz : ∀ y, (exFlatObj.withTerm []).branchAmp 0 0 (.cons 1 0 2 .nil .nil) y 1 = 0 := by
      intro y
      unfold Heap.branchAmp
      rw [hb, ht]
      have ha : (exFlatObj.withTerm []).array 0 = some ⟨[2, 2], [1, 0, 0, 0]⟩ := rfl
      have : ∀ k, (⟨[2, 2], [1, 0, 0, 0]⟩ : Nd ℂ).get [1, k] = 0 := by
        intro k
        have : ravel [2, 2] [1, k] = k + 2 := by simp [ravel]; omega
        unfold Nd.get
        simp only [this]
        rcases k with _ | _ | k <;> simp
      simp [sumBonds, Heap.entry, ha, Nd.upd, Nd.ndim, List.range_succ, this]
    unfold Heap.branchEnv
    rw [hl]
    simp [sumLeaves, hz]
  have h6 := hN 1 (by omega) 1 (by omega)
  rw [Finset.sum_eq_zero fun c hc => by
    have := h4 c (Finset.mem_range.1 hc) 1 (by omega)
    rw [this, h5 c (Finset.mem_range.1 hc), mul_zero]] at h6
  simp at h6

example : ∃ s', derivative 5 exRegLin 1 none exFlatObj = .ok s' ∧
    dot exFlatObj exTwoForest (velocity exFlatObj s' exTwoForest) (exFlat.treeAmp 0 exTwoForest) +
      dot exFlatObj exTwoForest (exFlat.treeAmp 0 exTwoForest) (velocity exFlatObj s' exTwoForest) = 0 :=
  C132_norm exFlat_ready (by positivity) exRegLin_regular one_ne_zero exFlat_generates (by decide)

example : ∃ h' inv, formInvDensity 5 exRegLin exFlatObj = .ok ({ exFlatObj with heap := h' }, inv) ∧ ∃ M, inv.get? 1 = some M ∧
    ∀ w, (10⁻¹ ^ 8) ^ 2 * sqNorm 2 (mulVec 2 M w) ≤ sqNorm 2 w := by
  obtain ⟨h', inv, a1, -, a3⟩ := C132_inverse exFlat_ready.ttn exFlat_ready.rooted exFlat_ready.norm exFlat_ready.axes (by positivity) exRegLin_regular (fuel := 5) (by decide)
  obtain ⟨n, d, M, b1, -, b3, -, -, b6, -⟩ := a3 (0, 0, 1, 1) (by show (0, 0, 1, 1) ∈ exFlat.bonds 0 exTwoForest; rw [exFlat_sim.2.1]; simp)
  obtain rfl : n = 2 := b1.trans (by decide +kernel)
  exact ⟨h', inv, a1, M, b3, b6⟩

end ML
