import Verif.Lemmas.Partition2
import Verif.Props.C69
import Verif.Model.SplitProp
import Mathlib.Tactic.IntervalCases
import Mathlib.Analysis.Complex.Trigonometric
import Mathlib.Analysis.SpecialFunctions.Trigonometric.DerivHyp

/-!
C107: propagation in imaginary time and `relative_partition_function`.
-/

open scoped BigOperators Matrix
open Py

namespace ML

open Heap

variable {T R : Type} [Zero T] [Field R] [StarRing R]

/-- A step that changes the state of a canonical network by a homogeneous map `L`, used for `n` steps in imaginary time: the network is
normalised after every step, and nothing is lost: `overall_norm` times the state is `L^n ψ`, and the relative partition function is the
squared norm of `L^n ψ`. -/
theorem C107_run {sqrt : R → R} (hq : SqrtOk sqrt) {step : Obj T R → Res (Obj T R)} {P : Obj T R → Prop} {F : Forest} {D : List (ℕ × ℕ)}
    {L : ((ℕ → ℕ) → R) → (ℕ → ℕ) → R} (hP : Orthogonal P F D) (hL : Homogeneous D L) (hs : Realises step P F D L) {s : Obj T R} (h : P s)
    {n : ℕ} (hn : 0 < n) (h0 : ∀ k, 0 < k → k ≤ n → squareNorm D (L^[k] (s.heap.treeAmp s.root F)) ≠ 0) :
    ∃ s' N, imaginaryRun sqrt step n (startNorm s) = .ok (s', N) ∧ P s' ∧
      SameState D (fun y => N * s'.heap.treeAmp s'.root F y) (L^[n] (s.heap.treeAmp s.root F)) ∧
      squareNorm D (s'.heap.treeAmp s'.root F) = 1 ∧ star N = N ∧
      relativePartitionFunction (s', N) = squareNorm D (L^[n] (s.heap.treeAmp s.root F)) := by
  have hD : (D.map Prod.fst).Nodup := by rw [← hP.leaves s h]; exact leafList_nodup (hP.ttn s h)
  obtain ⟨s', N, a1, a2, a3, a4, a5, a6⟩ := run_core hq hP hL hs n s 1 (s.heap.treeAmp s.root F) h (star_one R) one_ne_zero
    (fun y _ => (one_mul _).symm) h0
  refine ⟨s', N, a1, a2, fun y hy => (a5 y hy).symm, a6 hn, a3, ?_⟩
  rw [squareNorm_congr hD a5, squareNorm_smul, a6 hn, a3, mul_one]
  show N ^ 2 = _
  rw [pow_two]

/-- With `direct_step` and `ode_method='RK4'`, for a network of one tensor: `L` is the Taylor polynomial of degree 4 of
`exp(dt (H / coef - init_energy))`. (Missing: networks with more tensors, for which the step is no such map, see C69.) -/
theorem C107_rk4_partial [CharZero R] {sqrt : R → R} (hq : SqrtOk sqrt) {s : Obj T R} {F : Forest} (hr : DirectReady { s with time := none } F)
    (hone : ∀ l ∈ F.ids, s.heap.isLeaf l = true) (lin : Linalg R) {coef : R} (hcoef : coef ≠ 0) (initEnergy : Option R) (dt : R) {fuel : ℕ}
    (hf : F.ids.length < fuel) {n : ℕ} (hn : 0 < n)
    (h0 : ∀ k, 0 < k → k ≤ n → squareNorm (s.heap.leafList s.root F)
      ((taylor4 (generator { s with time := none } F coef initEnergy) dt)^[k] (s.heap.treeAmp s.root F)) ≠ 0) :
    ∃ s' N, imaginaryRun sqrt (rk4Step fuel lin coef initEnergy dt) n (startNorm s) = .ok (s', N) ∧
      SameState (s.heap.leafList s.root F) (fun y => N * s'.heap.treeAmp s'.root F y)
        ((taylor4 (generator { s with time := none } F coef initEnergy) dt)^[n] (s.heap.treeAmp s.root F)) ∧
      squareNorm (s.heap.leafList s.root F) (s'.heap.treeAmp s'.root F) = 1 ∧
      relativePartitionFunction (s', N) = squareNorm (s.heap.leafList s.root F)
        ((taylor4 (generator { s with time := none } F coef initEnergy) dt)^[n] (s.heap.treeAmp s.root F)) := by
  have hN : ((s.heap.leafList s.root F).map Prod.fst).Nodup := leafList_nodup hr.ttn
  obtain ⟨s', N, a1, -, a3, a4, -, a6⟩ := C107_run hq (OneTensor.orthogonal { s with time := none } F)
    (taylor4_hom (generator_hom { s with time := none } F hN coef initEnergy) dt)
    (rk4_realises { s with time := none } F lin hcoef initEnergy dt hf (fun u hu ho => by
      obtain ⟨s', h1, h2, -, -, -, -, -, h8⟩ := C69_rk4_partial hu ho lin hcoef initEnergy dt hf
      exact ⟨s', h1, h2, h8⟩))
    (s := { s with time := none }) ⟨hr, hone, rfl, rfl, rfl, rfl⟩ hn h0
  refine ⟨s', N, ?_, a3, a4, a6⟩
  obtain ⟨m, rfl⟩ := Nat.exists_eq_succ_of_ne_zero hn.ne'
  exact a1

/-- The partition function: one tensor with two leaves `a` and `b` of dimension `d`, in the maximally entangled state `δ / √d`, and a
Hamiltonian on leaf `a`. After `n` steps `relative_partition_function` is `tr(E^n (E^n)†) / d`, where `E` is the Taylor polynomial of degree 4 of
`exp(dt (H / coef - init_energy))` and `H` the matrix of the Hamiltonian. -/
theorem C107_partition_partial [CharZero R] {sqrt : R → R} (hq : SqrtOk sqrt) {s : Obj T R} {F : Forest}
    (hr : DirectReady { s with time := none } F) (hone : ∀ l ∈ F.ids, s.heap.isLeaf l = true) {a b d : ℕ} (hab : a ≠ b)
    (hD : s.heap.leafList s.root F = [(a, d), (b, d)]) (hterms : ∀ term ∈ s.allTerms none, ∀ p ∈ term, p.1 = a) {z : R} (hz : z * star z = 1 / (d : R))
    (hψ : SameState [(a, d), (b, d)] (s.heap.treeAmp s.root F) (fun y => if y a = y b then z else 0)) (lin : Linalg R) {coef : R} (hcoef : coef ≠ 0)
    (initEnergy : Option R) (dt : R) {H G E : Matrix (Fin d) (Fin d) R}
    (hH : ∀ v w : Fin d, H v w = ((s.allTerms none).map fun term => opEntry (opOn 0 term a) v w).sum)
    (hG : G = (1 / coef) • H - (initEnergy.getD 0) • (1 : Matrix (Fin d) (Fin d) R))
    (hE : E = 1 + dt • G + (dt ^ 2 / 2) • G ^ 2 + (dt ^ 3 / 6) • G ^ 3 + (dt ^ 4 / 24) • G ^ 4) {fuel : ℕ}
    (hf : F.ids.length < fuel) {n : ℕ} (hn : 0 < n) (h0 : ∀ k, 0 < k → k ≤ n → Matrix.trace (E ^ k * (E ^ k)ᴴ) ≠ 0) :
    ∃ s' N, imaginaryRun sqrt (rk4Step fuel lin coef initEnergy dt) n (startNorm s) = .ok (s', N) ∧
      squareNorm [(a, d), (b, d)] (s'.heap.treeAmp s'.root F) = 1 ∧
      relativePartitionFunction (s', N) = Matrix.trace (E ^ n * (E ^ n)ᴴ) / d := by
  have hHm : leafMatrix { s with time := none } d a = H := by
    funext v w
    rw [hH]
    rfl
  have hact : ActsOn [(a, d), (b, d)] a d (taylor4 (generator { s with time := none } F coef initEnergy) dt) E := by
    have := (generator_acts (s := { s with time := none }) hab hD hterms coef initEnergy).taylor4 hab dt
    rw [hHm, ← hG, ← hE] at this
    exact this
  have hsq : ∀ k, squareNorm (s.heap.leafList s.root F) ((taylor4 (generator { s with time := none } F coef initEnergy) dt)^[k] (s.heap.treeAmp s.root F)) =
      Matrix.trace (E ^ k * (E ^ k)ᴴ) / d := by
    intro k
    rw [hD, squareNorm_entangled hab (hact.iterate hab k) hψ, hz]
    ring
  have hd : (d : R) ≠ 0 := by
    intro q
    have : d = 0 := by exact_mod_cast q
    subst this
    exact h0 1 Nat.one_pos hn (by simp [Matrix.trace])
  obtain ⟨s', N, a1, -, a3, a4⟩ := C107_rk4_partial hq hr hone lin hcoef initEnergy dt hf hn
    (fun k h1 h2 => by rw [hsq k]; exact div_ne_zero (h0 k h1 h2) hd)
  exact ⟨s', N, a1, by rw [← hD]; exact a3, by rw [a4, hsq n]⟩

/-! ### One two-level system and its copy, `H = σ_z` -/

/-- `1 / √2` -/
noncomputable def rt2 : ℂ := ((Real.sqrt 2)⁻¹ : ℝ)

/-- A tensor with two leaves in the maximally entangled state. -/
noncomputable def exPair : Heap ℂ :=
  let h := (empty.alloc (Node.tensor (some ['a']) (some ⟨[2, 2], [rt2, 0, 0, rt2]⟩) none)).1
  let h := (h.alloc (Node.leaf (some ['x']))).1
  let h := (h.alloc (Node.leaf (some ['y']))).1
  let h := h.link 0 0 1 0
  h.link 0 1 2 0

/-- The forest. -/
def exPairForest : Forest := .cons 0 0 1 .nil (.cons 1 0 2 .nil .nil)

theorem exPair_reachable : Reachable exPair := by
  unfold exPair
  refine .link (.link (.new _ (.new _ (.new _ .empty rfl) rfl) rfl) ?_ ?_ ?_ ?_) ?_ ?_ ?_ ?_ <;> decide +kernel

theorem exPair_acc (k : ℕ) : exPair.acc 0 (k + 2) = none := by
  simp [exPair, Heap.acc_def, Heap.access, Heap.link, Heap.alloc, Heap.upd, Heap.empty, Node.tensor, Node.leaf,
    Dict.get?, Dict.set]

theorem exPair_full : exPair.Full 0 ⟨[2, 2], [rt2, 0, 0, rt2]⟩ := by
  refine ⟨rfl, rfl, by simp [Nd.Wf], by decide, fun k => ?_⟩
  rcases k with _ | _ | k
  · simp [Nd.ndim]; decide +kernel
  · simp [Nd.ndim]; decide +kernel
  · exact ⟨fun q => absurd (exPair_acc k) q, fun q => absurd q (by simp [Nd.ndim])⟩

theorem exPair_tensors : exPair.tensors 0 exPairForest = [0] := by decide +kernel

theorem exPair_ttn : exPair.IsTTN 0 exPairForest where
  links := linkInv_of_reachable exPair_reachable
  tree := ⟨by decide +kernel, ⟨by decide +kernel, trivial, ⟨by decide +kernel, trivial, trivial⟩⟩, by decide +kernel, ⟨fun _ => rfl, trivial, ⟨fun _ => rfl, trivial, trivial⟩⟩⟩
  leaf := rfl
  lt := by decide +kernel
  full := by
    rw [exPair_tensors]
    intro t ht
    simp only [List.mem_cons, List.not_mem_nil, or_false] at ht
    subst ht
    exact ⟨_, exPair_full⟩
  dims := by decide +kernel
  names := by
    rw [exPair_tensors]
    intro t ht
    simp only [List.mem_cons, List.not_mem_nil, or_false] at ht
    subst ht
    exact ⟨['a'], rfl⟩

/-- The object, with `h_list = [[(leaf, σ_z)]]`. -/
noncomputable def exPairObj : Obj ℝ ℂ := ⟨exPair, 0, [[(1, .mat ⟨[2, 2], [1, 0, 0, -1]⟩)]], none, some 0, []⟩

theorem exPair_leaves : exPair.leafList 0 exPairForest = [(1, 2), (2, 2)] := by decide +kernel

theorem exPair_one : ∀ l ∈ exPairForest.ids, exPair.isLeaf l = true := by decide +kernel

theorem exPair_ready : DirectReady { exPairObj with time := none } exPairForest where
  ttn := exPair_ttn
  rooted := ⟨rfl, by rw [show ({ exPairObj with time := none } : Obj ℝ ℂ).heap = exPair from rfl, bonds_one exPair_one]; simp⟩
  can := by
    unfold CanonicalTree
    rw [show ({ exPairObj with time := none } : Obj ℝ ℂ).heap = exPair from rfl, bonds_one exPair_one]; simp
  norm := by
    intro t ht hax
    replace ht : t ∈ exPair.tensors 0 exPairForest := ht
    rw [exPair_tensors] at ht
    simp only [List.mem_cons, List.not_mem_nil, or_false] at ht
    subst ht
    exact absurd rfl hax
  axes := by
    intro l hl _
    have : exPairForest.ids = [1, 2] := by decide
    rw [this] at hl
    simp only [List.mem_cons, List.not_mem_nil, or_false] at hl
    rcases hl with rfl | rfl <;> rfl
  leaf := by
    intro term ht p hp
    have ht' : term ∈ exPairObj.hList := ht
    simp only [exPairObj, List.mem_cons, List.not_mem_nil, or_false] at ht'
    subst ht'
    simp only [List.mem_cons, List.not_mem_nil, or_false] at hp
    subst hp; rfl
  fits := by
    intro term ht p hp
    have ht' : term ∈ exPairObj.hList := ht
    simp only [exPairObj, List.mem_cons, List.not_mem_nil, or_false] at ht'
    subst ht'
    replace hp : p ∈ exPair.leafList 0 exPairForest := hp
    rw [exPair_leaves] at hp
    simp only [List.mem_cons, List.not_mem_nil, or_false] at hp
    rcases hp with rfl | rfl
    · exact ⟨by simp [Nd.Wf, TermOp.at], rfl⟩
    · simp [OpFits, opOn]
  terms := by simp [exPairObj, Obj.allTerms]

theorem exPair_state : SameState [(1, 2), (2, 2)] (exPairObj.heap.treeAmp exPairObj.root exPairForest)
    (fun y => if y 1 = y 2 then rt2 else 0) := by
  intro y hy
  have h1 := hy (1, 2) (by simp)
  have h2 := hy (2, 2) (by simp)
  simp only at h1 h2
  show exPair.treeAmp 0 exPairForest y = _
  rw [amp_one exPair_ttn.leaf exPair_one exPair_full.array]
  have : exPair.oneIdx 0 2 y = [y 1, y 2] := rfl
  show Nd.get _ (exPair.oneIdx 0 2 y) = _
  rw [this]
  show _ = if y 1 = y 2 then rt2 else 0
  clear this hy
  generalize y 1 = a at *
  generalize y 2 = b at *
  interval_cases a <;> interval_cases b <;> simp [Nd.get, ravel]

/-- The numbers for `E = diag(e, f)`. -/
theorem trace_diag (e f : ℂ) (n : ℕ) : Matrix.trace (Matrix.diagonal ![e, f] ^ n * (Matrix.diagonal ![e, f] ^ n)ᴴ) =
    (Complex.normSq e : ℂ) ^ n + (Complex.normSq f : ℂ) ^ n := by
  rw [Matrix.diagonal_pow, Matrix.diagonal_conjTranspose, Matrix.diagonal_mul_diagonal, Matrix.trace_diagonal, Fin.sum_univ_two]
  simp [← mul_pow, Complex.mul_conj]

/-- The hypotheses of `C107_partition_partial` hold for this object, whatever the coefficient is. -/
theorem exPair_partition {coef : ℂ} (hcoef : coef ≠ 0) (dt : ℂ) {e f : ℂ}
    (he : e = 1 + dt / coef + (dt / coef) ^ 2 / 2 + (dt / coef) ^ 3 / 6 + (dt / coef) ^ 4 / 24)
    (hf : f = 1 - dt / coef + (dt / coef) ^ 2 / 2 - (dt / coef) ^ 3 / 6 + (dt / coef) ^ 4 / 24) (h0 : e ≠ 0) (lin : Linalg ℂ) {n : ℕ} (hn : 0 < n) :
    ∃ s' N, imaginaryRun (fun z => (Real.sqrt z.re : ℂ)) (rk4Step 5 lin coef none dt) n (startNorm exPairObj) = .ok (s', N) ∧
      squareNorm [(1, 2), (2, 2)] (s'.heap.treeAmp s'.root exPairForest) = 1 ∧
      relativePartitionFunction (s', N) = ((Complex.normSq e : ℂ) ^ n + (Complex.normSq f : ℂ) ^ n) / 2 := by
  have hG : ∀ k, Matrix.diagonal ![1 / coef, -(1 / coef)] ^ k = Matrix.diagonal ![(1 / coef) ^ k, (-(1 / coef)) ^ k] := by
    intro k
    rw [Matrix.diagonal_pow]
    congr 1
    funext i
    fin_cases i <;> simp
  obtain ⟨s', N, a1, a2, a3⟩ := C107_partition_partial sqrtOk_complex exPair_ready exPair_one (a := 1) (b := 2) (d := 2) (by decide) exPair_leaves
    (by
      intro term ht p hp
      have ht' : term ∈ exPairObj.hList := ht
      simp only [exPairObj, List.mem_cons, List.not_mem_nil, or_false] at ht'
      subst ht'
      simp only [List.mem_cons, List.not_mem_nil, or_false] at hp
      subst hp; rfl)
    (z := rt2) (by
      unfold rt2
      rw [show star (((Real.sqrt 2)⁻¹ : ℝ) : ℂ) = (((Real.sqrt 2)⁻¹ : ℝ) : ℂ) from Complex.conj_ofReal _, ← Complex.ofReal_mul, ← mul_inv,
        Real.mul_self_sqrt (by norm_num)]
      norm_num)
    exPair_state lin hcoef none dt (H := Matrix.diagonal ![1, -1]) (G := Matrix.diagonal ![1 / coef, -(1 / coef)]) (E := Matrix.diagonal ![e, f])
    (by
      intro v w
      show _ = ([[(1, TermOp.mat ⟨[2, 2], [1, 0, 0, -1]⟩)]].map fun term => opEntry (opOn (0 : ℝ) term 1) v w).sum
      fin_cases v <;> fin_cases w <;> simp [opOn, opEntry, TermOp.at, Nd.get, ravel])
    (by
      ext v w
      fin_cases v <;> fin_cases w <;> simp)
    (by
      rw [hG, hG, hG]
      ext v w
      fin_cases v <;> fin_cases w <;> simp [he, hf] <;> ring)
    (fuel := 5) (by decide) hn
    (by
      intro k _ _ q
      rw [trace_diag, ← Complex.ofReal_pow, ← Complex.ofReal_pow, ← Complex.ofReal_add, Complex.ofReal_eq_zero] at q
      have h1 : 0 < Complex.normSq e ^ k := pow_pos (Complex.normSq_pos.2 h0) k
      have h2 : 0 ≤ Complex.normSq f ^ k := pow_nonneg (Complex.normSq_nonneg f) k
      linarith)
  refine ⟨s', N, a1, a2, ?_⟩
  rw [a3, trace_diag]
  norm_num

/-- With the coefficient of `minitn/heom/propagate.py`, `hbar = 1`: `(p(-dt)^(2n) + p(dt)^(2n)) / 2`, where `p` is the Taylor polynomial of the
exponential function; `Z(β) / Z(0) = (exp(-β) + exp(β)) / 2` for `β = 2 n dt`. -/
example (dt : ℝ) (hdt : 0 < dt) (lin : Linalg ℂ) {n : ℕ} (hn : 0 < n) (p : ℝ → ℝ)
    (hp : ∀ x, p x = 1 + x + x ^ 2 / 2 + x ^ 3 / 6 + x ^ 4 / 24) :
    ∃ s' N, imaginaryRun (fun z => (Real.sqrt z.re : ℂ)) (rk4Step 5 lin (heomCoefficient 1 (none : Option ℝ)) none (dt : ℂ)) n (startNorm exPairObj) =
        .ok (s', N) ∧
      relativePartitionFunction (s', N) = ((((p (-dt)) ^ (2 * n) + (p dt) ^ (2 * n)) / 2 : ℝ) : ℂ) := by
  have e1 : ∀ x : ℝ, ((p x : ℝ) : ℂ) = 1 + x + (x : ℂ) ^ 2 / 2 + (x : ℂ) ^ 3 / 6 + (x : ℂ) ^ 4 / 24 := fun x => by rw [hp]; push_cast; ring
  have pos : ∀ x, 0 < p x := fun x => by rw [hp]; nlinarith [sq_nonneg (x ^ 2 + 4 * x), sq_nonneg (x + 2), sq_nonneg x]
  obtain ⟨s', N, a1, -, a3⟩ := exPair_partition (coef := heomCoefficient 1 (none : Option ℝ)) (by simp [heomCoefficient]) (dt : ℂ)
    (e := p (-dt)) (f := p dt) (by rw [e1]; simp [heomCoefficient]; ring) (by rw [e1]; simp [heomCoefficient]; ring)
    (by exact_mod_cast (pos _).ne') lin hn
  refine ⟨s', N, a1, ?_⟩
  rw [a3, Complex.normSq_ofReal, Complex.normSq_ofReal]
  push_cast
  rw [pow_mul, pow_mul, pow_two, pow_two]

/-- `ml.py` with the Hamiltonian itself in `h_list`: the coefficient in imaginary time is `i hbar`, so the propagation is unitary up to the
error of the method. For `σ_z`, the relative partition function stays below 1 whatever the number of steps, but `Z(β) / Z(0) > 1`. -/
theorem C107_violated (dt : ℝ) (h0 : 0 < dt) (h1 : dt < 1) (lin : Linalg ℂ) {n : ℕ} (hn : 0 < n) :
    ∃ s' N r, imaginaryRun (fun z => (Real.sqrt z.re : ℂ))
        (rk4Step 5 lin (SplitProp.coefficient Complex.I 1 (none : Option ℝ)) none (dt : ℂ)) n (startNorm exPairObj) = .ok (s', N) ∧
      relativePartitionFunction (s', N) = (r : ℝ) ∧ r < 1 ∧ 1 < (Real.exp (-(2 * n * dt)) + Real.exp (2 * n * dt)) / 2 := by
  have hc : SplitProp.coefficient Complex.I 1 (none : Option ℝ) = Complex.I := by simp [SplitProp.coefficient]
  have hI : (dt : ℂ) / Complex.I = -(dt * Complex.I) := by rw [Complex.div_I]
  have hp2 : (-(dt * Complex.I)) ^ 2 = -((dt : ℂ) ^ 2) := by rw [neg_sq, mul_pow, Complex.I_sq]; ring
  have hp3 : (-(dt * Complex.I)) ^ 3 = (dt : ℂ) ^ 3 * Complex.I := by rw [pow_succ, hp2]; ring
  have hp4 : (-(dt * Complex.I)) ^ 4 = (dt : ℂ) ^ 4 := by
    rw [show (4 : ℕ) = 2 * 2 from rfl, pow_mul, hp2]; ring
  set e : ℂ := ⟨1 - dt ^ 2 / 2 + dt ^ 4 / 24, -dt + dt ^ 3 / 6⟩ with he
  set f : ℂ := ⟨1 - dt ^ 2 / 2 + dt ^ 4 / 24, dt - dt ^ 3 / 6⟩ with hf
  have cast : ∀ a b : ℝ, (⟨a, b⟩ : ℂ) = a + b * Complex.I := fun a b => by
    apply Complex.ext <;> simp
  have hd : 0 < 1 - dt ^ 2 / 2 + dt ^ 4 / 24 := by nlinarith [pow_pos h0 4, pow_pos h0 2, mul_pos h0 (sub_pos.2 h1)]
  obtain ⟨s', N, a1, -, a3⟩ := exPair_partition (coef := Complex.I) Complex.I_ne_zero (dt : ℂ) (e := e) (f := f)
    (by rw [he, cast, hI, hp2, hp3, hp4]; push_cast; ring) (by rw [hf, cast, hI, hp2, hp3, hp4]; push_cast; ring)
    (fun q => hd.ne' (congrArg Complex.re q)) lin hn
  have hn1 : Complex.normSq e = 1 - dt ^ 6 / 72 + dt ^ 8 / 576 := by rw [he, Complex.normSq_mk]; ring
  have hn2 : Complex.normSq f = 1 - dt ^ 6 / 72 + dt ^ 8 / 576 := by rw [hf, Complex.normSq_mk]; ring
  refine ⟨s', N, (1 - dt ^ 6 / 72 + dt ^ 8 / 576) ^ n, by rw [hc]; exact a1, ?_, ?_, ?_⟩
  · rw [a3, hn1, hn2]
    push_cast
    ring
  · refine pow_lt_one₀ (hn1 ▸ Complex.normSq_nonneg _) ?_ hn.ne'
    have h6 := pow_pos h0 6
    have : dt ^ 8 < dt ^ 6 := pow_lt_pow_right_of_lt_one₀ h0 h1 (by norm_num)
    linarith
  · have hx : (0 : ℝ) < 2 * n * dt := by positivity
    have := Real.one_lt_cosh.2 hx.ne'
    rw [Real.cosh_eq] at this
    linarith

end ML
