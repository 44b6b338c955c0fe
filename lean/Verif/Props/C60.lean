import Verif.Lemmas.Euler
import Verif.Props.C32
import Mathlib.Tactic.NormNum

/-!
C60: `direct_step` follows the time-dependent variational principle. C61: norm. C62: energy.

`dot`, `element`, `variation`, `velocity`, `DirectReady`, `Linalg.Exact`, `Generates` are defined in `Spec/Eom.lean`. `derivative` is the
part of `direct_step` before the arrays are changed, `newtonStep` the whole of it with `ode_method='Newton'`.
-/

open scoped BigOperators
open Py

namespace ML

open Heap

variable {T R : Type} [Zero T] [Field R] [StarRing R]

/-- The inverse of a density succeeds if it is exact and the densities are invertible. -/
theorem works_of_exact {s : Obj T R} {F : Forest} {lin : Linalg R} (hlin : lin.Exact) (hr : DirectReady s F)
    (hreg : ∀ e ∈ s.heap.bonds s.root F, ∀ d, IsDensity s e.2.2.1 e.2.2.2 d → ∃ N, LeftInv (s.heap.hdim (e.2.2.1, e.2.2.2)) N d) :
    lin.Works s F := by
  intro e he d hd
  obtain ⟨E, q1, q2⟩ := id hd
  rw [withTerm_hdim _ (mem_bonds.1 he).2] at q2
  obtain ⟨M, m1, m2, -⟩ := hlin _ d q2.1 q2.2.1 (hreg e he d hd)
  exact ⟨M, m1, m2⟩

/-- The derivatives computed by `direct_step` obey the time-dependent variational principle: for every variation `φ` of the state by
a change of one array (hence for all of their sums), `coef <φ|dψ/dt> = <φ|H|ψ>`. (If `init_energy` is set, `coef * init_energy` is
subtracted from the Hamiltonian.) -/
theorem C60_variational {s : Obj T R} {F : Forest} (hr : DirectReady s F) {lin : Linalg R} (hlin : lin.Exact)
    (hreg : ∀ e ∈ s.heap.bonds s.root F, ∀ d, IsDensity s e.2.2.1 e.2.2.2 d → ∃ N, LeftInv (s.heap.hdim (e.2.2.1, e.2.2.2)) N d)
    {coef : R} (hcoef : coef ≠ 0) (initEnergy : Option R) {fuel : ℕ} (hf : F.ids.length < fuel) :
    ∃ s', derivative fuel lin coef initEnergy s = .ok s' ∧ Clean s F s' ∧
      ∀ t ∈ s.heap.tensors s.root F, ∀ A B : Nd R, s.heap.array t = some A → B.Wf → B.shape = A.shape →
        coef * dot s F (velocity s s' F) (variation s F t (some B)) =
          element s F (s.heap.treeAmp s.root F) (variation s F t (some B)) -
            coef * initEnergy.getD 0 * dot s F (s.heap.treeAmp s.root F) (variation s F t (some B)) := by
  obtain ⟨s2, inv, s', a1, a2, a3, a4, a5, a6, a7⟩ := derivative_core hr (works_of_exact hlin hr hreg) hcoef initEnergy hf
  refine ⟨s', a1, a3, fun t hm A B hA hB hBs => ?_⟩
  have hl : s2.heap.isLeaf t = false := by rw [a2.sim.isLeaf]; exact (mem_tensors.1 hm).2
  have key := a5.dirac (fun e he => by
    have he' : e ∈ s.heap.bonds s.root F := by
      unfold bonds at he ⊢; simp only [a2.root, a2.sim.isLeaf] at he; exact he
    have hd : s2.heap.hdim (e.2.2.1, e.2.2.2) = s.heap.hdim (e.2.2.1, e.2.2.2) :=
      a2.sim.hdim (by rw [a2.sim.isLeaf]; exact (mem_bonds.1 he').2) _
    obtain ⟨d, M, ρ, q1, q2, q3, q4, q5, q6, q7⟩ := a7 e he'
    obtain ⟨M', m1, m2, m3⟩ := hlin _ d q5 q6 (hreg e he' d q2)
    rw [q3] at m1
    cases m1
    refine ⟨M, ρ, q1, q4, fun b hb z hz => ?_⟩
    rw [hd] at hb hz ⊢
    rw [← m3 b hb z hz]
    exact Finset.sum_congr rfl fun c hc => by rw [q7 c (Finset.mem_range.1 hc) z hz]) t
    (by rw [a2.root, a2.sim.tensors]; exact hm) A B (by rw [a2.sim.array hl]; exact hA) hB hBs
  rw [vel_eq hr.ttn a2 a6, a2.dot hr.ttn, a2.dot hr.ttn, a2.element hr.ttn, a2.amp hr.ttn, a2.variation hr.ttn hm hA hB hBs] at key
  exact key

open Polynomial in
/-- One step with `ode_method='Newton'` and step size `dt`: every array becomes `A + dt D` with the derivatives `D` above. The new state is
a polynomial in `dt` that agrees with the old state to order 0 and has the derivative `velocity` at 0. -/
theorem C60_newton_step {s : Obj T R} {F : Forest} (hr : DirectReady s F) {lin : Linalg R} (hlin : lin.Works s F)
    {coef : R} (hcoef : coef ≠ 0) (initEnergy : Option R) {fuel : ℕ} (hf : F.ids.length < fuel) :
    ∃ s', derivative fuel lin coef initEnergy s = .ok s' ∧
      (∀ dt, ∃ s'', newtonStep fuel lin coef initEnergy dt s = .ok s'' ∧ s''.root = s.root ∧ s''.heap.IsTTN s.root F ∧
        ∀ t ∈ s.heap.tensors s.root F, (s''.heap.node t).aux = none ∧ ∃ A B D, s.heap.array t = some A ∧ (s'.heap.node t).aux = some D ∧
          s''.heap.array t = some B ∧ B.shape = A.shape ∧ D.shape = A.shape ∧ ∀ w, Valid A.shape w → B.get w = A.get w + dt * D.get w) ∧
      ∀ x, (∀ p ∈ s.heap.leafList s.root F, x p.1 < p.2) → ∃ p : R[X], p.coeff 0 = s.heap.treeAmp s.root F x ∧
        p.coeff 1 = velocity s s' F x ∧
        ∀ dt s'', newtonStep fuel lin coef initEnergy dt s = .ok s'' → s''.heap.treeAmp s''.root F x = p.eval dt := by
  obtain ⟨s2, inv, s', a1, a2, a3, a4, a5, a6, -⟩ := derivative_core hr hlin hcoef initEnergy hf
  have e : Sim2 s'.heap s.heap := ⟨a3.next, a3.same⟩
  have ht' : s'.heap.IsTTN s.root F := Sim2.ttn (Sim.symm e) hr.ttn
  have hten : s'.heap.tensors s.root F = s.heap.tensors s.root F := e.tensors _ _
  have harr : ∀ t ∈ s.heap.tensors s.root F, s'.heap.array t = s.heap.array t := fun t hm =>
    e.array (by rw [e.isLeaf]; exact (mem_tensors.1 hm).2)
  set D : ℕ → Nd R := fun t => ((s'.heap.node t).aux).getD ⟨[], []⟩ with hD
  have hDs : ∀ t ∈ s'.heap.tensors s.root F, ∀ A, s'.heap.array t = some A →
      (s'.heap.node t).aux = some (D t) ∧ (D t).Wf ∧ (D t).shape = A.shape := by
    intro t hm A hA
    rw [hten] at hm
    obtain ⟨D', d1, d2, d3⟩ := a6 t hm A (by rw [← harr t hm]; exact hA)
    have : D t = D' := by rw [hD]; beta_reduce; rw [d1]; rfl
    rw [this]
    exact ⟨d1, d2, d3⟩
  have hstep : ∀ dt, ∃ k, newtonStep fuel lin coef initEnergy dt s = .ok { s' with heap := k } ∧
      Moved1 s'.heap s.root F (s'.heap.tensors s.root F) D dt k ∧ ∀ t ∈ s'.heap.tensors s.root F, (k.node t).aux = none := by
    intro dt
    obtain ⟨k, g1, g2, g3, -⟩ := euler_fold ht' dt D hDs
    refine ⟨k, ?_, g2, g3⟩
    unfold newtonStep
    rw [a1]
    simp only [ok_bind]
    rw [a4, show (s'.heap.node s.root).axis = none by rw [e.axis]; exact hr.rooted.1,
      visit_tensors ht' (lt_of_le_of_lt F.depth_le hf)]
    simp only [ok_bind]
    rw [g1]
    simp only [ok_bind, ← a4]
    rfl
  refine ⟨s', a1, fun dt => ?_, fun x hx => ?_⟩
  · obtain ⟨k, g1, g2, g3⟩ := hstep dt
    refine ⟨_, g1, a4, g2.ttn, fun t hm => ⟨g3 t (by rw [hten]; exact hm), ?_⟩⟩
    obtain ⟨A, hA⟩ := hr.ttn.full t hm
    have hA' : s'.heap.array t = some A := by rw [harr t hm]; exact hA.array
    obtain ⟨B, b1, b2, b3⟩ := g2.moved t (by rw [hten]; exact hm) A hA'
    obtain ⟨d1, -, d3⟩ := hDs t (by rw [hten]; exact hm) A hA'
    exact ⟨A, B, D t, hA.array, d1, b1, b2, d3, b3⟩
  · have hx' : s'.heap.InRange (s'.heap.tensors s.root F) x := ht'.inRange (by rw [e.leafList ht']; exact hx)
    obtain ⟨p, p1, p2, p3⟩ := amp_poly (D := D) (s'.heap.tensors s.root F) s'.heap ht' hx' ht'.isNet.nodup (fun _ q => q)
      (fun t hm A hA => (hDs t hm A hA).2)
    refine ⟨p, by rw [p1, e.treeAmp ht'], ?_, fun dt s'' hs => ?_⟩
    · rw [p2]
      unfold velocity
      rw [hten]
      congr 1
      refine List.map_congr_left fun t hm => ?_
      obtain ⟨A, hA⟩ := hr.ttn.full t hm
      have hA' : s'.heap.array t = some A := by rw [harr t hm]; exact hA.array
      obtain ⟨d1, d2, d3⟩ := hDs t (by rw [hten]; exact hm) A hA'
      have hl : s'.heap.isLeaf t = false := by rw [e.isLeaf]; exact (mem_tensors.1 hm).2
      rw [d1]
      unfold variation
      rw [(sim2_setArray e hl (some (D t))).treeAmp (ht'.setArray hA' d2 d3)]
    · obtain ⟨k, g1, g2, -⟩ := hstep dt
      rw [g1] at hs
      cases hs
      show k.treeAmp s'.root F x = _
      rw [a4]
      exact p3 dt k g2

/-- The change of the norm: if the Hamiltonian is Hermitian (`Generates`) then `<ψ|dψ/dt> + <dψ/dt|ψ>` is
`-(init_energy + conj init_energy) <ψ|ψ>`, which is 0 without `init_energy`. The densities may be singular and their inverses wrong. -/
theorem C61_norm_rate {s : Obj T R} {F : Forest} (hr : DirectReady s F) {lin : Linalg R} (hlin : lin.Works s F)
    {coef : R} (hcoef : coef ≠ 0) (hg : Generates s F coef) (initEnergy : Option R) {fuel : ℕ} (hf : F.ids.length < fuel) :
    ∃ s', derivative fuel lin coef initEnergy s = .ok s' ∧
      dot s F (velocity s s' F) (s.heap.treeAmp s.root F) + dot s F (s.heap.treeAmp s.root F) (velocity s s' F) =
        -((initEnergy.getD 0 + star (initEnergy.getD 0)) * dot s F (s.heap.treeAmp s.root F) (s.heap.treeAmp s.root F)) := by
  obtain ⟨s2, inv, s', a1, a2, a3, a4, a5, a6, -⟩ := derivative_core hr hlin hcoef initEnergy hf
  refine ⟨s', a1, ?_⟩
  have hm : s.root ∈ s.heap.tensors s.root F := mem_tensors.2 ⟨.inl rfl, hr.ttn.leaf⟩
  obtain ⟨A, hA⟩ := hr.ttn.full _ hm
  have hl : s2.heap.isLeaf s.root = false := by rw [a2.sim.isLeaf]; exact hr.ttn.leaf
  have key := a5.root (A := A) (B := A) (by rw [a2.root, a2.sim.array hl]; exact hA.array) hA.wf rfl
  rw [vel_eq hr.ttn a2 a6, a2.dot hr.ttn, a2.dot hr.ttn, a2.element hr.ttn, a2.amp hr.ttn, a2.root,
    a2.variation hr.ttn hm hA.array hA.wf rfl, variation_self hA.array] at key
  set ψ := s.heap.treeAmp s.root F
  set v := velocity s s' F
  have hk := star_element hr.ttn hcoef hg ψ ψ
  have hs := star_dot s F v ψ
  have hn := star_dot s F ψ ψ
  rw [← hs]
  have hc' : star coef ≠ 0 := fun q => hcoef (by rw [← star_star coef, q, star_zero])
  have k2 := congrArg star key
  simp only [star_mul, star_sub, hn] at k2
  have hcc : coef * star coef ≠ 0 := mul_ne_zero hcoef hc'
  apply mul_left_cancel₀ hcc
  linear_combination star coef * key + coef * k2 + hk

/-- Energy: without `init_energy` and with exact inverse densities `<ψ|H|dψ/dt> + <dψ/dt|H|ψ> = 0`. -/
theorem C62_energy {s : Obj T R} {F : Forest} (hr : DirectReady s F) {lin : Linalg R} (hlin : lin.Exact)
    (hreg : ∀ e ∈ s.heap.bonds s.root F, ∀ d, IsDensity s e.2.2.1 e.2.2.2 d → ∃ N, LeftInv (s.heap.hdim (e.2.2.1, e.2.2.2)) N d)
    {coef : R} (hcoef : coef ≠ 0) (hg : Generates s F coef) {fuel : ℕ} (hf : F.ids.length < fuel) :
    ∃ s', derivative fuel lin coef none s = .ok s' ∧
      element s F (velocity s s' F) (s.heap.treeAmp s.root F) + element s F (s.heap.treeAmp s.root F) (velocity s s' F) = 0 := by
  obtain ⟨s', a1, a2, a3⟩ := C60_variational hr hlin hreg hcoef none hf
  obtain ⟨-, -, s1, b1, -, -, -, -, b2, -⟩ := derivative_core hr (works_of_exact hlin hr hreg) hcoef none hf
  obtain rfl : s' = s1 := Except.ok.inj (a1.symm.trans b1)
  refine ⟨s', a1, ?_⟩
  set ψ := s.heap.treeAmp s.root F
  have h1 : coef * dot s F (velocity s s' F) (velocity s s' F) = element s F ψ (velocity s s' F) := by
    conv_lhs => rw [show velocity s s' F = fun x => ((s.heap.tensors s.root F).map fun t => variation s F t (s'.heap.node t).aux x).sum from rfl]
    conv_rhs => rw [show velocity s s' F = fun x => ((s.heap.tensors s.root F).map fun t => variation s F t (s'.heap.node t).aux x).sum from rfl]
    rw [dot_sum_right, element_sum_right, ← List.sum_map_mul_left]
    congr 1
    refine List.map_congr_left fun t hm => ?_
    obtain ⟨A, hA⟩ := hr.ttn.full t hm
    obtain ⟨D, d1, d2, d3⟩ := b2 t hm A hA.array
    have := a3 t hm A D hA.array d2 d3
    rw [Option.getD_none, mul_zero, zero_mul, sub_zero] at this
    rw [d1]
    exact this
  have h2 := star_element hr.ttn hcoef hg (velocity s s' F) ψ
  have h3 := star_dot s F (velocity s s' F) (velocity s s' F)
  set v := velocity s s' F
  have hc' : star coef ≠ 0 := fun q => hcoef (by rw [← star_star coef, q, star_zero])
  apply mul_left_cancel₀ hc'
  have h4 := congrArg star h2
  simp only [star_mul, star_neg, star_star] at h4
  have h5 := congrArg star h1
  simp only [star_mul, h3] at h5
  rw [mul_zero]
  linear_combination h4 + coef * h5 - star coef * h1

/-- The part of C61 that holds: without `init_energy` the norm does not change. -/
theorem C61_norm_partial {s : Obj T R} {F : Forest} (hr : DirectReady s F) {lin : Linalg R} (hlin : lin.Works s F)
    {coef : R} (hcoef : coef ≠ 0) (hg : Generates s F coef) {fuel : ℕ} (hf : F.ids.length < fuel) :
    ∃ s', derivative fuel lin coef none s = .ok s' ∧
      dot s F (velocity s s' F) (s.heap.treeAmp s.root F) + dot s F (s.heap.treeAmp s.root F) (velocity s s' F) = 0 := by
  obtain ⟨s', h1, h2⟩ := C61_norm_rate hr hlin hcoef hg none hf
  refine ⟨s', h1, ?_⟩
  rw [h2, Option.getD_none, star_zero, add_zero, zero_mul, neg_zero]

/-- Setting `init_energy` (which `autocorr` and `propagator` set to the mean energy, to slow down the phase) changes the norm with this
solver: the derivative of the root is reduced by `init_energy * A`, not by `init_energy * A / coef`. -/
theorem C61_init_energy_violated {s : Obj T R} {F : Forest} (hr : DirectReady s F) {lin : Linalg R} (hlin : lin.Works s F)
    {coef : R} (hcoef : coef ≠ 0) (hg : Generates s F coef) {e : R} (he : star e = e) (h2 : 2 * e ≠ 0)
    (hψ : dot s F (s.heap.treeAmp s.root F) (s.heap.treeAmp s.root F) ≠ 0) {fuel : ℕ} (hf : F.ids.length < fuel) :
    ∃ s', derivative fuel lin coef (some e) s = .ok s' ∧
      dot s F (velocity s s' F) (s.heap.treeAmp s.root F) + dot s F (s.heap.treeAmp s.root F) (velocity s s' F) ≠ 0 := by
  obtain ⟨s', h1, h3⟩ := C61_norm_rate hr hlin hcoef hg (some e) hf
  refine ⟨s', h1, ?_⟩
  rw [h3, Option.getD_some, he, ← two_mul]
  exact neg_ne_zero.2 (mul_ne_zero h2 hψ)

/-! Instance: the network of C32. -/

theorem exDirect_ready : DirectReady (exEom []) exTwoForest where
  ttn := exEomHeap_ttn
  rooted := (exEom_ready [] (by intro t _ n i v hv; cases hv)).rooted
  can := by
    intro e he
    have : exEomHeap.bonds 0 exTwoForest = [(0, 0, 1, 1)] := by decide +kernel
    change e ∈ exEomHeap.bonds 0 exTwoForest at he
    rw [this] at he
    simp only [List.mem_cons, List.not_mem_nil, or_false] at he
    subst he
    exact exEom_canonical
  norm := (exEom_ready [] (by intro t _ n i v hv; cases hv)).norm
  axes := (by decide +kernel : ∀ l ∈ exTwoForest.ids, exEomHeap.isLeaf l = true → (exEomHeap.node l).axis = none)
  leaf := (exEom_ready [] (by intro t _ n i v hv; cases hv)).leaf
  fits := (exEom_ready [] (by intro t _ n i v hv; cases hv)).fits
  terms := by simp [exEom, Obj.allTerms]

/-- The density of tensor 1 is `[[5, 13], [13, 34]]`, which is invertible. -/
theorem exDirect_density : ∀ e ∈ (exEom []).heap.bonds (exEom []).root exTwoForest, ∀ d, IsDensity (exEom []) e.2.2.1 e.2.2.2 d →
    ∃ N, LeftInv ((exEom []).heap.hdim (e.2.2.1, e.2.2.2)) N d := by
  intro e he d hd
  have : exEomHeap.bonds 0 exTwoForest = [(0, 0, 1, 1)] := by decide +kernel
  change e ∈ exEomHeap.bonds 0 exTwoForest at he
  rw [this] at he
  simp only [List.mem_cons, List.not_mem_nil, or_false] at he
  subst he
  obtain ⟨E, h1, h2⟩ := hd
  have h3 : IsField ((exEom []).withTerm []) 1 1 (((exEom []).withTerm []).branchEnv 0 0 (.cons 1 0 2 .nil .nil)) :=
    ⟨0, 0, by decide +kernel, .inr ⟨by decide +kernel, .cons 1 0 2 .nil .nil, ⟨by decide +kernel, ⟨by decide +kernel, trivial, trivial⟩, by decide +kernel,
      ⟨fun _ => rfl, trivial, trivial⟩⟩, rfl⟩⟩
  rw [h1.unique h3] at h2
  have hn : ((exEom []).withTerm []).hdim (1, 1) = 2 := by decide +kernel
  have hv : ∀ v < 2, ∀ w < 2, ((exEom []).withTerm []).branchEnv 0 0 (.cons 1 0 2 .nil .nil) v w =
      (if v = 0 then (if w = 0 then 5 else 13) else (if w = 0 then 13 else 34)) := by decide +kernel
  simp only [hn] at h2
  refine ⟨fun b c => if b = 0 then (if c = 0 then 34 else -13) else (if c = 0 then -13 else 5), ?_⟩
  have hd : (exEom []).heap.hdim (1, 1) = 2 := by decide +kernel
  simp only [hd]
  intro b hb z hz
  obtain ⟨-, -, h4⟩ := h2
  simp only [Finset.sum_range_succ, Finset.sum_range_zero, zero_add, h4 0 (by omega) z hz, h4 1 (by omega) z hz, hv 0 (by omega) z hz,
    hv 1 (by omega) z hz]
  obtain rfl | rfl : b = 0 ∨ b = 1 := by omega
  all_goals obtain rfl | rfl : z = 0 ∨ z = 1 := by omega
  all_goals norm_num

/-- The Hamiltonian of the example is antisymmetric. -/
theorem exDirect_generates : Generates (exEom []) exTwoForest 1 := by
  have hl : (exEom []).heap.leafList (exEom []).root exTwoForest = [(3, 3), (2, 2)] := by decide +kernel
  set g : ℕ → ℕ → ℕ → ℕ → ℚ := fun a b c d =>
    hEntry (exEom []) exTwoForest (fun l => if l = 3 then a else b) (fun l => if l = 3 then c else d) with hg
  have e : ∀ x y, hEntry (exEom []) exTwoForest x y = g (x 3) (x 2) (y 3) (y 2) := by
    intro x y
    simp [hg, hEntry, termEntry, hl]
  have key : ∀ a < 3, ∀ b < 2, ∀ c < 3, ∀ d < 2, g a b c d = -g c d a b := by
    rw [hg]
    decide +kernel
  intro x y hx hy
  rw [hl] at hx hy
  simp only [List.mem_cons, List.not_mem_nil, or_false, forall_eq_or_imp, forall_eq] at hx hy
  rw [e, e, star_one, one_mul, one_mul]
  exact key _ hx.1 _ hx.2 _ hy.1 _ hy.2

example : ∃ s', derivative 5 (exactLinalg ℚ) 1 none (exEom []) = .ok s' ∧
    element (exEom []) exTwoForest (velocity (exEom []) s' exTwoForest) (exEomHeap.treeAmp 0 exTwoForest) +
      element (exEom []) exTwoForest (exEomHeap.treeAmp 0 exTwoForest) (velocity (exEom []) s' exTwoForest) = 0 :=
  C62_energy exDirect_ready exactLinalg_exact exDirect_density one_ne_zero exDirect_generates (by decide)

example : ∃ s', derivative 5 (exactLinalg ℚ) 1 (some 3) (exEom []) = .ok s' ∧ Clean (exEom []) exTwoForest s' ∧ ∀ B : Nd ℚ, B.Wf →
    B.shape = [3, 2] → 1 * dot (exEom []) exTwoForest (velocity (exEom []) s' exTwoForest) (variation (exEom []) exTwoForest 1 (some B)) =
      element (exEom []) exTwoForest (exEomHeap.treeAmp 0 exTwoForest) (variation (exEom []) exTwoForest 1 (some B)) -
        1 * 3 * dot (exEom []) exTwoForest (exEomHeap.treeAmp 0 exTwoForest) (variation (exEom []) exTwoForest 1 (some B)) := by
  obtain ⟨s', h1, h2, h3⟩ := C60_variational exDirect_ready exactLinalg_exact exDirect_density (one_ne_zero (α := ℚ)) (some 3) (fuel := 5) (by decide)
  exact ⟨s', h1, h2, fun B hB hBs => h3 1 (by show 1 ∈ exEomHeap.tensors 0 exTwoForest; rw [exEomHeap_tensors]; simp) _ B rfl hB hBs⟩

/-- Inverse of 2 × 2 matrices. -/
def exLin : Linalg ℚ where
  pinv2 := fun d =>
    let a := d.get [0, 0]
    let b := d.get [0, 1]
    let c := d.get [1, 0]
    let e := d.get [1, 1]
    let D := a * e - b * c
    .ok ⟨[2, 2], [e / D, -b / D, -c / D, a / D]⟩
  inv := fun _ => .error .valueError
  usePinv := true
  regularErr := 0

theorem exLin_works : exLin.Works (exEom []) exTwoForest := by
  intro e he d hd
  have : exEomHeap.bonds 0 exTwoForest = [(0, 0, 1, 1)] := by decide +kernel
  change e ∈ exEomHeap.bonds 0 exTwoForest at he
  rw [this] at he
  simp only [List.mem_cons, List.not_mem_nil, or_false] at he
  subst he
  exact ⟨_, rfl, rfl⟩

example : ∃ s', derivative 5 exLin 1 none (exEom []) = .ok s' ∧
    dot (exEom []) exTwoForest (velocity (exEom []) s' exTwoForest) (exEomHeap.treeAmp 0 exTwoForest) +
      dot (exEom []) exTwoForest (exEomHeap.treeAmp 0 exTwoForest) (velocity (exEom []) s' exTwoForest) = 0 :=
  C61_norm_partial exDirect_ready exLin_works one_ne_zero exDirect_generates (by decide)

example : ∃ s', derivative 5 exLin 1 (some 3) (exEom []) = .ok s' ∧
    dot (exEom []) exTwoForest (velocity (exEom []) s' exTwoForest) (exEomHeap.treeAmp 0 exTwoForest) +
      dot (exEom []) exTwoForest (exEomHeap.treeAmp 0 exTwoForest) (velocity (exEom []) s' exTwoForest) ≠ 0 :=
  C61_init_energy_violated exDirect_ready exLin_works one_ne_zero exDirect_generates rfl (by norm_num) (by decide +kernel) (by decide)

/-- An Euler step leaves the normalization marks of the tensors as they are (`set_array` does not touch them), although the new arrays are not
orthonormal: the next `_form_env` takes the shortcut for normalized tensors and stores wrong mean fields. -/
theorem C60_newton_marks_violated : ∃ (s s'' : Obj ℕ ℚ) (F : Forest) (lin : Linalg ℚ), DirectReady s F ∧ lin.Works s F ∧
    newtonStep 5 lin 1 none 1 s = .ok s'' ∧ ¬ s''.heap.NormOk s''.root F := by
  obtain ⟨s', -, h2, -⟩ := C60_newton_step exDirect_ready exLin_works (one_ne_zero (α := ℚ)) none (fuel := 5) (by decide)
  obtain ⟨s'', h3, h4, h5, -⟩ := h2 1
  refine ⟨exEom [], s'', exTwoForest, exLin, exDirect_ready, exLin_works, h3, fun hn => ?_⟩
  have e1 : (newtonStep 5 exLin 1 none 1 (exEom [])).toOption.map (fun s =>
      ((s.heap.node 1).normalized, (s.heap.node 1).axis, s.heap.isLeaf 1)) = some (true, some 1, false) := by decide +kernel
  have e2 : (newtonStep 5 exLin 1 none 1 (exEom [])).toOption.map (fun s => (s.heap.array 1).map Nd.shape) = some (some [3, 2]) := by
    decide +kernel
  have e3 : (newtonStep 5 exLin 1 none 1 (exEom [])).toOption.map (fun s => (s.heap.array 1).map fun A =>
      decide (sumIdx (A.shape.eraseIdx 1) (fun p => A.get (p.insertIdx 1 0) * A.get (p.insertIdx 1 0)) = 1)) = some (some false) := by
    decide +kernel
  rw [h3] at e1 e2 e3
  simp only [Except.toOption, Option.map_some, Option.some.injEq, Prod.mk.injEq] at e1 e2 e3
  obtain ⟨e1, e2', e3'⟩ := e1
  have e5 := e3
  have e4 := e2
  have e2 := e2'
  have e3 := e3'
  have hm : 1 ∈ s''.heap.tensors s''.root exTwoForest := mem_tensors.2 ⟨.inr (by decide), e3⟩
  obtain ⟨A, hA⟩ := Option.map_eq_some_iff.1 e4
  have := hn 1 hm A e1 e3 hA.1
  rw [e2] at this
  obtain ⟨A', a1, a2, a3⟩ := this
  obtain rfl : A = A' := Option.some.inj (hA.1.symm.trans a1)
  rw [hA.1, Option.map_some, Option.some.injEq, decide_eq_false_iff_not] at e5
  apply e5
  have := a3 0 0 (by rw [hA.2]; decide) (by rw [hA.2]; decide)
  rw [if_pos rfl] at this
  exact this

end ML
