import Verif.Model.Phonon
import Verif.Lemmas.Heom
import Verif.Lemmas.Contract

/-! The entries of the operators of a truncated harmonic oscillator, and what the matrix-free operators return. -/

open Py
open scoped BigOperators

namespace Phonon

variable (P : Phonon)

/-! Entries of the matrices and of the results of the matrix-free operators. -/

theorem sqrtsFromOne_getD {i : ℕ} (h : i + 1 < P.dim) : P.sqrtsFromOne.getD i 0 = ((Real.sqrt (i + 1 : ℕ) : ℝ) : ℂ) := by
  unfold sqrtsFromOne
  rw [List.getD_eq_getElem _ _ (by simp; omega)]
  simp

theorem valid2 {n a b : ℕ} (ha : a < n) (hb : b < n) : Valid [n, n] [a, b] := by simp [Valid, ha, hb]

theorem creation_shape (hd : 1 ≤ P.dim) : P.creation.shape = [P.dim, P.dim] := by
  have : P.dim - 1 + 1 = P.dim := by omega
  simp [creation, npDiagK, sqrtsFromOne, Nd.ofFn, this]

theorem annihilation_shape (hd : 1 ≤ P.dim) : P.annihilation.shape = [P.dim, P.dim] := by
  have : P.dim - 1 + 1 = P.dim := by omega
  simp [annihilation, npDiagK, sqrtsFromOne, Nd.ofFn, this]

theorem creation_get {a b : ℕ} (ha : a < P.dim) (hb : b < P.dim) :
    P.creation.get [a, b] = if a = b + 1 then ((Real.sqrt (b + 1 : ℕ) : ℝ) : ℂ) else 0 := by
  have e : P.sqrtsFromOne.length + Int.natAbs (-1) = P.dim := by simp [sqrtsFromOne]; omega
  unfold creation npDiagK
  rw [e]
  refine (Nd.get_ofFn _ (valid2 ha hb)).trans ?_
  simp only [List.getD_cons_zero, List.getD_cons_succ]
  by_cases h : a = b + 1
  · subst h
    rw [if_pos (by push_cast; ring), if_pos rfl, Nat.min_eq_right (by omega), P.sqrtsFromOne_getD (by omega)]
  · rw [if_neg (by omega), if_neg h]

theorem annihilation_get {a b : ℕ} (ha : a < P.dim) (hb : b < P.dim) :
    P.annihilation.get [a, b] = if b = a + 1 then ((Real.sqrt (a + 1 : ℕ) : ℝ) : ℂ) else 0 := by
  have e : P.sqrtsFromOne.length + Int.natAbs 1 = P.dim := by simp [sqrtsFromOne]; omega
  unfold annihilation npDiagK
  rw [e]
  refine (Nd.get_ofFn _ (valid2 ha hb)).trans ?_
  simp only [List.getD_cons_zero, List.getD_cons_succ]
  by_cases h : b = a + 1
  · subst h
    rw [if_pos (by push_cast; ring), if_pos rfl, Nat.min_eq_left (by omega), P.sqrtsFromOne_getD (by omega)]
  · rw [if_neg (by omega), if_neg h]

theorem diag_get {v : List ℂ} {a b : ℕ} (ha : a < v.length) (hb : b < v.length) :
    (npDiagK v 0).get [a, b] = if a = b then v.getD a 0 else 0 := by
  have e : v.length + Int.natAbs 0 = v.length := rfl
  unfold npDiagK
  rw [e]
  refine (Nd.get_ofFn _ (valid2 ha hb)).trans ?_
  simp only [List.getD_cons_zero, List.getD_cons_succ]
  by_cases h : a = b
  · subst h; rw [if_pos (by ring), if_pos rfl, Nat.min_self]
  · rw [if_neg (by omega), if_neg h]

theorem number_get {a b : ℕ} (ha : a < P.dim) (hb : b < P.dim) : P.number.get [a, b] = if a = b then (a : ℂ) else 0 := by
  unfold number
  rw [diag_get (by simpa) (by simpa), List.getD_eq_getElem _ _ (by simpa)]
  simp

theorem hamiltonian_get {a b : ℕ} (ha : a < P.dim) (hb : b < P.dim) :
    P.hamiltonian.get [a, b] = if a = b then ((P.hbar * P.omega : ℝ) : ℂ) * (1 / 2 + (a : ℂ)) else 0 := by
  unfold hamiltonian
  rw [diag_get (by simpa) (by simpa), List.getD_eq_getElem _ _ (by simpa)]
  simp [hamiltonianCoeff]

theorem number_shape : P.number.shape = [P.dim, P.dim] := by simp [number, npDiagK, Nd.ofFn]
theorem hamiltonian_shape : P.hamiltonian.shape = [P.dim, P.dim] := by simp [hamiltonian, npDiagK, Nd.ofFn]

theorem sum_pick (n k : ℕ) (f : ℕ → ℂ) (w : ℂ) : (∑ s ∈ Finset.range n, (if s = k then w else 0) * f s) = if k < n then w * f k else 0 := by
  by_cases h : k < n
  · rw [if_pos h, Finset.sum_eq_single k]
    · rw [if_pos rfl]
    · intro s _ hs; rw [if_neg hs, zero_mul]
    · intro hs; exact absurd (Finset.mem_range.2 h) hs
  · rw [if_neg h]
    exact Finset.sum_eq_zero fun s hs => by rw [if_neg (by have := Finset.mem_range.1 hs; omega), zero_mul]

/-- Row `a` of the creation matrix against a function. -/
theorem creation_row {a : ℕ} (ha : a < P.dim) (f : ℕ → ℂ) :
    (∑ s ∈ Finset.range P.dim, P.creation.get [a, s] * f s) = if a = 0 then 0 else ((Real.sqrt a : ℝ) : ℂ) * f (a - 1) := by
  rw [Finset.sum_congr rfl fun s hs => by rw [P.creation_get ha (Finset.mem_range.1 hs)]]
  by_cases h0 : a = 0
  · rw [if_pos h0]
    exact Finset.sum_eq_zero fun s hs => by rw [if_neg (by omega), zero_mul]
  · obtain ⟨k, rfl⟩ := Nat.exists_eq_succ_of_ne_zero h0
    rw [if_neg h0, Nat.succ_eq_add_one, Nat.add_sub_cancel]
    refine (Finset.sum_congr rfl fun s _ => ?_).trans ((sum_pick P.dim k f ((Real.sqrt (k + 1 : ℕ) : ℝ) : ℂ)).trans (if_pos (by omega)))
    by_cases h : s = k
    · subst h; rw [if_pos rfl, if_pos rfl]
    · rw [if_neg h, if_neg (by omega)]

/-- Row `a` of the annihilation matrix against a function. -/
theorem annihilation_row {a : ℕ} (ha : a < P.dim) (f : ℕ → ℂ) :
    (∑ s ∈ Finset.range P.dim, P.annihilation.get [a, s] * f s) =
      if a + 1 < P.dim then ((Real.sqrt (a + 1 : ℕ) : ℝ) : ℂ) * f (a + 1) else 0 := by
  rw [Finset.sum_congr rfl fun s hs => by rw [P.annihilation_get ha (Finset.mem_range.1 hs)]]
  exact sum_pick P.dim (a + 1) f _

/-- What `raising` returns. -/
theorem raising_ok {v : List ℂ} (hv : v.length = P.dim) : P.raising v = .ok ((List.range P.dim).map fun a : ℕ =>
    if a = 0 then 0 else ((Real.sqrt a : ℝ) : ℂ) * v.getD (a - 1) 0) := by
  unfold raising checkVec
  rw [if_neg (by simp [hv]), ok_bind]
  refine congrArg Except.ok (List.ext_getElem ?_ ?_)
  · simp [sqrts]; omega
  · intro a h1 h2
    have ha : a < P.dim := by simpa using h2
    simp only [sqrts, List.getElem_zipWith, List.getElem_map, List.getElem_range, List.getElem_take]
    cases a with
    | zero => simp
    | succ a =>
      rw [if_neg (by omega), List.getElem_cons_succ, List.getElem_dropLast, Nat.add_sub_cancel, List.getD_eq_getElem _ _ (by omega), mul_comm]

/-- What `lowering` returns. -/
theorem lowering_ok {v : List ℂ} (hv : v.length = P.dim) : P.lowering v = .ok ((List.range P.dim).map fun a : ℕ =>
    if a + 1 < P.dim then ((Real.sqrt (a + 1 : ℕ) : ℝ) : ℂ) * v.getD (a + 1) 0 else 0) := by
  unfold lowering checkVec
  rw [if_neg (by simp [hv]), ok_bind]
  refine congrArg Except.ok (List.ext_getElem ?_ ?_)
  · simp [sqrts]; omega
  · intro a h1 h2
    have ha : a < P.dim := by simpa using h2
    simp only [List.getElem_map, List.getElem_range, List.getElem_take]
    by_cases h : a + 1 < P.dim
    · rw [if_pos h, List.getElem_append_left (by simp [sqrts]; omega), List.getElem_tail]
      simp only [sqrts, List.getElem_zipWith, List.getElem_map, List.getElem_range]
      rw [List.getD_eq_getElem _ _ (by omega)]
    · rw [if_neg h, List.getElem_append_right (by simp [sqrts]; omega)]
      simp

theorem map_getD {n a : ℕ} (f : ℕ → ℂ) (ha : a < n) : ((List.range n).map f).getD a 0 = f a := by
  rw [List.getD_eq_getElem _ _ (by simpa)]; simp

/-- `raising` after `lowering` multiplies by the level. -/
theorem raising_lowering {v : List ℂ} (hv : v.length = P.dim) :
    (P.lowering v >>= P.raising) = .ok ((List.range P.dim).map fun a : ℕ => (a : ℂ) * v.getD a 0) := by
  rw [P.lowering_ok hv, ok_bind, P.raising_ok (by simp)]
  refine congrArg Except.ok (List.map_congr_left fun a ha => ?_)
  have ha : a < P.dim := by simpa using ha
  cases a with
  | zero => simp
  | succ a =>
    rw [if_neg (by omega), Nat.add_sub_cancel, map_getD _ (by omega), if_pos ha, ← mul_assoc, ← Complex.ofReal_mul,
      Real.mul_self_sqrt (Nat.cast_nonneg _)]
    norm_cast

theorem matVec_ok {M : Nd ℂ} {n : ℕ} (hM : M.shape = [n, n]) {v : List ℂ} (hv : v.length = n) :
    matVec M v = .ok ((List.range n).map fun a => ∑ b ∈ Finset.range n, M.get [a, b] * v.getD b 0) := by
  unfold matVec
  rw [hM]
  exact if_pos hv.symm

theorem zip_map (n : ℕ) (f g : ℕ → ℂ) (o : ℂ → ℂ → ℂ) :
    List.zipWith o ((List.range n).map f) ((List.range n).map g) = (List.range n).map fun a => o (f a) (g a) := by
  rw [List.zipWith_map, List.zipWith_self]

theorem list_map_range {v : List ℂ} {n : ℕ} (hv : v.length = n) (f : ℂ → ℂ) : v.map f = (List.range n).map fun a => f (v.getD a 0) := by
  refine List.ext_getElem (by simp [hv]) fun a h1 h2 => ?_
  rw [List.getElem_map, List.getElem_map, List.getElem_range, List.getD_eq_getElem _ _ (by simpa using h1)]

theorem ext2 {A B : Nd ℂ} {n : ℕ} (hA : A.Wf) (hB : B.Wf) (sA : A.shape = [n, n]) (sB : B.shape = [n, n])
    (h : ∀ a b, a < n → b < n → A.get [a, b] = B.get [a, b]) : A = B := by
  refine Nd.ext_get hA hB (sA.trans sB.symm) fun p hp => ?_
  rw [sA] at hp
  match p, hp with
  | [], hp => exact absurd hp.length_eq (by simp)
  | [_], hp => exact absurd hp.length_eq (by simp)
  | a :: b :: c :: l, hp => exact absurd hp.length_eq (by simp)
  | [a, b], hp =>
    simp only [Valid, List.forall₂_cons, List.Forall₂.nil, and_true] at hp
    exact h a b hp.1 hp.2

theorem number_wf : P.number.Wf := Nd.ofFn_wf _ _

/-- The entries of creation times annihilation. -/
theorem ca_get {a b : ℕ} (ha : a < P.dim) (hb : b < P.dim) :
    (∑ s ∈ Finset.range P.dim, P.creation.get [a, s] * P.annihilation.get [s, b]) = if a = b then (a : ℂ) else 0 := by
  rw [P.creation_row ha fun s => P.annihilation.get [s, b]]
  cases a with
  | zero => simp
  | succ a =>
    rw [if_neg (by omega), Nat.add_sub_cancel, P.annihilation_get (by omega) hb]
    by_cases h : a + 1 = b
    · rw [if_pos h, if_pos h.symm, ← Complex.ofReal_mul, Real.mul_self_sqrt (Nat.cast_nonneg _)]
      norm_cast
    · rw [if_neg h, if_neg (by omega), mul_zero]

/-- The entries of annihilation times creation. -/
theorem ac_get {a b : ℕ} (ha : a < P.dim) (hb : b < P.dim) :
    (∑ s ∈ Finset.range P.dim, P.annihilation.get [a, s] * P.creation.get [s, b]) =
      if a = b then (if a + 1 < P.dim then ((a + 1 : ℕ) : ℂ) else 0) else 0 := by
  rw [P.annihilation_row ha fun s => P.creation.get [s, b]]
  by_cases h1 : a + 1 < P.dim
  · rw [if_pos h1, P.creation_get h1 hb, if_pos h1]
    by_cases h : a = b
    · subst h
      rw [if_pos rfl, if_pos rfl, ← Complex.ofReal_mul, Real.mul_self_sqrt (Nat.cast_nonneg _)]
      norm_cast
    · rw [if_neg h, if_neg (by omega), mul_zero]
  · rw [if_neg h1, if_neg h1, ite_self]

theorem coordinate_ok (hd : 1 ≤ P.dim) : ∃ X, P.coordinate = .ok X ∧ X.Wf ∧ X.shape = [P.dim, P.dim] ∧ ∀ a b, a < P.dim → b < P.dim →
    X.get [a, b] = P.coordinateCoeff * (P.creation.get [a, b] + P.annihilation.get [a, b]) := by
  obtain ⟨z, z1, z2, z3, z4⟩ := Nd.add_ok (a := P.creation) (b := P.annihilation) (Nd.ofFn_wf _ _) (Nd.ofFn_wf _ _) ((P.creation_shape hd).trans (P.annihilation_shape hd).symm)
  refine ⟨Nd.smul P.coordinateCoeff z, ?_, ?_, z3.trans (P.creation_shape hd), fun a b ha hb => ?_⟩
  · unfold coordinate; rw [z1]; rfl
  · simpa [Nd.Wf, Nd.smul] using z2
  · rw [Heom.smul_get, z4 _ ((P.creation_shape hd).symm ▸ valid2 ha hb)]

theorem momentum_ok (hd : 1 ≤ P.dim) : ∃ X, P.momentum = .ok X ∧ X.Wf ∧ X.shape = [P.dim, P.dim] ∧ ∀ a b, a < P.dim → b < P.dim →
    X.get [a, b] = P.momentumCoeff * (P.creation.get [a, b] - P.annihilation.get [a, b]) := by
  obtain ⟨z, z1, z2, z3, z4⟩ := Nd.sub_ok (a := P.creation) (b := P.annihilation) (Nd.ofFn_wf _ _) (Nd.ofFn_wf _ _) ((P.creation_shape hd).trans (P.annihilation_shape hd).symm)
  refine ⟨Nd.smul P.momentumCoeff z, ?_, ?_, z3.trans (P.creation_shape hd), fun a b ha hb => ?_⟩
  · unfold momentum; rw [z1]; rfl
  · simpa [Nd.Wf, Nd.smul] using z2
  · rw [Heom.smul_get, z4 _ ((P.creation_shape hd).symm ▸ valid2 ha hb)]

end Phonon
