import Verif.Lemmas.Phonon
import Mathlib.Tactic.FieldSimp

/-! C49: the operators of a truncated harmonic oscillator, dense and matrix-free. -/

open Py
open scoped BigOperators

namespace Phonon

variable (P : Phonon)

/-! ### The dense matrices -/

/-- The creation and the annihilation matrix are adjoint. -/
theorem C49_adjoint {a b : ℕ} (ha : a < P.dim) (hb : b < P.dim) :
    P.creation.get [a, b] = (starRingEnd ℂ) (P.annihilation.get [b, a]) := by
  rw [P.creation_get ha hb, P.annihilation_get hb ha]
  split
  · exact (Complex.conj_ofReal _).symm
  · exact (map_zero _).symm

/-- The creation matrix takes level `n` to `√(n+1)` times level `n + 1` (column `n`), the annihilation matrix level `n + 1` to `√(n+1)` times
level `n`. -/
theorem C49_ladder {n : ℕ} (hn : n + 1 < P.dim) :
    (∀ a < P.dim, P.creation.get [a, n] = if a = n + 1 then ((Real.sqrt (n + 1 : ℕ) : ℝ) : ℂ) else 0) ∧
    (∀ a < P.dim, P.annihilation.get [a, n + 1] = if a = n then ((Real.sqrt (n + 1 : ℕ) : ℝ) : ℂ) else 0) := by
  refine ⟨fun a ha => P.creation_get ha (by omega), fun a ha => ?_⟩
  rw [P.annihilation_get ha hn]
  by_cases h : a = n
  · subst h; rw [if_pos rfl, if_pos rfl]
  · rw [if_neg h, if_neg (by omega)]

/-- Creation times annihilation is the number operator. -/
theorem C49_number (hd : 1 ≤ P.dim) : P.creation.matmul P.annihilation = .ok P.number := by
  obtain ⟨c, h1, h2, h3, h4⟩ := Tensor.matmul_spec _ _ (P.creation_shape hd) (P.annihilation_shape hd)
  rw [h1]
  refine congrArg _ (ext2 h2 P.number_wf h3 P.number_shape fun a b ha hb => ?_)
  rw [h4 a b ha hb, P.ca_get ha hb, P.number_get ha hb]

/-- The commutator is the identity except on the highest level, where it is `1 - dim`. -/
theorem C49_commutator (hd : 1 ≤ P.dim) : ∃ x y z, P.annihilation.matmul P.creation = .ok x ∧ P.creation.matmul P.annihilation = .ok y ∧
    x.sub y = .ok z ∧ z.shape = [P.dim, P.dim] ∧ ∀ a b, a < P.dim → b < P.dim →
      z.get [a, b] = if a = b then (if a + 1 = P.dim then 1 - (P.dim : ℂ) else 1) else 0 := by
  obtain ⟨x, x1, x2, x3, x4⟩ := Tensor.matmul_spec _ _ (P.annihilation_shape hd) (P.creation_shape hd)
  obtain ⟨y, y1, y2, y3, y4⟩ := Tensor.matmul_spec _ _ (P.creation_shape hd) (P.annihilation_shape hd)
  obtain ⟨z, z1, z2, z3, z4⟩ := Nd.sub_ok x2 y2 (x3.trans y3.symm)
  refine ⟨x, y, z, x1, y1, z1, z3.trans x3, fun a b ha hb => ?_⟩
  rw [z4 _ (x3 ▸ valid2 ha hb), x4 a b ha hb, y4 a b ha hb, P.ac_get ha hb, P.ca_get ha hb]
  by_cases h : a = b
  · subst h
    simp only [if_pos]
    by_cases h' : a + 1 = P.dim
    · rw [if_neg (by omega), if_pos h', ← h']; push_cast; ring
    · rw [if_pos (by omega), if_neg h']; push_cast; ring
  · rw [if_neg h, if_neg h, if_neg h, sub_zero]

/-- `hamiltonian` is `ħω (N + 1/2)`. -/
theorem C49_hamiltonian {a b : ℕ} (ha : a < P.dim) (hb : b < P.dim) : P.hamiltonian.get [a, b] =
    ((P.hbar * P.omega : ℝ) : ℂ) * (P.number.get [a, b] + if a = b then 1 / 2 else 0) := by
  rw [P.hamiltonian_get ha hb, P.number_get ha hb]
  split
  · ring
  · ring

/-- `coordinate_operator` and `momentum_operator` are Hermitian. -/
theorem C49_hermitian (hd : 1 ≤ P.dim) : ∃ X M, P.coordinate = .ok X ∧ P.momentum = .ok M ∧ X.shape = [P.dim, P.dim] ∧
    M.shape = [P.dim, P.dim] ∧ ∀ a b, a < P.dim → b < P.dim → X.get [b, a] = (starRingEnd ℂ) (X.get [a, b]) ∧
      M.get [b, a] = (starRingEnd ℂ) (M.get [a, b]) := by
  obtain ⟨X, x1, x2, x3, x4⟩ := P.coordinate_ok hd
  obtain ⟨M, m1, m2, m3, m4⟩ := P.momentum_ok hd
  refine ⟨X, M, x1, m1, x3, m3, fun a b ha hb => ⟨?_, ?_⟩⟩
  · rw [x4 b a hb ha, x4 a b ha hb, map_mul, map_add, ← P.C49_adjoint hb ha, coordinateCoeff, Complex.conj_ofReal,
      P.C49_adjoint ha hb, Complex.conj_conj, add_comm]
  · rw [m4 b a hb ha, m4 a b ha hb, map_mul, map_sub, ← P.C49_adjoint hb ha, momentumCoeff, map_mul, Complex.conj_ofReal, Complex.conj_I,
      P.C49_adjoint ha hb, Complex.conj_conj]
    ring

/-- The Hamiltonian of the harmonic oscillator: `p²/2m + mω²x²/2` is `hamiltonian` in all rows but that of the highest level. -/
theorem C49_oscillator (hd : 1 ≤ P.dim) (hw : 0 < P.omega) (hm : 0 < P.mass) (hh : 0 < P.hbar) :
    ∃ X M X2 M2, P.coordinate = .ok X ∧ P.momentum = .ok M ∧ X.matmul X = .ok X2 ∧ M.matmul M = .ok M2 ∧
      ∀ a b, a + 1 < P.dim → b < P.dim →
        M2.get [a, b] / (2 * (P.mass : ℂ)) + (P.mass : ℂ) * (P.omega : ℂ) ^ 2 / 2 * X2.get [a, b] = P.hamiltonian.get [a, b] := by
  obtain ⟨X, x1, x2, x3, x4⟩ := P.coordinate_ok hd
  obtain ⟨M, m1, m2, m3, m4⟩ := P.momentum_ok hd
  obtain ⟨X2, y1, y2, y3, y4⟩ := Tensor.matmul_spec X X x3 x3
  obtain ⟨M2, n1, n2, n3, n4⟩ := Tensor.matmul_spec M M m3 m3
  refine ⟨X, M, X2, M2, x1, m1, y1, n1, fun a b ha' hb => ?_⟩
  have ha : a < P.dim := by omega
  have cx : P.coordinateCoeff ^ 2 = (P.hbar : ℂ) / P.mass / P.omega / 2 := by
    unfold coordinateCoeff
    rw [← Complex.ofReal_pow, Real.sq_sqrt (by positivity)]
    push_cast; rfl
  have cm : P.momentumCoeff ^ 2 = -((P.hbar : ℂ) * P.mass * P.omega / 2) := by
    unfold momentumCoeff
    rw [mul_pow, Complex.I_sq, ← Complex.ofReal_pow, Real.sq_sqrt (by positivity)]
    push_cast; ring
  have ex : X2.get [a, b] = P.coordinateCoeff ^ 2 *
      (((∑ s ∈ Finset.range P.dim, P.creation.get [a, s] * P.creation.get [s, b]) +
        ∑ s ∈ Finset.range P.dim, P.annihilation.get [a, s] * P.annihilation.get [s, b]) +
      ((∑ s ∈ Finset.range P.dim, P.creation.get [a, s] * P.annihilation.get [s, b]) +
        ∑ s ∈ Finset.range P.dim, P.annihilation.get [a, s] * P.creation.get [s, b])) := by
    rw [y4 a b ha hb, ← Finset.sum_add_distrib, ← Finset.sum_add_distrib, ← Finset.sum_add_distrib, Finset.mul_sum]
    refine Finset.sum_congr rfl fun s hs => ?_
    have hs := Finset.mem_range.1 hs
    rw [x4 a s ha hs, x4 s b hs hb]
    ring
  have em : M2.get [a, b] = P.momentumCoeff ^ 2 *
      (((∑ s ∈ Finset.range P.dim, P.creation.get [a, s] * P.creation.get [s, b]) +
        ∑ s ∈ Finset.range P.dim, P.annihilation.get [a, s] * P.annihilation.get [s, b]) -
      ((∑ s ∈ Finset.range P.dim, P.creation.get [a, s] * P.annihilation.get [s, b]) +
        ∑ s ∈ Finset.range P.dim, P.annihilation.get [a, s] * P.creation.get [s, b])) := by
    rw [n4 a b ha hb, ← Finset.sum_add_distrib, ← Finset.sum_add_distrib, ← Finset.sum_sub_distrib, Finset.mul_sum]
    refine Finset.sum_congr rfl fun s hs => ?_
    have hs := Finset.mem_range.1 hs
    rw [m4 a s ha hs, m4 s b hs hb]
    ring
  rw [ex, em, cx, cm, P.ca_get ha hb, P.ac_get ha hb, P.hamiltonian_get ha hb]
  have h1 : (P.mass : ℂ) ≠ 0 := by exact_mod_cast hm.ne'
  have h2 : (P.omega : ℂ) ≠ 0 := by exact_mod_cast hw.ne'
  by_cases h : a = b
  · rw [if_pos h, if_pos h, if_pos ha', if_pos h]
    push_cast
    field_simp
    ring
  · rw [if_neg h, if_neg h, if_neg h]
    field_simp
    ring

/-! ### The matrix-free operators -/

/-- The matrix-free number, coordinate, momentum and Hamiltonian operators act on every vector as the dense matrices. -/
theorem C49_matrix_free_partial (hd : 1 ≤ P.dim) {v : List ℂ} (hv : v.length = P.dim) : ∃ X M, P.coordinate = .ok X ∧ P.momentum = .ok M ∧
    P.numberOp.matvec v = matVec P.number v ∧ P.hamiltonianOp.matvec v = matVec P.hamiltonian v ∧
    P.coordinateOp.matvec v = matVec X v ∧ P.momentumOp.matvec v = matVec M v := by
  obtain ⟨X, x1, x2, x3, x4⟩ := P.coordinate_ok hd
  obtain ⟨M, m1, m2, m3, m4⟩ := P.momentum_ok hd
  refine ⟨X, M, x1, m1, ?_, ?_, ?_, ?_⟩
  · rw [matVec_ok P.number_shape hv]
    unfold LinOp.matvec numberOp operator
    dsimp only
    rw [if_pos hv]
    refine (P.raising_lowering hv).trans (congrArg Except.ok (List.map_congr_left fun a ha => ?_))
    have ha : a < P.dim := by simpa using ha
    rw [Finset.sum_congr rfl fun s hs => by rw [P.number_get ha (Finset.mem_range.1 hs)]]
    simp only [eq_comm (a := a)]
    rw [sum_pick P.dim a (fun s => v.getD s 0) a, if_pos ha]
  · rw [matVec_ok P.hamiltonian_shape hv]
    unfold LinOp.matvec hamiltonianOp operator
    dsimp only [Option.getD_none]
    rw [if_pos hv, ← bind_assoc, P.raising_lowering hv, ok_bind]
    refine congrArg Except.ok ?_
    unfold vsmul vadd
    rw [list_map_range hv (fun x => 1 / 2 * x), zip_map, List.map_map]
    refine List.map_congr_left fun a ha => ?_
    have ha : a < P.dim := by simpa using ha
    rw [Finset.sum_congr rfl fun s hs => by rw [P.hamiltonian_get ha (Finset.mem_range.1 hs)]]
    simp only [eq_comm (a := a)]
    rw [sum_pick P.dim a (fun s => v.getD s 0), if_pos ha]
    simp only [Function.comp_apply, hamiltonianCoeff]
    ring
  · rw [matVec_ok x3 hv]
    unfold LinOp.matvec coordinateOp operator
    dsimp only [Option.getD_none]
    rw [if_pos hv, P.raising_ok hv, ok_bind, P.lowering_ok hv, ok_bind]
    refine congrArg Except.ok ?_
    unfold vsmul vadd
    rw [zip_map, List.map_map]
    refine List.map_congr_left fun a ha => ?_
    have ha : a < P.dim := by simpa using ha
    simp only [Function.comp_apply]
    rw [← P.creation_row ha fun s => v.getD s 0, ← P.annihilation_row ha fun s => v.getD s 0, ← Finset.sum_add_distrib, Finset.mul_sum]
    refine Finset.sum_congr rfl fun s hs => ?_
    rw [x4 a s ha (Finset.mem_range.1 hs)]
    ring
  · rw [matVec_ok m3 hv]
    unfold LinOp.matvec momentumOp operator
    dsimp only [Option.getD_none]
    rw [if_pos hv, P.raising_ok hv, ok_bind, P.lowering_ok hv, ok_bind]
    refine congrArg Except.ok ?_
    unfold vsmul vsub
    rw [zip_map, List.map_map]
    refine List.map_congr_left fun a ha => ?_
    have ha : a < P.dim := by simpa using ha
    simp only [Function.comp_apply]
    rw [← P.creation_row ha fun s => v.getD s 0, ← P.annihilation_row ha fun s => v.getD s 0, ← Finset.sum_sub_distrib, Finset.mul_sum]
    refine Finset.sum_congr rfl fun s hs => ?_
    rw [m4 a s ha (Finset.mem_range.1 hs)]
    ring

/-- The functions `raising` and `lowering` act on every vector as the creation and annihilation matrices. -/
theorem C49_functions (hd : 1 ≤ P.dim) {v : List ℂ} (hv : v.length = P.dim) :
    P.raising v = matVec P.creation v ∧ P.lowering v = matVec P.annihilation v := by
  rw [matVec_ok (P.creation_shape hd) hv, matVec_ok (P.annihilation_shape hd) hv, P.raising_ok hv, P.lowering_ok hv]
  exact ⟨congrArg Except.ok (List.map_congr_left fun a ha => (P.creation_row (by simpa using ha) fun s => v.getD s 0).symm),
    congrArg Except.ok (List.map_congr_left fun a ha => (P.annihilation_row (by simpa using ha) fun s => v.getD s 0).symm)⟩

/-- But the matrix-free creation operator acts as the annihilation matrix and conversely: `operator` passes `rmatvec` for `matvec`. -/
theorem C49_exchanged (hd : 1 ≤ P.dim) {v : List ℂ} (hv : v.length = P.dim) :
    P.creationOp.matvec v = matVec P.annihilation v ∧ P.annihilationOp.matvec v = matVec P.creation v := by
  obtain ⟨h1, h2⟩ := P.C49_functions hd hv
  unfold LinOp.matvec creationOp annihilationOp operator
  dsimp only [Option.getD_some]
  rw [if_pos hv, if_pos hv]
  exact ⟨h2, h1⟩

/-- Therefore the matrix-free creation operator is not the dense one, for any dimension above 1. -/
theorem C49_violated (hd : 2 ≤ P.dim) : ∃ v : List ℂ, v.length = P.dim ∧ P.creationOp.matvec v ≠ matVec P.creation v := by
  refine ⟨(List.range P.dim).map fun i => if i = 0 then 1 else 0, by simp, ?_⟩
  have hv : ((List.range P.dim).map fun i => if i = 0 then (1 : ℂ) else 0).length = P.dim := by simp
  rw [(P.C49_exchanged (by omega) hv).1, ← (P.C49_functions (by omega) hv).1, ← (P.C49_functions (by omega) hv).2, P.raising_ok hv,
    P.lowering_ok hv]
  intro h
  have h := congrArg (fun l : List ℂ => l.getD 1 0) (Except.ok.inj h)
  beta_reduce at h
  rw [map_getD _ hd, map_getD _ hd, if_neg (show ¬ (1 : ℕ) = 0 by omega), map_getD _ (show 1 - 1 < P.dim by omega)] at h
  by_cases h3 : 1 + 1 < P.dim
  · rw [if_pos h3, map_getD _ h3] at h
    simp at h
  · rw [if_neg h3] at h
    simp at h

/-- A vector of the wrong length is refused, by the functions with `TypeError` and by the operators with `ValueError`. -/
theorem C49_wrong_length {v : List ℂ} (hv : v.length ≠ P.dim) : P.raising v = .error .typeError ∧ P.lowering v = .error .typeError ∧
    P.creationOp.matvec v = .error .valueError ∧ P.annihilationOp.matvec v = .error .valueError ∧
    P.numberOp.matvec v = .error .valueError ∧ P.hamiltonianOp.matvec v = .error .valueError ∧
    P.coordinateOp.matvec v = .error .valueError ∧ P.momentumOp.matvec v = .error .valueError := by
  have h : P.checkVec v = .error .typeError := if_pos hv
  refine ⟨?_, ?_, if_neg hv, if_neg hv, if_neg hv, if_neg hv, if_neg hv, if_neg hv⟩
  · unfold raising; rw [h]; rfl
  · unfold lowering; rw [h]; rfl

/-- The matrix-free number operator on the second of three levels. -/
example : (⟨3, 1, 1, 1⟩ : Phonon).numberOp.matvec [0, 1, 0] = .ok [0, 1, 0] := by
  obtain ⟨X, M, -, -, h, -⟩ := C49_matrix_free_partial ⟨3, 1, 1, 1⟩ (by simp) (v := [0, 1, 0]) rfl
  rw [h, matVec_ok (number_shape _) rfl]
  refine congrArg Except.ok ?_
  simp [List.range_succ, Finset.sum_range_succ, number_get]

example : ∃ v : List ℂ, v.length = 3 ∧ (⟨3, 1, 1, 1⟩ : Phonon).creationOp.matvec v ≠ matVec (⟨3, 1, 1, 1⟩ : Phonon).creation v :=
  C49_violated ⟨3, 1, 1, 1⟩ (by simp)

end Phonon
