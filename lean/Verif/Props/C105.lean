import Verif.Model.DvrProp
import Verif.Props.C103
import Mathlib.Analysis.Normed.Algebra.MatrixExponential
import Mathlib.Analysis.Complex.Exponential

/-! C105: `DVR.propagator`. -/

open Py
open scoped BigOperators Matrix

namespace SineDVR

/-! ### Specification -/

/-- An array as a matrix of Mathlib. -/
def mat (n : ℕ) (A : Nd ℂ) : Matrix (Fin n) (Fin n) ℂ := fun i j => A.get [i.1, j.1]

/-- The evolution operator for the time `t`: `exp(-i H t / ħ)`. -/
noncomputable def evolution {n : ℕ} (hbar t : ℝ) (H : Matrix (Fin n) (Fin n) ℂ) : Matrix (Fin n) (Fin n) ℂ :=
  NormedSpace.exp ((-(Complex.I * t / hbar)) • H)

/-- The potential energy: a diagonal matrix of the values at the grid points. -/
def potentialEnergy (n : ℕ) (vs : List ℂ) : Matrix (Fin n) (Fin n) ℂ := Matrix.diagonal fun i => vs.getD i 0

/-! ### Lemmas -/

theorem diagonal_get {vs : List ℂ} {n : ℕ} (h : vs.length = n) : mat n (npDiagK vs 0) = Matrix.diagonal fun i : Fin n => vs.getD i 0 := by
  subst h
  ext i j
  unfold mat npDiagK
  rw [Nd.get_ofFn _ (Phonon.valid2 (by simp) (by simp))]
  by_cases hij : i = j
  · subst hij
    simp
  · have : ¬((j.1 : ℤ) = i.1 + 0) := fun h => hij (Fin.ext (by omega))
    simp only [List.getD_cons_zero, List.getD_cons_succ]
    rw [if_neg this, Matrix.diagonal_apply_ne _ hij]

theorem npDiagonal_diag (vs : List ℂ) : npDiagonal (npDiagK vs 0) = vs := by
  unfold npDiagonal
  have h0 : (npDiagK vs 0).dim 0 = vs.length := by simp [npDiagK, Nd.dim, Nd.ofFn]
  have h1 : (npDiagK vs 0).dim 1 = vs.length := by simp [npDiagK, Nd.dim, Nd.ofFn]
  rw [h0, h1, min_self]
  refine List.ext_getElem (by simp) fun i h1 h2 => ?_
  rw [List.getElem_map, List.getElem_range]
  unfold npDiagK
  rw [Nd.get_ofFn _ (Phonon.valid2 (by simpa using h2) (by simpa using h2))]
  simp [h2]

theorem npDiagonal_smul (c : ℂ) (A : Nd ℂ) : npDiagonal (Nd.smul c A) = (npDiagonal A).map fun a => c * a := by
  unfold npDiagonal
  rw [List.map_map]
  refine List.map_congr_left fun i _ => ?_
  exact Heom.smul_get _ _ _

theorem exp_diag {n : ℕ} (c : ℂ) (v : Fin n → ℂ) :
    NormedSpace.exp (c • Matrix.diagonal v) = Matrix.diagonal fun i => Complex.exp (c * v i) := by
  rw [← Matrix.diagonal_smul, Matrix.exp_diagonal]
  congr 1
  funext i
  rw [Pi.coe_exp, Complex.exp_eq_exp_ℂ]
  rfl

/-- What `propagator` returns. -/
theorem propagator_ok {eigh : Nd ℂ → Res (List ℝ × Nd ℝ)} {D : SineDVR} {T : Nd ℂ} (hT : D.tMat = .ok T) (he : CasDVR.EighOk eigh T D.n)
    {f : List ℝ → Res (List ℂ)} {vs : List ℂ} (hf : D.vFunc = some f) (hv : f D.gridPoints = .ok vs) (hl : vs.length = D.n) (tau : ℝ) :
    ∃ p1 p2 p3, D.propagator eigh tau true = .ok (some (p1, p2, p3)) ∧ p1.shape = [D.n, D.n] ∧ p2.shape = [D.n, D.n] ∧
      p3.shape = [D.n, D.n] ∧
      mat D.n p1 = NormedSpace.exp ((-(Complex.I * D.hbar * tau / 2)) • potentialEnergy D.n vs) ∧
      mat D.n p2 = NormedSpace.exp ((-(Complex.I * D.hbar * tau)) • potentialEnergy D.n vs) ∧
      mat D.n p3 = NormedSpace.exp ((-(Complex.I * D.hbar * tau)) • mat D.n T) := by
  obtain ⟨e, u, h1, h2, h3⟩ := he
  have hV : D.vMat = .ok (npDiagK vs 0) := by
    unfold vMat potential
    rw [hf]
    dsimp only
    rw [hv]
    rfl
  have hus : (CasDVR.cast u).shape = [D.n, D.n] := h2
  set q := e.map fun d : ℝ => Complex.exp (-1 * Complex.I * D.hbar * tau * d) with hq
  have hql : q.length = D.n := by rw [hq, List.length_map, h3.count]
  have hqs : (npDiagK q 0).shape = [D.n, D.n] := by simp [npDiagK, Nd.ofFn, hql]
  obtain ⟨X, x1, x2, x3, x4⟩ := Tensor.matmul_spec (npDiagK q 0) (Heom.transpose (CasDVR.cast u)) hqs (Heom.transpose_shape hus)
  obtain ⟨Y, y1, y2, y3, y4⟩ := Tensor.matmul_spec (CasDVR.cast u) X hus x3
  refine ⟨npDiagK (vs.map fun d => Complex.exp (-1 * Complex.I * D.hbar * tau * (0.5 * d))) 0,
    npDiagK (vs.map fun d => Complex.exp (-1 * Complex.I * D.hbar * tau * d)) 0, Y, ?_, by simp [npDiagK, Nd.ofFn, hl],
    by simp [npDiagK, Nd.ofFn, hl], y3, ?_, ?_, ?_⟩
  · unfold propagator
    rw [if_pos rfl, hT, ok_bind, h1, ok_bind]
    dsimp only
    rw [← hq, x1, ok_bind, y1, ok_bind, hV, ok_bind, ok_bind, npDiagonal_smul, npDiagonal_diag, List.map_map]
    rfl
  · rw [diagonal_get (by simpa using hl), potentialEnergy, exp_diag]
    congr 1
    funext i
    have hi : i.1 < vs.length := by rw [hl]; exact i.2
    rw [List.getD_eq_getElem _ _ (by simpa using hi), List.getElem_map, List.getD_eq_getElem _ _ hi]
    congr 1
    norm_num
    ring
  · rw [diagonal_get (by simpa using hl), potentialEnergy, exp_diag]
    congr 1
    funext i
    have hi : i.1 < vs.length := by rw [hl]; exact i.2
    rw [List.getD_eq_getElem _ _ (by simpa using hi), List.getElem_map, List.getD_eq_getElem _ _ hi]
    congr 1
    ring
  · have hY : mat D.n Y = mat D.n (CasDVR.cast u) * Matrix.diagonal (fun i : Fin D.n => q.getD i 0) * (mat D.n (CasDVR.cast u))ᵀ := by
      ext i j
      rw [mat, y4 _ _ i.2 j.2, Matrix.mul_assoc, Matrix.mul_apply, Finset.sum_range]
      refine Finset.sum_congr rfl fun k _ => ?_
      rw [x4 _ _ k.2 j.2, Matrix.mul_apply, Finset.sum_range, ← diagonal_get hql]
      congr 1
      refine Finset.sum_congr rfl fun l _ => ?_
      rw [Heom.transpose_get hus l.2 j.2]
      rfl
    have hUg : ∀ i k : Fin D.n, mat D.n (CasDVR.cast u) i k = ((u.get [i.1, k.1] : ℝ) : ℂ) := fun i k => CasDVR.cast_get u _
    have hUU : (mat D.n (CasDVR.cast u))ᵀ * mat D.n (CasDVR.cast u) = 1 := by
      ext i j
      rw [Matrix.mul_apply, Matrix.one_apply]
      have := h3.orthonormal i.1 i.2 j.1 j.2
      simp only [Matrix.transpose_apply, hUg]
      rw [Finset.sum_range] at this
      have h' := congrArg (fun r : ℝ => (r : ℂ)) this
      push_cast at h'
      rw [h']
      by_cases hij : i = j
      · simp [hij]
      · rw [if_neg (fun h => hij (Fin.ext h)), if_neg hij]; simp
    have hUU' : mat D.n (CasDVR.cast u) * (mat D.n (CasDVR.cast u))ᵀ = 1 := mul_eq_one_comm.1 hUU
    have hTU : mat D.n T * mat D.n (CasDVR.cast u) = mat D.n (CasDVR.cast u) * Matrix.diagonal fun i : Fin D.n => (e.getD i 0 : ℂ) := by
      ext i k
      rw [Matrix.mul_apply, Matrix.mul_diagonal]
      have := h3.equation k.1 k.2 i.1 i.2
      rw [Finset.sum_range] at this
      simp only [hUg]
      rw [mul_comm, ← this]
      rfl
    have hTe : mat D.n T = mat D.n (CasDVR.cast u) * (Matrix.diagonal fun i : Fin D.n => (e.getD i 0 : ℂ)) * (mat D.n (CasDVR.cast u))ᵀ := by
      rw [← hTU, Matrix.mul_assoc, hUU', Matrix.mul_one]
    have hinv : (mat D.n (CasDVR.cast u))⁻¹ = (mat D.n (CasDVR.cast u))ᵀ := Matrix.inv_eq_right_inv hUU'
    have hunit : IsUnit (mat D.n (CasDVR.cast u)) := ⟨⟨_, _, hUU', hUU⟩, rfl⟩
    rw [hY, hTe, ← hinv, ← Matrix.smul_mul, ← Matrix.mul_smul, Matrix.exp_conj _ _ hunit, exp_diag]
    congr 2
    congr 1
    funext i
    have hi : i.1 < e.length := by rw [h3.count]; exact i.2
    rw [hq, List.getD_eq_getElem _ _ (by simpa using hi), List.getElem_map, List.getD_eq_getElem _ _ hi]
    congr 1
    ring

/-! ### C105 -/

/-- The kinetic energy is a real symmetric matrix, so that there is an eigensolver for it. -/
theorem C105_eigh (D : SineDVR) : ∃ T, D.tMat = .ok T ∧ CasDVR.EighOk CasDVR.exactEigh T D.n := by
  obtain ⟨T, h1, h2, h3, h4⟩ := D.tMat_ok
  refine ⟨T, h1, ?_⟩
  have hreal : ∀ a < D.n, ∀ b < D.n, T.get [a, b] = ((T.get [a, b]).re : ℂ) := by
    intro a ha b hb
    have : (starRingEnd ℂ) (T.get [a, b]) = T.get [a, b] := by
      rw [h4 a b ha hb, map_mul, Complex.conj_ofReal, map_sum]
      congr 1
      refine Finset.sum_congr rfl fun s hs => ?_
      have hs := Finset.mem_range.1 hs
      rw [map_mul, map_mul, Complex.conj_ofReal, D.uMat_real hs ha, D.uMat_real hs hb]
    exact (Complex.conj_eq_iff_re.1 this).symm
  have hsym : ∀ a < D.n, ∀ b < D.n, T.get [a, b] = T.get [b, a] := by
    intro a ha b hb
    rw [h4 a b ha hb, h4 b a hb ha]
    congr 1
    exact Finset.sum_congr rfl fun s _ => by ring
  have hd : T.dim 0 = D.n := by unfold Nd.dim; rw [h3]; rfl
  obtain ⟨e, v, k1, k2⟩ := Mctdh.exists_eigen T D.n D.n le_rfl (fun a b => (T.get [a, b]).re) hreal fun a ha b hb => by rw [hsym a ha b hb]
  have hex : ∃ r : List ℝ × Nd ℝ, r.2.shape = [T.dim 0, T.dim 0] ∧ Mctdh.Eigen T (T.dim 0) (T.dim 0) r.1 fun k x => r.2.get [x, k] := by
    rw [hd]
    exact ⟨(e, v), k1, k2⟩
  refine ⟨hex.choose.1, hex.choose.2, ?_, ?_, ?_⟩
  · unfold CasDVR.exactEigh
    rw [dif_pos hex]
  · rw [hex.choose_spec.1, hd]
  · have := hex.choose_spec.2
    generalize hex.choose = r at this ⊢
    rwa [hd] at this

section

variable {eigh : Nd ℂ → Res (List ℝ × Nd ℝ)} {D : SineDVR} {T : Nd ℂ} {f : List ℝ → Res (List ℂ)} {vs : List ℂ}

/-- **C105** for `hbar = 1`: the three matrices are the evolution operators of the potential for half a step, of the potential for a step and
of the kinetic energy for a step. -/
theorem C105_partial (hh : D.hbar = 1) (hT : D.tMat = .ok T) (he : CasDVR.EighOk eigh T D.n) (hf : D.vFunc = some f)
    (hv : f D.gridPoints = .ok vs) (hl : vs.length = D.n) (tau : ℝ) :
    ∃ p1 p2 p3, D.propagator eigh tau true = .ok (some (p1, p2, p3)) ∧ p1.shape = [D.n, D.n] ∧ p2.shape = [D.n, D.n] ∧
      p3.shape = [D.n, D.n] ∧ mat D.n p1 = evolution D.hbar (tau / 2) (potentialEnergy D.n vs) ∧
      mat D.n p2 = evolution D.hbar tau (potentialEnergy D.n vs) ∧ mat D.n p3 = evolution D.hbar tau (mat D.n T) := by
  obtain ⟨p1, p2, p3, h1, h2, h3, h4, h5, h6, h7⟩ := propagator_ok hT he hf hv hl tau
  refine ⟨p1, p2, p3, h1, h2, h3, h4, ?_, ?_, ?_⟩
  · rw [h5, evolution, hh]
    congr 2
    push_cast
    ring
  · rw [h6, evolution, hh]
    congr 2
    push_cast
    ring
  · rw [h7, evolution, hh]
    congr 2
    push_cast
    ring

/-- For all values of `hbar` two half steps of the potential make a step, and for a real potential all three matrices are unitary. -/
theorem C105_unitary (hT : D.tMat = .ok T) (he : CasDVR.EighOk eigh T D.n) (hf : D.vFunc = some f)
    (hv : f D.gridPoints = .ok vs) (hl : vs.length = D.n) (hr : ∀ v ∈ vs, (starRingEnd ℂ) v = v) (tau : ℝ) {p1 p2 p3 : Nd ℂ}
    (hp : D.propagator eigh tau true = .ok (some (p1, p2, p3))) :
    mat D.n p1 * mat D.n p1 = mat D.n p2 ∧ mat D.n p1 * (mat D.n p1)ᴴ = 1 ∧ mat D.n p2 * (mat D.n p2)ᴴ = 1 ∧
      mat D.n p3 * (mat D.n p3)ᴴ = 1 := by
  obtain ⟨q1, q2, q3, h1, h2, h3, h4, h5, h6, h7⟩ := propagator_ok hT he hf hv hl tau
  rw [hp] at h1
  cases h1
  have key : ∀ (c : ℂ) (A : Matrix (Fin D.n) (Fin D.n) ℂ), (starRingEnd ℂ) c = -c → Aᴴ = A →
      NormedSpace.exp (c • A) * (NormedSpace.exp (c • A))ᴴ = 1 := by
    intro c A hc hA
    rw [← Matrix.exp_conjTranspose, Matrix.conjTranspose_smul, hA, show star c = -c from hc, neg_smul,
      ← Matrix.exp_add_of_commute _ _ ((Commute.refl (c • A)).neg_right), add_neg_cancel, NormedSpace.exp_zero]
  have hVh : (potentialEnergy D.n vs)ᴴ = potentialEnergy D.n vs := by
    unfold potentialEnergy
    rw [Matrix.diagonal_conjTranspose]
    congr 1
    funext i
    have hi : i.1 < vs.length := by rw [hl]; exact i.2
    have := hr _ (List.getElem_mem hi)
    rw [Pi.star_apply, List.getD_eq_getElem _ _ hi]
    exact this
  have hTh : (mat D.n T)ᴴ = mat D.n T := by
    obtain ⟨T', t1, t2, t3, t4⟩ := D.tMat_ok
    rw [hT] at t1
    cases t1
    ext a b
    rw [Matrix.conjTranspose_apply]
    change (starRingEnd ℂ) (T.get [b.1, a.1]) = T.get [a.1, b.1]
    rw [t4 _ _ a.2 b.2, t4 _ _ b.2 a.2, map_mul, Complex.conj_ofReal, map_sum]
    congr 1
    refine Finset.sum_congr rfl fun s hs => ?_
    have hs := Finset.mem_range.1 hs
    rw [map_mul, map_mul, Complex.conj_ofReal, D.uMat_real hs b.2, D.uMat_real hs a.2]
    ring
  have hc : (starRingEnd ℂ) (-(Complex.I * D.hbar * tau)) = - -(Complex.I * D.hbar * tau) := by
    simp only [map_neg, map_mul, Complex.conj_I, Complex.conj_ofReal]
    ring
  have hc2 : (starRingEnd ℂ) (-(Complex.I * D.hbar * tau / 2)) = - -(Complex.I * D.hbar * tau / 2) := by
    simp only [map_neg, map_mul, map_div₀, Complex.conj_I, Complex.conj_ofReal, Complex.conj_ofNat]
    ring
  refine ⟨?_, ?_, ?_, ?_⟩
  · rw [h5, h6, ← Matrix.exp_add_of_commute _ _ (Commute.refl _), ← add_smul]
    congr 2
    ring
  · rw [h5]; exact key _ _ hc2 hVh
  · rw [h6]; exact key _ _ hc hVh
  · rw [h7]; exact key _ _ hc hTh

/-- A method without `Trotter` in its name: `None` is returned. -/
theorem C105_other (eigh : Nd ℂ → Res (List ℝ × Nd ℝ)) (D : SineDVR) (tau : ℝ) : D.propagator eigh tau false = .ok none := rfl

end

/-- Before `set_v_func` the propagator cannot be made. -/
theorem C105_before (D : SineDVR) (hf : D.vFunc = none) (tau : ℝ) : D.propagator CasDVR.exactEigh tau true = .error .typeError := by
  obtain ⟨T, h1, e, u, h2, h3, h4⟩ := C105_eigh D
  have hus : (CasDVR.cast u).shape = [D.n, D.n] := h3
  have hqs : (npDiagK (e.map fun d : ℝ => Complex.exp (-1 * Complex.I * D.hbar * tau * d)) 0).shape = [D.n, D.n] := by
    simp [npDiagK, Nd.ofFn, h4.count]
  obtain ⟨X, x1, x2, x3, x4⟩ := Tensor.matmul_spec _ (Heom.transpose (CasDVR.cast u)) hqs (Heom.transpose_shape hus)
  obtain ⟨Y, y1, y2, y3, y4⟩ := Tensor.matmul_spec (CasDVR.cast u) X hus x3
  unfold propagator
  rw [if_pos rfl, h1, ok_bind, h2, ok_bind]
  dsimp only
  rw [x1, ok_bind, y1, ok_bind]
  unfold vMat potential
  rw [hf]
  rfl

/-- A particle of mass 1 in a box of length π, one grid point, `hbar = 2`, no potential. -/
noncomputable def exHbar (hbar : ℝ) : SineDVR := ⟨0, Real.pi, 1, hbar, 1, some fun xs => .ok (xs.map fun _ => 0), none⟩

/-- The hypotheses are met. -/
example : ∃ T p1 p2 p3, (exHbar 1).tMat = .ok T ∧ (exHbar 1).propagator CasDVR.exactEigh 3 true = .ok (some (p1, p2, p3)) ∧
    mat 1 p3 = evolution 1 3 (mat 1 T) := by
  obtain ⟨T, h1, h2⟩ := C105_eigh (exHbar 1)
  obtain ⟨p1, p2, p3, h3, _, _, _, _, _, h4⟩ := C105_partial (D := exHbar 1) rfl h1 h2 rfl rfl (by simp [gridPoints, exHbar]) 3
  exact ⟨T, p1, p2, p3, h1, h3, h4⟩

/-- **Violated** for other values of `hbar`: the exponents contain `hbar` instead of `1/hbar`. -/
theorem C105_violated : ∃ T p1 p2 p3, (exHbar 2).tMat = .ok T ∧
    (exHbar 2).propagator CasDVR.exactEigh (Real.pi / 3) true = .ok (some (p1, p2, p3)) ∧
    mat 1 p3 ≠ evolution 2 (Real.pi / 3) (mat 1 T) := by
  obtain ⟨T, h1, h2⟩ := C105_eigh (exHbar 2)
  obtain ⟨p1, p2, p3, h3, _, _, _, _, _, h4⟩ := propagator_ok (D := exHbar 2) h1 h2 rfl rfl (by simp [gridPoints, exHbar]) (Real.pi / 3)
  refine ⟨T, p1, p2, p3, h1, h3, ?_⟩
  have hn : (exHbar 2).n = 1 := rfl
  have hT : mat 1 T = Matrix.diagonal fun _ => 2 := by
    obtain ⟨T', t1, t2, t3, t4⟩ := (exHbar 2).tMat_ok
    rw [h1] at t1
    cases t1
    ext a b
    have ha : a = 0 := Subsingleton.elim _ _
    have hb : b = 0 := Subsingleton.elim _ _
    subst ha hb
    have h0 := t4 0 0 Nat.one_pos Nat.one_pos
    have hu := (exHbar 2).uMat_rows Nat.one_pos Nat.one_pos
    rw [hn, Finset.sum_range_one] at h0 hu
    rw [Matrix.diagonal_apply_eq]
    change T.get [0, 0] = 2
    rw [h0]
    have hlen : (exHbar 2).length = Real.pi := sub_zero _
    rw [hlen, mul_left_comm (uMat _ |>.get _), hu]
    have hp : Real.pi ≠ 0 := Real.pi_ne_zero
    simp [exHbar, hp]
    norm_num
  rw [hn] at h4
  rw [h4, evolution, hT, exp_diag, exp_diag]
  intro h
  have h := congrFun (congrFun h 0) 0
  rw [Matrix.diagonal_apply_eq, Matrix.diagonal_apply_eq] at h
  have e1 : -(Complex.I * ((exHbar 2).hbar : ℂ) * ((Real.pi / 3 : ℝ) : ℂ)) * 2 =
      -(Complex.I * ((Real.pi / 3 : ℝ) : ℂ) / ((2 : ℝ) : ℂ)) * 2 + -(Real.pi * Complex.I) := by
    simp only [exHbar]
    push_cast
    ring
  rw [e1, Complex.exp_add, Complex.exp_neg, Complex.exp_pi_mul_I] at h
  have hne := Complex.exp_ne_zero (-(Complex.I * ((Real.pi / 3 : ℝ) : ℂ) / ((2 : ℝ) : ℂ)) * 2)
  generalize Complex.exp (-(Complex.I * ((Real.pi / 3 : ℝ) : ℂ) / ((2 : ℝ) : ℂ)) * 2) = z at h hne
  apply hne
  have : z * (-1)⁻¹ = z := h
  rw [inv_neg_one, mul_neg_one] at this
  linear_combination (-1 / 2 : ℂ) * this

end SineDVR
