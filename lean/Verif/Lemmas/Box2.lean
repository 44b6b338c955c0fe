import Verif.Lemmas.Box

/-! The functions of a sine DVR: values, inner products and derivatives. -/

open scoped BigOperators
open MeasureTheory Py

namespace SineDVR

variable (D : SineDVR)

/-- The basis function inside the box. -/
noncomputable def wave (j : ℕ) (x : ℝ) : ℝ := Real.sqrt (2 / D.length) * Real.sin (((j : ℝ) + 1) * Real.pi * (x - D.a) / D.length)

/-- Its derivative. -/
noncomputable def wave' (j : ℕ) (x : ℝ) : ℝ :=
  Real.sqrt (2 / D.length) * (((j : ℝ) + 1) * Real.pi / D.length * Real.cos (((j : ℝ) + 1) * Real.pi * (x - D.a) / D.length))

theorem wave_continuous (j : ℕ) : Continuous (D.wave j) := by unfold wave; fun_prop
theorem wave'_continuous (j : ℕ) : Continuous (D.wave' j) := by unfold wave'; fun_prop

theorem wave_deriv (j : ℕ) (x : ℝ) : HasDerivAt (D.wave j) (D.wave' j x) x := (Box.hasDerivAt_sin _ _ _ _).const_mul _

theorem wave'_deriv (j : ℕ) (x : ℝ) : HasDerivAt (D.wave' j) (-((((j : ℝ) + 1) * Real.pi / D.length) ^ 2) * D.wave j x) x := by
  refine (((Box.hasDerivAt_cos ((j : ℝ) + 1) D.a D.length x).const_mul _).const_mul _).congr_deriv ?_
  unfold wave
  ring

theorem b_eq : D.a + D.length = D.b := by unfold length; ring

theorem fbrFunc_in (j : ℕ) {x : ℝ} (h1 : D.a < x) (h2 : x < D.b) : D.fbrFunc j x = D.wave j x := by
  rw [← D.b_eq] at h2
  exact if_pos ⟨h1, h2⟩

theorem fbrFunc_out (j : ℕ) {x : ℝ} (h : ¬(D.a < x ∧ x < D.b)) : D.fbrFunc j x = 0 := by
  rw [← D.b_eq] at h
  exact if_neg h

theorem fbr2cont_ok {v : List ℂ} (hv : D.n ≤ v.length) (x : ℝ) :
    D.fbr2cont v x = .ok (∑ j ∈ Finset.range D.n, (D.fbrFunc j x : ℂ) * v.getD j 0) := by
  unfold fbr2cont
  have key : ∀ k, k ≤ D.n → ((List.range k).foldlM (fun (psi : ℂ) (j : ℕ) =>
      match v[j]? with
      | none => (.error .indexError : Res ℂ)
      | some c => .ok (psi + (D.fbrFunc j x : ℂ) * c)) 0) = .ok (∑ j ∈ Finset.range k, (D.fbrFunc j x : ℂ) * v.getD j 0) := by
    intro k
    induction k with
    | zero => intro _; rfl
    | succ k ih =>
      intro hk
      have hk' : k < v.length := by omega
      rw [List.range_succ, List.foldlM_append, ih (by omega), ok_bind, List.foldlM_cons, List.getElem?_eq_getElem hk']
      dsimp only
      rw [ok_bind, Finset.sum_range_succ, List.getD_eq_getElem v 0 hk']
      rfl
  exact key D.n le_rfl

theorem fbr2cont_short {v : List ℂ} (hv : v.length < D.n) (x : ℝ) : D.fbr2cont v x = .error .indexError := by
  unfold fbr2cont
  have e : List.range D.n = List.range v.length ++ (v.length :: (List.range (D.n - v.length - 1)).map (v.length + 1 + ·)) := by
    have h1 : D.n = v.length + (1 + (D.n - v.length - 1)) := by omega
    conv_lhs => rw [h1, List.range_add, List.range_add]
    simp [List.map_map, Function.comp_def, Nat.add_assoc]
  have h := fbr2cont_ok { D with n := v.length } (v := v) le_rfl x
  unfold fbr2cont at h
  rw [e, List.foldlM_append]
  have h' : ((List.range v.length).foldlM (fun (psi : ℂ) (j : ℕ) =>
      match v[j]? with
      | none => (.error .indexError : Res ℂ)
      | some c => .ok (psi + (D.fbrFunc j x : ℂ) * c)) 0) = .ok (∑ j ∈ Finset.range v.length, (D.fbrFunc j x : ℂ) * v.getD j 0) := h
  erw [h']
  rw [ok_bind, List.foldlM_cons, List.getElem?_eq_none le_rfl]
  rfl

/-- The coefficients in the spectral basis. -/
noncomputable def coef (v : List ℂ) (j : ℕ) : ℂ := ∑ b ∈ Finset.range D.n, D.uMat.get [j, b] * v.getD b 0

/-- Inner products of sums of continuous functions over an interval. -/
theorem bilinear (n : ℕ) (a b : ℝ) {s t : ℕ → ℝ → ℝ} (hs : ∀ j, Continuous (s j)) (ht : ∀ j, Continuous (t j)) (c d : ℕ → ℂ) :
    (∫ x in a..b, (starRingEnd ℂ) (∑ j ∈ Finset.range n, (s j x : ℂ) * c j) * ∑ k ∈ Finset.range n, (t k x : ℂ) * d k) =
      ∑ j ∈ Finset.range n, ∑ k ∈ Finset.range n, (starRingEnd ℂ) (c j) * (((∫ x in a..b, s j x * t k x : ℝ) : ℂ) * d k) := by
  have e : ∀ x, (starRingEnd ℂ) (∑ j ∈ Finset.range n, (s j x : ℂ) * c j) * ∑ k ∈ Finset.range n, (t k x : ℂ) * d k =
      ∑ j ∈ Finset.range n, ∑ k ∈ Finset.range n, ((s j x * t k x : ℝ) : ℂ) * ((starRingEnd ℂ) (c j) * d k) := by
    intro x
    rw [map_sum, Finset.sum_mul_sum]
    refine Finset.sum_congr rfl fun j _ => Finset.sum_congr rfl fun k _ => ?_
    rw [map_mul, Complex.conj_ofReal]
    push_cast
    ring
  simp only [e]
  have hc : ∀ j k, Continuous fun x => ((s j x * t k x : ℝ) : ℂ) * ((starRingEnd ℂ) (c j) * d k) := fun j k =>
    (Complex.continuous_ofReal.comp ((hs j).mul (ht k))).mul continuous_const
  rw [intervalIntegral.integral_finsetSum fun j _ => (continuous_finsetSum _ fun k _ => hc j k).intervalIntegrable _ _]
  refine Finset.sum_congr rfl fun j _ => ?_
  rw [intervalIntegral.integral_finsetSum fun k _ => (hc j k).intervalIntegrable _ _]
  refine Finset.sum_congr rfl fun k _ => ?_
  rw [intervalIntegral.integral_mul_const, intervalIntegral.integral_ofReal]
  ring

/-- A matrix between two vectors, in the spectral basis and in the DVR. -/
theorem sandwich {M : ℕ → ℕ → ℂ} {T : Nd ℂ} (hT : T.shape = [D.n, D.n])
    (h : ∀ a b, a < D.n → b < D.n → T.get [a, b] =
      ∑ s ∈ Finset.range D.n, D.uMat.get [s, a] * ∑ t ∈ Finset.range D.n, M s t * D.uMat.get [t, b])
    {v w u : List ℂ} (hw : w.length = D.n) (hu : matVec T w = .ok u) :
    (∑ j ∈ Finset.range D.n, ∑ k ∈ Finset.range D.n, (starRingEnd ℂ) (D.coef v j) * (M j k * D.coef w k)) =
      ∑ a ∈ Finset.range D.n, (starRingEnd ℂ) (v.getD a 0) * u.getD a 0 := by
  rw [Phonon.matVec_ok hT hw] at hu
  cases hu
  have e : ∀ a ∈ Finset.range D.n, (starRingEnd ℂ) (v.getD a 0) *
      ((List.range D.n).map fun a => ∑ b ∈ Finset.range D.n, T.get [a, b] * w.getD b 0).getD a 0 =
      ∑ j ∈ Finset.range D.n, ∑ k ∈ Finset.range D.n,
        ((starRingEnd ℂ) (v.getD a 0) * D.uMat.get [j, a]) * (M j k * D.coef w k) := by
    intro a ha
    have ha := Finset.mem_range.1 ha
    rw [Phonon.map_getD _ ha]
    have e1 : ∀ b ∈ Finset.range D.n, T.get [a, b] * w.getD b 0 =
        ∑ j ∈ Finset.range D.n, ∑ k ∈ Finset.range D.n, D.uMat.get [j, a] * M j k * (D.uMat.get [k, b] * w.getD b 0) := by
      intro b hb
      rw [h a b ha (Finset.mem_range.1 hb), Finset.sum_mul]
      refine Finset.sum_congr rfl fun j _ => ?_
      rw [Finset.mul_sum, Finset.sum_mul]
      exact Finset.sum_congr rfl fun k _ => by ring
    rw [Finset.sum_congr rfl e1, Finset.sum_comm, Finset.mul_sum]
    refine Finset.sum_congr rfl fun j _ => ?_
    rw [Finset.sum_comm, Finset.mul_sum]
    refine Finset.sum_congr rfl fun k _ => ?_
    rw [← Finset.mul_sum]
    unfold coef
    ring
  rw [Finset.sum_congr rfl e]
  conv_rhs => rw [Finset.sum_comm]
  refine Finset.sum_congr rfl fun j hj => ?_
  conv_rhs => rw [Finset.sum_comm]
  refine Finset.sum_congr rfl fun k _ => ?_
  rw [← Finset.sum_mul]
  congr 1
  unfold coef
  rw [map_sum]
  refine Finset.sum_congr rfl fun a ha => ?_
  rw [map_mul, D.uMat_real (Finset.mem_range.1 hj) (Finset.mem_range.1 ha), mul_comm]

end SineDVR
