import Verif.Lemmas.Sine

/-!
C39: the sine DVR transformation is orthogonal.
C40: the fast and the dense Hamiltonian of the sine DVR agree.
C57: the Hamiltonian follows the potential last set.
C58: the kinetic energy has the spectrum of the particle in a box.
-/

open Py Phonon
open scoped BigOperators

namespace SineDVR

variable (D : SineDVR)

/-! ### C39 -/

/-- The transformation matrix is symmetric. -/
theorem C39_symmetric {a b : ℕ} (ha : a < D.n) (hb : b < D.n) : D.uMat.get [a, b] = D.uMat.get [b, a] := D.uMat_symm ha hb

/-- The transformation matrix is orthogonal: `U Uᵀ = 1` and `Uᵀ U = 1`. -/
theorem C39_orthogonal : ∃ x y, D.uMat.matmul (Heom.transpose D.uMat) = .ok x ∧ (Heom.transpose D.uMat).matmul D.uMat = .ok y ∧
    x.shape = [D.n, D.n] ∧ y.shape = [D.n, D.n] ∧ ∀ a b, a < D.n → b < D.n →
      x.get [a, b] = (if a = b then 1 else 0) ∧ y.get [a, b] = (if a = b then 1 else 0) := by
  obtain ⟨x, x1, x2, x3, x4⟩ := Tensor.matmul_spec _ _ D.uMat_shape D.uT_shape
  obtain ⟨y, y1, y2, y3, y4⟩ := Tensor.matmul_spec _ _ D.uT_shape D.uMat_shape
  refine ⟨x, y, x1, y1, x3, y3, fun a b ha hb => ⟨?_, ?_⟩⟩
  · rw [x4 a b ha hb, ← D.uMat_rows ha hb]
    exact Finset.sum_congr rfl fun s hs => by rw [D.uT_get (Finset.mem_range.1 hs) hb]
  · rw [y4 a b ha hb, ← D.uMat_cols ha hb]
    exact Finset.sum_congr rfl fun s hs => by rw [D.uT_get ha (Finset.mem_range.1 hs)]

/-- Transforming a vector to the spectral basis and back, in both directions, is the identity. -/
theorem C39_round_trip {v : List ℂ} (hv : v.length = D.n) :
    (D.dvr2fbrVec v >>= D.fbr2dvrVec) = .ok v ∧ (D.fbr2dvrVec v >>= D.dvr2fbrVec) = .ok v := by
  unfold dvr2fbrVec fbr2dvrVec
  have id : v = (List.range D.n).map fun a => v.getD a 0 := by simpa using list_map_range hv fun x => x
  constructor
  · rw [matVec_ok D.uMat_shape hv, ok_bind, matVec_ok D.uT_shape (by simp)]
    refine congrArg Except.ok (.trans (List.map_congr_left fun a ha => ?_) id.symm)
    have ha : a < D.n := by simpa using ha
    refine .trans (Finset.sum_congr rfl fun s hs => ?_)
      (ortho_apply (U := fun a s => D.uMat.get [s, a]) (fun a b ha hb => D.uMat_cols ha hb) (fun b => v.getD b 0) ha)
    have hs := Finset.mem_range.1 hs
    rw [D.uT_get ha hs, map_getD _ hs]
  · rw [matVec_ok D.uT_shape hv, ok_bind, matVec_ok D.uMat_shape (by simp)]
    refine congrArg Except.ok (.trans (List.map_congr_left fun a ha => ?_) id.symm)
    have ha : a < D.n := by simpa using ha
    refine .trans (Finset.sum_congr rfl fun s hs => ?_)
      (ortho_apply (U := fun a s => D.uMat.get [a, s]) (fun a b ha hb => D.uMat_rows ha hb) (fun b => v.getD b 0) ha)
    have hs := Finset.mem_range.1 hs
    rw [map_getD _ hs, Finset.sum_congr rfl fun b hb => by rw [D.uT_get hs (Finset.mem_range.1 hb)]]

/-- The transformation preserves the norm. -/
theorem C39_norm {v : List ℂ} (hv : v.length = D.n) : ∃ w, D.dvr2fbrVec v = .ok w ∧ w.length = D.n ∧
    (∑ a ∈ Finset.range D.n, Complex.normSq (w.getD a 0)) = ∑ a ∈ Finset.range D.n, Complex.normSq (v.getD a 0) := by
  unfold dvr2fbrVec
  rw [matVec_ok D.uMat_shape hv]
  refine ⟨_, rfl, by simp, ?_⟩
  apply Complex.ofReal_injective
  rw [Complex.ofReal_sum, Complex.ofReal_sum]
  simp only [← Complex.mul_conj]
  have e : ∀ a ∈ Finset.range D.n, (((List.range D.n).map fun a => ∑ b ∈ Finset.range D.n, D.uMat.get [a, b] * v.getD b 0).getD a 0) *
      (starRingEnd ℂ) (((List.range D.n).map fun a => ∑ b ∈ Finset.range D.n, D.uMat.get [a, b] * v.getD b 0).getD a 0) =
      ∑ b ∈ Finset.range D.n, (starRingEnd ℂ) (v.getD b 0) * (D.uMat.get [a, b] * ∑ c ∈ Finset.range D.n, D.uMat.get [a, c] * v.getD c 0) := by
    intro a ha
    have ha := Finset.mem_range.1 ha
    rw [map_getD _ ha, map_sum, Finset.mul_sum]
    refine Finset.sum_congr rfl fun b hb => ?_
    rw [map_mul, D.uMat_real ha (Finset.mem_range.1 hb)]
    ring
  rw [Finset.sum_congr rfl e, Finset.sum_comm]
  refine Finset.sum_congr rfl fun b hb => ?_
  rw [← Finset.mul_sum, ortho_apply (U := fun a s => D.uMat.get [s, a]) (fun a b ha hb => D.uMat_cols ha hb) (fun b => v.getD b 0)
    (Finset.mem_range.1 hb), mul_comm]

/-- Transforming a matrix to the spectral basis and back is the identity. -/
theorem C39_matrix_round_trip {M : Nd ℂ} (hw : M.Wf) (hM : M.shape = [D.n, D.n]) : (D.dvr2fbrMat M >>= D.fbr2dvrMat) = .ok M := by
  obtain ⟨T, t1, t2, t3, t4⟩ := D.dvr2fbrMat_ok hM
  obtain ⟨S, s1, s2, s3, s4⟩ := D.fbr2dvrMat_ok t3
  rw [t1, ok_bind, s1]
  refine congrArg _ (ext2 s2 hw s3 hM fun a b ha hb => ?_)
  rw [s4 a b ha hb]
  have e : ∀ s ∈ Finset.range D.n, D.uMat.get [s, a] * ∑ t ∈ Finset.range D.n, T.get [s, t] * D.uMat.get [t, b] =
      D.uMat.get [s, a] * ∑ c ∈ Finset.range D.n, D.uMat.get [s, c] * M.get [c, b] := by
    intro s hs
    have hs := Finset.mem_range.1 hs
    congr 1
    have e1 : ∀ t ∈ Finset.range D.n, T.get [s, t] * D.uMat.get [t, b] =
        ∑ c ∈ Finset.range D.n, D.uMat.get [s, c] * (D.uMat.get [t, b] * ∑ u ∈ Finset.range D.n, D.uMat.get [t, u] * M.get [c, u]) := by
      intro t ht
      rw [t4 s t hs (Finset.mem_range.1 ht), Finset.sum_mul]
      refine Finset.sum_congr rfl fun c _ => ?_
      rw [Finset.sum_congr rfl fun u _ => mul_comm (D.uMat.get [t, u]) (M.get [c, u])]
      ring
    rw [Finset.sum_congr rfl e1, Finset.sum_comm]
    refine Finset.sum_congr rfl fun c hc => ?_
    rw [← Finset.mul_sum, ortho_apply (U := fun a s => D.uMat.get [s, a]) (fun a b ha hb => D.uMat_cols ha hb) (fun u => M.get [c, u]) hb]
  rw [Finset.sum_congr rfl e]
  exact ortho_apply (U := fun a s => D.uMat.get [s, a]) (fun a b ha hb => D.uMat_cols ha hb) (fun c => M.get [c, b]) ha

/-! ### C40 -/

/-- The matrix-free Hamiltonian of `FastSineDVR` gives on every vector what the dense matrix of `SineDVR` gives. -/
theorem C40_fast_is_dense (hl : D.length ≠ 0) (hm : D.me ≠ 0) {v : List ℂ} (hp : D.potential = .ok v) (hv : v.length = D.n)
    (hc : D.hCache = none) {x : List ℂ} (hx : x.length = D.n) :
    ∃ o M, D.fastHMat = .ok o ∧ D.hMat = .ok M ∧ o.matvec x = matVec M x ∧ o.rmatvec x = matVec M x := by
  obtain ⟨T, t1, t2, t3, t4⟩ := D.tMat_ok
  have vw : (npDiagK v 0).Wf := Nd.ofFn_wf _ _
  have vs : (npDiagK v 0).shape = [D.n, D.n] := by simp [npDiagK, Nd.ofFn, hv]
  obtain ⟨M, m1, m2, m3, m4⟩ := Nd.add_ok t2 vw (t3.trans vs.symm)
  have key : matVec M x = .ok (fastMatvec v D.tDiag x) := by
    rw [matVec_ok (m3.trans t3) hx]
    unfold fastMatvec vadd
    refine congrArg Except.ok (List.ext_getElem (by simp [dst1, tDiag, hv, hx]) fun a h1 h2 => ?_)
    have ha : a < D.n := by simpa using h1
    simp only [dst1, tDiag, List.length_zipWith, List.length_map, List.length_range, hx, min_self, List.getElem_map, List.getElem_range,
      List.getElem_zipWith]
    have hN : ((D.n : ℝ) + 1) ≠ 0 := by positivity
    have h2 : Real.sqrt (2 / ((D.n : ℝ) + 1)) * Real.sqrt (2 / ((D.n : ℝ) + 1)) = 2 / ((D.n : ℝ) + 1) :=
      Real.mul_self_sqrt (by positivity)
    have e : ∀ b ∈ Finset.range D.n, M.get [a, b] * x.getD b 0 = T.get [a, b] * x.getD b 0 + (if b = a then v.getD a 0 else 0) * x.getD b 0 := by
      intro b hb
      have hb := Finset.mem_range.1 hb
      rw [m4 _ (t3.symm ▸ valid2 ha hb), Phonon.diag_get (by omega) (by omega), add_mul]
      simp only [eq_comm (a := a)]
    rw [Finset.sum_congr rfl e, Finset.sum_add_distrib, sum_pick D.n a (fun b => x.getD b 0), if_pos ha, add_comm]
    congr 1
    · rw [List.getD_eq_getElem _ _ (by omega), List.getD_eq_getElem _ _ (by omega)]
    · have e2 : ∀ b ∈ Finset.range D.n, T.get [a, b] * x.getD b 0 = ∑ s ∈ Finset.range D.n,
          (((D.hbar * ((s : ℝ) + 1) * Real.pi / D.length) ^ 2 / (2 * D.me) : ℝ) : ℂ) * ((2 / ((D.n : ℝ) + 1) : ℝ) : ℂ) *
          ((Real.sin (Real.pi * ((a : ℝ) + 1) * ((s : ℝ) + 1) / (D.n + 1)) : ℝ) : ℂ) *
          (x.getD b 0 * ((Real.sin (Real.pi * ((s : ℝ) + 1) * ((b : ℝ) + 1) / (D.n + 1)) : ℝ) : ℂ)) := by
        intro b hb
        have hb := Finset.mem_range.1 hb
        rw [t4 a b ha hb, Finset.mul_sum, Finset.sum_mul]
        refine Finset.sum_congr rfl fun s hs => ?_
        have hs := Finset.mem_range.1 hs
        rw [D.uMat_get hs ha, D.uMat_get hs hb]
        generalize Real.sqrt (2 / ((D.n : ℝ) + 1)) = q at h2 ⊢
        rw [← h2]
        have e3 : ((s : ℝ) + 1) * ((a : ℝ) + 1) * Real.pi / (D.n + 1) = Real.pi * ((a : ℝ) + 1) * ((s : ℝ) + 1) / (D.n + 1) := by ring
        have e4 : ((s : ℝ) + 1) * ((b : ℝ) + 1) * Real.pi / (D.n + 1) = Real.pi * ((s : ℝ) + 1) * ((b : ℝ) + 1) / (D.n + 1) := by ring
        have e5 : -(D.hbar ^ 2) / (2 * D.me) * -((((s : ℝ) + 1) * Real.pi / D.length) ^ 2) =
            (D.hbar * ((s : ℝ) + 1) * Real.pi / D.length) ^ 2 / (2 * D.me) := by ring
        rw [e3, e4, ← e5]
        push_cast
        ring
      rw [Finset.sum_congr rfl e2, Finset.sum_comm, Finset.mul_sum]
      refine Finset.sum_congr rfl fun s hs => ?_
      have hs := Finset.mem_range.1 hs
      rw [← Finset.mul_sum]
      rw [List.getD_eq_getElem _ _ (by simpa [hv, hx] using hs)]
      simp only [List.getElem_map, List.getElem_range, List.getElem_zipWith, List.length_zipWith, List.length_map, List.length_range, hx, hv,
        min_self]
      have hNc : ((D.n : ℂ) + 1) ≠ 0 := by exact_mod_cast hN
      push_cast
      field_simp
  refine ⟨⟨v.length, fun vec => .ok (fastMatvec v D.tDiag vec), fun vec => .ok (fastMatvec v D.tDiag vec)⟩, M, ?_, ?_, ?_, ?_⟩
  · unfold fastHMat; rw [hp, ok_bind]; rfl
  · unfold hMat
    rw [hc]
    dsimp only
    rw [t1, ok_bind]
    unfold vMat
    rw [hp, ok_bind]
    exact m1
  · rw [key]
    exact if_pos (hx.trans hv.symm)
  · rw [key]
    exact if_pos (hx.trans hv.symm)

/-! ### C57 -/

/-- The calls that change the object. -/
inductive Call
  | setVFunc (f : List ℝ → Res (List ℂ))
  | solve

/-- The effect of a call. -/
noncomputable def Call.run (D : SineDVR) : Call → SineDVR
  | .setVFunc f => D.setVFunc f
  | .solve => D.solve

/-- The potential last set. -/
def lastSet (f : Option (List ℝ → Res (List ℂ))) : List Call → Option (List ℝ → Res (List ℂ))
  | [] => f
  | .setVFunc g :: cs => lastSet (some g) cs
  | .solve :: cs => lastSet f cs

/-- After any sequence of calls on a new object, `h_mat` returns the kinetic energy plus the diagonal matrix of the potential last set (or
the error of computing it). -/
theorem C57_current (hc : D.hCache = none) (calls : List Call) :
    (calls.foldl Call.run D).hMat = (do
      let t ← D.tMat
      let v ← (match lastSet D.vFunc calls with
        | none => .error .typeError
        | some f => f D.gridPoints)
      t.add (npDiagK v 0)) := by
  have key : ∀ (calls : List Call) (E : SineDVR), (E.a = D.a ∧ E.b = D.b ∧ E.n = D.n ∧ E.hbar = D.hbar ∧ E.me = D.me) →
      (E.hCache = none ∨ ∃ M, E.hCache = some M ∧ ({ E with hCache := none }).hMat = .ok M) →
      (calls.foldl Call.run E).hMat = ({ D with vFunc := lastSet E.vFunc calls, hCache := none }).hMat := by
    intro calls
    induction calls with
    | nil =>
      intro E hE h
      obtain ⟨e1, e2, e3, e4, e5⟩ := hE
      have eq : ({ E with hCache := none } : SineDVR) = { D with vFunc := E.vFunc, hCache := none } := by rw [e1, e2, e3, e4, e5]
      rw [List.foldl_nil, lastSet, ← eq]
      rcases h with h | ⟨M, h1, h2⟩
      · rw [← h]
      · rw [h2]; unfold hMat; rw [h1]
    | cons c cs ih =>
      intro E hE h
      rw [List.foldl_cons]
      cases c with
      | setVFunc g => exact ih (E.setVFunc g) hE (Or.inl rfl)
      | solve =>
        have hs : E.solve.vFunc = E.vFunc ∧ (E.solve.a = E.a ∧ E.solve.b = E.b ∧ E.solve.n = E.n ∧ E.solve.hbar = E.hbar ∧ E.solve.me = E.me) ∧
            (E.solve.hCache = none ∨ ∃ M, E.solve.hCache = some M ∧ ({ E.solve with hCache := none }).hMat = .ok M) := by
          unfold solve
          rcases h with h | ⟨M, h1, h2⟩
          · cases hm : E.hMat with
            | error e => exact ⟨rfl, ⟨rfl, rfl, rfl, rfl, rfl⟩, Or.inl h⟩
            | ok M =>
              refine ⟨rfl, ⟨rfl, rfl, rfl, rfl, rfl⟩, Or.inr ⟨M, rfl, ?_⟩⟩
              dsimp only
              rw [← h]
              exact hm
          · have hm : E.hMat = .ok M := by unfold hMat; rw [h1]
            rw [hm]
            exact ⟨rfl, ⟨rfl, rfl, rfl, rfl, rfl⟩, Or.inr ⟨M, rfl, h2⟩⟩
        obtain ⟨s1, ⟨s2, s3, s4, s5, s6⟩, s7⟩ := hs
        obtain ⟨e1, e2, e3, e4, e5⟩ := hE
        have := ih E.solve ⟨s2.trans e1, s3.trans e2, s4.trans e3, s5.trans e4, s6.trans e5⟩ s7
        rw [s1] at this
        exact this
  rw [key calls D ⟨rfl, rfl, rfl, rfl, rfl⟩ (Or.inl hc)]
  unfold hMat vMat potential
  dsimp only
  cases lastSet D.vFunc calls with
  | none => rfl
  | some f =>
    change (D.tMat >>= fun t => (f D.gridPoints >>= fun v => pure (npDiagK v 0)) >>= fun V => t.add V) = _
    simp only [bind_assoc, pure_bind]

/-- Setting a potential, solving, and setting another one: the second counts. -/
example (f g : List ℝ → Res (List ℂ)) : ∃ D' : SineDVR, D' = [Call.setVFunc f, .solve, .setVFunc g].foldl Call.run ⟨0, 1, 4, 1, 1, none, none⟩ ∧
    D'.hMat = (do
      let t ← (⟨0, 1, 4, 1, 1, none, none⟩ : SineDVR).tMat
      let v ← g (⟨0, 1, 4, 1, 1, none, none⟩ : SineDVR).gridPoints
      t.add (npDiagK v 0)) :=
  ⟨_, rfl, C57_current ⟨0, 1, 4, 1, 1, none, none⟩ rfl [Call.setVFunc f, .solve, .setVFunc g]⟩

/-! ### C58 -/

/-- In the spectral basis the kinetic energy is diagonal, with the energies `(ħ j π / L)² / 2m` of the particle in a box. -/
theorem C58_spectrum (hl : D.length ≠ 0) (hm : D.me ≠ 0) : ∃ T S, D.tMat = .ok T ∧ D.dvr2fbrMat T = .ok S ∧ S.shape = [D.n, D.n] ∧
    ∀ a b, a < D.n → b < D.n →
      S.get [a, b] = if a = b then (((D.hbar * ((a : ℝ) + 1) * Real.pi / D.length) ^ 2 / (2 * D.me) : ℝ) : ℂ) else 0 := by
  obtain ⟨T, t1, t2, t3, t4⟩ := D.tMat_ok
  obtain ⟨S, s1, s2, s3, s4⟩ := D.dvr2fbrMat_ok t3
  refine ⟨T, S, t1, s1, s3, fun a b ha hb => ?_⟩
  rw [s4 a b ha hb]
  have e5 : ((-(D.hbar ^ 2) / (2 * D.me) : ℝ) : ℂ) * ((-((((b : ℝ) + 1) * Real.pi / D.length) ^ 2) : ℝ) : ℂ) =
      (((D.hbar * ((b : ℝ) + 1) * Real.pi / D.length) ^ 2 / (2 * D.me) : ℝ) : ℂ) := by
    rw [← Complex.ofReal_mul]; congr 1; ring
  have e : ∀ s ∈ Finset.range D.n, D.uMat.get [a, s] * ∑ t ∈ Finset.range D.n, T.get [s, t] * D.uMat.get [b, t] =
      (((D.hbar * ((b : ℝ) + 1) * Real.pi / D.length) ^ 2 / (2 * D.me) : ℝ) : ℂ) * (D.uMat.get [a, s] * D.uMat.get [b, s]) := by
    intro s hs
    have hs := Finset.mem_range.1 hs
    have e1 : ∀ t ∈ Finset.range D.n, T.get [s, t] * D.uMat.get [b, t] = ∑ k ∈ Finset.range D.n,
        ((-(D.hbar ^ 2) / (2 * D.me) : ℝ) : ℂ) * (D.uMat.get [k, s] * ((-((((k : ℝ) + 1) * Real.pi / D.length) ^ 2) : ℝ) : ℂ)) *
          (D.uMat.get [b, t] * D.uMat.get [k, t]) := by
      intro t ht
      rw [t4 s t hs (Finset.mem_range.1 ht), Finset.mul_sum, Finset.sum_mul]
      exact Finset.sum_congr rfl fun k _ => by ring
    rw [Finset.sum_congr rfl e1, Finset.sum_comm, Finset.sum_congr rfl fun k hk => by
      rw [← Finset.mul_sum, D.uMat_rows hb (Finset.mem_range.1 hk), mul_comm]]
    rw [sum_delta D.n b hb fun k =>
      ((-(D.hbar ^ 2) / (2 * D.me) : ℝ) : ℂ) * (D.uMat.get [k, s] * ((-((((k : ℝ) + 1) * Real.pi / D.length) ^ 2) : ℝ) : ℂ)), ← e5]
    ring
  rw [Finset.sum_congr rfl e, ← Finset.mul_sum, D.uMat_rows ha hb]
  split
  · rename_i h; subst h; rw [mul_one]
  · rw [mul_zero]

/-- `dq2_mat` is the kinetic energy without its factor. -/
theorem C58_second_derivative (hm : D.me ≠ 0) (hh : D.hbar ≠ 0) : ∃ T Q, D.tMat = .ok T ∧ D.dq2Mat = .ok Q ∧ Q.shape = [D.n, D.n] ∧
    ∀ a b, a < D.n → b < D.n → T.get [a, b] = ((-(D.hbar ^ 2) / (2 * D.me) : ℝ) : ℂ) * Q.get [a, b] := by
  obtain ⟨Q, q1, q2, q3, q4⟩ := D.fbr2dvrMat_ok D.lapDiag_shape
  refine ⟨_, Q, by unfold tMat; rw [q1, ok_bind]; rfl, q1, q3, fun a b ha hb => ?_⟩
  rw [Heom.smul_get]

/-- A box of length 2 with five points, in which the theorems apply. -/
noncomputable def exBox : SineDVR := ⟨0, 2, 5, 1, 1, some fun q => .ok (q.map fun x => ((x ^ 2 : ℝ) : ℂ)), none⟩

example : ∃ o M, exBox.fastHMat = .ok o ∧ exBox.hMat = .ok M ∧ o.matvec [1, 0, 2, 0, 3] = matVec M [1, 0, 2, 0, 3] := by
  obtain ⟨o, M, h1, h2, h3, -⟩ := C40_fast_is_dense exBox (by simp [exBox, length]) (by simp [exBox]) (v := exBox.gridPoints.map _) rfl
    (by simp [gridPoints]) rfl (x := [1, 0, 2, 0, 3]) rfl
  exact ⟨o, M, h1, h2, h3⟩

example : (exBox.dvr2fbrVec [1, 0, 2, 0, 3] >>= exBox.fbr2dvrVec) = .ok [1, 0, 2, 0, 3] := (C39_round_trip exBox rfl).1

end SineDVR
