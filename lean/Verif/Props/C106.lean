import Verif.Model.HeomDvr
import Verif.Props.C98
import Verif.Lemmas.Heom2
import Verif.Nd.AddLemmas

/-! C106: a sine DVR as the basis of a mode of the hierarchy. -/

open Py
open scoped BigOperators

namespace Heom

/-! ### Specification -/

/-- The matrix element of the multiplication with `F` in the DVR: the values of `F` at the grid points. -/
noncomputable def gridElement (D : SineDVR) (F : ℝ → ℝ) (v w : List ℂ) : ℂ :=
  ∑ a ∈ Finset.range D.n, (starRingEnd ℂ) (v.getD a 0) * ((F (D.gridPoints.getD a 0) : ℂ) * w.getD a 0)

/-- `M`, as a matrix that acts with its first index, has the matrix elements `e` between the vectors `v` and `w`. -/
def Represents (D : SineDVR) (M : Nd ℂ) (v w : List ℂ) (e : ℂ) : Prop :=
  M.shape = [D.n, D.n] ∧ ∃ u, matVec (transpose M) w = .ok u ∧ SineDVR.dot D.n v u = e

/-! ### Lemmas -/

theorem element_eq {D : SineDVR} {M : Nd ℂ} (hM : M.shape = [D.n, D.n]) {v w u : List ℂ} (hw : w.length = D.n) (hu : matVec M w = .ok u) :
    SineDVR.dot D.n v u = ∑ a ∈ Finset.range D.n, (starRingEnd ℂ) (v.getD a 0) * ∑ b ∈ Finset.range D.n, M.get [a, b] * w.getD b 0 := by
  rw [Phonon.matVec_ok hM hw] at hu
  cases hu
  exact Finset.sum_congr rfl fun a ha => by rw [Phonon.map_getD _ (Finset.mem_range.1 ha)]

theorem qMat_get (D : SineDVR) {a b : ℕ} (ha : a < D.n) (hb : b < D.n) :
    D.qMat.get [a, b] = (if a = b then 1 else 0) * ((D.gridPoints.getD b 0 : ℝ) : ℂ) := by
  have hl : D.gridPoints.length = D.n := by simp [SineDVR.gridPoints]
  unfold SineDVR.qMat npDiagK
  rw [Nd.get_ofFn _ (Phonon.valid2 (by simpa [hl] using ha) (by simpa [hl] using hb))]
  simp only [List.getD_cons_zero, List.getD_cons_succ]
  by_cases h : a = b
  · subst h
    rw [if_pos (by simp), if_pos rfl, min_self, one_mul, List.getD_eq_getElem _ _ (by simpa [hl] using ha), List.getElem_map,
      List.getD_eq_getElem _ _ (by rw [hl]; exact ha)]
  · rw [if_neg (by omega), if_neg h, zero_mul]

theorem qMat_shape (D : SineDVR) : D.qMat.shape = [D.n, D.n] := by simp [SineDVR.qMat, npDiagK, Nd.ofFn, SineDVR.gridPoints]

theorem qMat_wf (D : SineDVR) : D.qMat.Wf := Nd.ofFn_wf _ _

theorem smul_wf {c : ℂ} {A : Nd ℂ} (h : A.Wf) : (Nd.smul c A).Wf := by simpa [Nd.Wf, Nd.smul] using h

theorem show_ok {B : ModeBasis} {U A : Nd ℂ} {n : ℕ} (hB : B.eigMat = some U) (hU : U.shape = [n, n]) (hA : A.shape = [n, n]) :
    B.show_ A = .ok () := by
  obtain ⟨X, x1, x2, x3, -⟩ := Tensor.matmul_spec (transpose U) A (transpose_shape hU) hA
  obtain ⟨Y, y1, -⟩ := Tensor.matmul_spec X U x3 hU
  unfold ModeBasis.show_
  rw [hB]
  dsimp only
  rw [x1, ok_bind, y1]
  rfl

theorem raiser_ok {B : ModeBasis} {U : Nd ℂ} (hB : B.eigMat = some U) (hU : U.shape = [B.dvr.n, B.dvr.n]) :
    ∃ S R, B.dvr.dqMat = .ok S ∧ B.raiser = .ok R ∧ R.Wf ∧ R.shape = [B.dvr.n, B.dvr.n] ∧ S.shape = [B.dvr.n, B.dvr.n] ∧
      ∀ a b, a < B.dvr.n → b < B.dvr.n → R.get [b, a] = (((Real.sqrt 2)⁻¹ : ℝ) : ℂ) * (B.dvr.qMat.get [a, b] - S.get [a, b]) := by
  obtain ⟨S, s1, s2, s3, -, -⟩ := B.dvr.dqMat_ok
  obtain ⟨C, c1, c2, c3, c4⟩ := Nd.sub_ok (a := B.q) (b := Nd.smul (((Real.sqrt 2)⁻¹ : ℝ) : ℂ) S) (smul_wf (qMat_wf _)) (smul_wf s2)
    (by rw [show B.q.shape = _ from qMat_shape B.dvr]; exact s3.symm)
  have hqs : B.q.shape = [B.dvr.n, B.dvr.n] := qMat_shape B.dvr
  have hcs : C.shape = [B.dvr.n, B.dvr.n] := by rw [c3, hqs]
  refine ⟨S, transpose C, s1, ?_, Nd.ofFn_wf _ _, transpose_shape hcs, s3, fun a b ha hb => ?_⟩
  · unfold ModeBasis.raiser ModeBasis.dq
    rw [s1, ok_bind]
    change (do let x ← B.q.sub (Nd.smul (((Real.sqrt 2)⁻¹ : ℝ) : ℂ) S); let ans := transpose x; B.show_ ans; pure ans) = _
    rw [c1, ok_bind]
    dsimp only
    rw [show_ok hB hU (transpose_shape hcs), ok_bind]
    rfl
  · rw [transpose_get hcs hb ha, c4 _ (by rw [hqs]; exact Phonon.valid2 ha hb), ModeBasis.q, smul_get, smul_get]
    ring

theorem lower_ok {B : ModeBasis} {U : Nd ℂ} (hB : B.eigMat = some U) (hU : U.shape = [B.dvr.n, B.dvr.n]) :
    ∃ S R, B.dvr.dqMat = .ok S ∧ B.lower = .ok R ∧ R.Wf ∧ R.shape = [B.dvr.n, B.dvr.n] ∧ S.shape = [B.dvr.n, B.dvr.n] ∧
      ∀ a b, a < B.dvr.n → b < B.dvr.n → R.get [b, a] = (((Real.sqrt 2)⁻¹ : ℝ) : ℂ) * (B.dvr.qMat.get [a, b] + S.get [a, b]) := by
  obtain ⟨S, s1, s2, s3, -, -⟩ := B.dvr.dqMat_ok
  obtain ⟨C, c1, c2, c3, c4⟩ := Nd.add_ok (a := B.q) (b := Nd.smul (((Real.sqrt 2)⁻¹ : ℝ) : ℂ) S) (smul_wf (qMat_wf _)) (smul_wf s2)
    (by rw [show B.q.shape = _ from qMat_shape B.dvr]; exact s3.symm)
  have hqs : B.q.shape = [B.dvr.n, B.dvr.n] := qMat_shape B.dvr
  have hcs : C.shape = [B.dvr.n, B.dvr.n] := by rw [c3, hqs]
  refine ⟨S, transpose C, s1, ?_, Nd.ofFn_wf _ _, transpose_shape hcs, s3, fun a b ha hb => ?_⟩
  · unfold ModeBasis.lower ModeBasis.dq
    rw [s1, ok_bind]
    change (do let x ← B.q.add (Nd.smul (((Real.sqrt 2)⁻¹ : ℝ) : ℂ) S); let ans := transpose x; B.show_ ans; pure ans) = _
    rw [c1, ok_bind]
    dsimp only
    rw [show_ok hB hU (transpose_shape hcs), ok_bind]
    rfl
  · rw [transpose_get hcs hb ha, c4 _ (by rw [hqs]; exact Phonon.valid2 ha hb), ModeBasis.q, smul_get, smul_get]
    ring

theorem numberer_ok {B : ModeBasis} {U : Nd ℂ} (hB : B.eigMat = some U) (hU : U.shape = [B.dvr.n, B.dvr.n]) :
    ∃ S R, B.dvr.dq2Mat = .ok S ∧ B.numberer = .ok R ∧ R.Wf ∧ R.shape = [B.dvr.n, B.dvr.n] ∧ S.shape = [B.dvr.n, B.dvr.n] ∧
      ∀ a b, a < B.dvr.n → b < B.dvr.n → R.get [b, a] = 1 / 2 *
        ((if a = b then 1 else 0) * (((B.dvr.gridPoints.getD b 0) ^ 2 : ℝ) : ℂ) - S.get [a, b] - if a = b then 1 else 0) := by
  obtain ⟨S, s1, s2, s3, -⟩ := B.dvr.fbr2dvrMat_ok B.dvr.lapDiag_shape
  have hl : B.dvr.gridPoints.length = B.dvr.n := by simp [SineDVR.gridPoints]
  have hqs : B.dvr.qMat.shape = [B.dvr.n, B.dvr.n] := qMat_shape B.dvr
  set q2 : Nd ℂ := ⟨B.dvr.qMat.shape, B.dvr.qMat.data.map fun a => a ^ 2⟩ with hq2
  have hq2w : q2.Wf := by
    have := qMat_wf B.dvr
    simpa [Nd.Wf, hq2] using this
  have hq2g : ∀ p, q2.get p = B.dvr.qMat.get p ^ 2 := by
    intro p
    rw [hq2]
    unfold Nd.get
    simp only [List.getD_eq_getElem?_getD, List.getElem?_map]
    cases B.dvr.qMat.data[ravel B.dvr.qMat.shape p]? <;> simp
  obtain ⟨C, c1, c2, c3, c4⟩ := Nd.sub_ok (a := q2) (b := S) hq2w s2 (by rw [s3]; exact hqs)
  have hcs : C.shape = [B.dvr.n, B.dvr.n] := by rw [c3]; exact hqs
  obtain ⟨E, e1, e2, e3, e4⟩ := Nd.sub_ok (a := C) (b := npEye B.dvr.n 0) c2 (Nd.ofFn_wf _ _) hcs
  have hes : (Nd.smul 0.5 E).shape = [B.dvr.n, B.dvr.n] := by
    change E.shape = _
    rw [e3, hcs]
  refine ⟨S, transpose (Nd.smul 0.5 E), s1, ?_, Nd.ofFn_wf _ _, transpose_shape hes, s3, fun a b ha hb => ?_⟩
  · unfold ModeBasis.numberer
    dsimp only
    rw [show B.dvr.dq2Mat = .ok S from s1, ok_bind, ← hq2, c1, ok_bind, hl, e1, ok_bind, show_ok hB hU (transpose_shape hes), ok_bind]
    rfl
  · rw [transpose_get hes hb ha, smul_get, e4 _ (by rw [hcs]; exact Phonon.valid2 ha hb), c4 _ (by rw [hq2]; dsimp only; rw [hqs]; exact Phonon.valid2 ha hb),
      hq2g, qMat_get B.dvr ha hb, eye_get 0 ha hb]
    by_cases h : a = b
    · subst h
      norm_num
    · have : ¬((b : ℤ) = a + 0) := by omega
      rw [if_neg h, if_neg this]
      norm_num

/-! ### C106 -/

section

variable {B : ModeBasis} {U : Nd ℂ} {v w : List ℂ} {f g : ℝ → ℂ}

/-- If the object has a method `eig_mat`, the raising operator acts as `(q - d/dq)/√2`: the position by its values at the grid points, the
derivative as that of the spatial function. -/
theorem C106_raiser_partial (hB : B.eigMat = some U) (hU : U.shape = [B.dvr.n, B.dvr.n]) (hL : 0 < B.dvr.length)
    (hf : B.dvr.IsFunctionOf v f) (hg : B.dvr.IsFunctionOf w g) : ∃ R, B.raiser = .ok R ∧
      Represents B.dvr R v w ((gridElement B.dvr (fun x => x) v w - SineDVR.inner f (deriv g)) / ((Real.sqrt 2 : ℝ) : ℂ)) := by
  obtain ⟨S, R, h1, h2, h3, h4, h5, h6⟩ := raiser_ok hB hU
  have hw := B.dvr.length_of hg
  refine ⟨R, h2, h4, _, Phonon.matVec_ok (transpose_shape h4) hw, ?_⟩
  rw [element_eq (transpose_shape h4) hw (Phonon.matVec_ok (transpose_shape h4) hw),
    B.dvr.C99_first hL hf hg h1 (Phonon.matVec_ok h5 hw), element_eq h5 hw (Phonon.matVec_ok h5 hw), gridElement, ← Finset.sum_sub_distrib,
    Finset.sum_div]
  refine Finset.sum_congr rfl fun a ha => ?_
  have ha := Finset.mem_range.1 ha
  rw [← mul_sub, mul_div_assoc]
  congr 1
  rw [← SineDVR.sum_delta B.dvr.n a ha fun b => ((B.dvr.gridPoints.getD b 0 : ℝ) : ℂ) * w.getD b 0, ← Finset.sum_sub_distrib, Finset.sum_div]
  refine Finset.sum_congr rfl fun b hb => ?_
  have hb := Finset.mem_range.1 hb
  rw [transpose_get h4 ha hb, h6 a b ha hb, qMat_get B.dvr ha hb]
  push_cast
  ring

/-- The lowering operator acts as `(q + d/dq)/√2`. -/
theorem C106_lower_partial (hB : B.eigMat = some U) (hU : U.shape = [B.dvr.n, B.dvr.n]) (hL : 0 < B.dvr.length)
    (hf : B.dvr.IsFunctionOf v f) (hg : B.dvr.IsFunctionOf w g) : ∃ R, B.lower = .ok R ∧
      Represents B.dvr R v w ((gridElement B.dvr (fun x => x) v w + SineDVR.inner f (deriv g)) / ((Real.sqrt 2 : ℝ) : ℂ)) := by
  obtain ⟨S, R, h1, h2, h3, h4, h5, h6⟩ := lower_ok hB hU
  have hw := B.dvr.length_of hg
  refine ⟨R, h2, h4, _, Phonon.matVec_ok (transpose_shape h4) hw, ?_⟩
  rw [element_eq (transpose_shape h4) hw (Phonon.matVec_ok (transpose_shape h4) hw),
    B.dvr.C99_first hL hf hg h1 (Phonon.matVec_ok h5 hw), element_eq h5 hw (Phonon.matVec_ok h5 hw), gridElement, ← Finset.sum_add_distrib,
    Finset.sum_div]
  refine Finset.sum_congr rfl fun a ha => ?_
  have ha := Finset.mem_range.1 ha
  rw [← mul_add, mul_div_assoc]
  congr 1
  rw [← SineDVR.sum_delta B.dvr.n a ha fun b => ((B.dvr.gridPoints.getD b 0 : ℝ) : ℂ) * w.getD b 0, ← Finset.sum_add_distrib, Finset.sum_div]
  refine Finset.sum_congr rfl fun b hb => ?_
  have hb := Finset.mem_range.1 hb
  rw [transpose_get h4 ha hb, h6 a b ha hb, qMat_get B.dvr ha hb]
  push_cast
  ring

/-- The number operator acts as `(q² - d²/dq² - 1)/2`. -/
theorem C106_number_partial (hB : B.eigMat = some U) (hU : U.shape = [B.dvr.n, B.dvr.n]) (hL : 0 < B.dvr.length)
    (hf : B.dvr.IsFunctionOf v f) (hg : B.dvr.IsFunctionOf w g) : ∃ R, B.numberer = .ok R ∧
      Represents B.dvr R v w ((gridElement B.dvr (fun x => x ^ 2) v w - SineDVR.inner f (deriv (deriv g)) - SineDVR.inner f g) / 2) := by
  obtain ⟨S, R, h1, h2, h3, h4, h5, h6⟩ := numberer_ok hB hU
  have hw := B.dvr.length_of hg
  refine ⟨R, h2, h4, _, Phonon.matVec_ok (transpose_shape h4) hw, ?_⟩
  rw [element_eq (transpose_shape h4) hw (Phonon.matVec_ok (transpose_shape h4) hw),
    B.dvr.C99_second hL hf hg h1 (Phonon.matVec_ok h5 hw), element_eq h5 hw (Phonon.matVec_ok h5 hw), gridElement, B.dvr.C98_inner hL hf hg,
    SineDVR.dot, ← Finset.sum_sub_distrib, ← Finset.sum_sub_distrib, Finset.sum_div]
  refine Finset.sum_congr rfl fun a ha => ?_
  have ha := Finset.mem_range.1 ha
  rw [← mul_sub, ← mul_sub, mul_div_assoc]
  congr 1
  rw [← SineDVR.sum_delta B.dvr.n a ha fun b => (((B.dvr.gridPoints.getD b 0) ^ 2 : ℝ) : ℂ) * w.getD b 0,
    ← SineDVR.sum_delta B.dvr.n a ha fun b => w.getD b 0, ← Finset.sum_sub_distrib, ← Finset.sum_sub_distrib, Finset.sum_div]
  refine Finset.sum_congr rfl fun b hb => ?_
  have hb := Finset.mem_range.1 hb
  rw [transpose_get h4 ha hb, h6 a b ha hb]
  push_cast
  ring

end

/-- The lowering matrix is the transpose of the raising matrix. -/
theorem C106_adjoint {B : ModeBasis} {U : Nd ℂ} (hB : B.eigMat = some U) (hU : U.shape = [B.dvr.n, B.dvr.n]) :
    ∃ R L, B.raiser = .ok R ∧ B.lower = .ok L ∧ ∀ a b, a < B.dvr.n → b < B.dvr.n → L.get [a, b] = R.get [b, a] := by
  obtain ⟨S, R, h1, h2, h3, h4, h5, h6⟩ := raiser_ok hB hU
  obtain ⟨S', L, l1, l2, l3, l4, l5, l6⟩ := lower_ok hB hU
  rw [h1] at l1
  cases l1
  obtain ⟨S', s1, -, -, s4, -⟩ := B.dvr.dqMat_ok
  rw [h1] at s1
  cases s1
  refine ⟨R, L, h2, l2, fun a b ha hb => ?_⟩
  rw [l6 b a hb ha, h6 a b ha hb, qMat_get _ ha hb, qMat_get _ hb ha, s4 b a hb ha, sub_eq_add_neg]
  by_cases h : a = b
  · subst h; rfl
  · rw [if_neg h, if_neg (Ne.symm h)]
    ring

/-- The terms of a mode with a DVR, if the real part of the mean of its two coefficients is positive: the scaling of the hierarchy is the root
of it. -/
theorem C106_terms_partial (H : HierachyB) {k : ℕ} {B : ModeBasis} {U : Nd ℂ} {ck cck g : ℂ} (hk : H.basis[k]? = some (some B))
    (hB : B.eigMat = some U) (hU : U.shape = [B.dvr.n, B.dvr.n]) (h1 : H.corr.coeff[k]? = some ck) (h2 : H.corr.conjCoeff[k]? = some cck)
    (h3 : H.corr.derivative[k]? = some g) (hpos : 0 < ((ck + cck) / 2).re) :
    ∃ (s : ℝ) (N R L x y : Nd ℂ), 0 < s ∧ s ^ 2 = ((ck + cck) / 2).re ∧ B.numberer = .ok N ∧ B.raiser = .ok R ∧ B.lower = .ok L ∧
      H.diffK k = .ok [[(k, Nd.smul g N)], [(H.nDims.length, Nd.smul (-Complex.I) H.op), (k, x)],
        [(H.nDims.length + 1, Nd.smul Complex.I H.op), (k, y)]] ∧
      x.shape = [B.dvr.n, B.dvr.n] ∧ y.shape = [B.dvr.n, B.dvr.n] ∧
      (∀ a b, a < B.dvr.n → b < B.dvr.n → x.get [a, b] = ck / s * R.get [a, b] + s * L.get [a, b]) ∧
      ∀ a b, a < B.dvr.n → b < B.dvr.n → y.get [a, b] = cck / s * R.get [a, b] + s * L.get [a, b] := by
  obtain ⟨-, N, -, n2, -⟩ := numberer_ok hB hU
  obtain ⟨-, R, -, r2, r3, r4, -⟩ := raiser_ok hB hU
  obtain ⟨-, L, -, l2, l3, l4, -⟩ := lower_ok hB hU
  set s := Real.sqrt (((ck + cck) / 2).re) with hs
  have hs0 : 0 < s := Real.sqrt_pos.2 hpos
  have hsc : (s : ℂ) ≠ 0 := by exact_mod_cast hs0.ne'
  obtain ⟨x, x1, x2, x3, x4⟩ := Nd.add_ok (a := Nd.smul (ck / s) R) (b := Nd.smul (s : ℂ) L) (smul_wf r3) (smul_wf l3)
    (by change R.shape = L.shape; rw [r4, l4])
  obtain ⟨y, y1, y2, y3, y4⟩ := Nd.add_ok (a := Nd.smul (cck / s) R) (b := Nd.smul (s : ℂ) L) (smul_wf r3) (smul_wf l3)
    (by change R.shape = L.shape; rw [r4, l4])
  refine ⟨s, N, R, L, x, y, hs0, Real.sq_sqrt hpos.le, n2, r2, l2, ?_, by rw [x3]; exact r4, by rw [y3]; exact r4, fun a b ha hb => ?_,
    fun a b ha hb => ?_⟩
  · have hb : item H.basis k = .ok (some B) := by unfold item; rw [hk]
    unfold HierachyB.diffK
    have i1 : item H.corr.coeff k = .ok ck := by unfold item; rw [h1]
    have i2 : item H.corr.conjCoeff k = .ok cck := by unfold item; rw [h2]
    have i3 : item H.corr.derivative k = .ok g := by unfold item; rw [h3]
    have j1 : H.fk k ck cck = .ok (s : ℂ) := by unfold HierachyB.fk; rw [hb]; rfl
    have j2 : H.numberer k = .ok N := by unfold HierachyB.numberer; rw [hb]; exact n2
    have j3 : H.raiser k = .ok R := by unfold HierachyB.raiser; rw [hb]; exact r2
    have j4 : H.lower k = .ok L := by unfold HierachyB.lower; rw [hb]; exact l2
    have k1 : Corr.div ck (s : ℂ) = .ok (ck / s) := if_neg hsc
    have k2 : Corr.div cck (s : ℂ) = .ok (cck / s) := if_neg hsc
    rw [i1, ok_bind, i2, ok_bind, j1, ok_bind, i3, ok_bind, j2, ok_bind, k1, ok_bind, j3, ok_bind, j4, ok_bind, x1, ok_bind, k2, ok_bind,
      y1, ok_bind]
    rw [neg_one_mul, one_mul]
    rfl
  · rw [x4 _ (by change Valid R.shape _; rw [r4]; exact Phonon.valid2 ha hb), smul_get, smul_get]
  · rw [y4 _ (by change Valid R.shape _; rw [r4]; exact Phonon.valid2 ha hb), smul_get, smul_get]

private theorem mapM_congr_mem {α β : Type} {f g : α → Res β} : ∀ {l : List α}, (∀ x ∈ l, f x = g x) → l.mapM f = l.mapM g
  | [], _ => rfl
  | a :: l, h => by
    rw [List.mapM_cons, List.mapM_cons, h a (List.mem_cons_self ..), mapM_congr_mem fun x hx => h x (List.mem_cons_of_mem _ hx)]

/-- Modes without a DVR: the terms of C42-C44. -/
theorem C106_none (H : Hierachy) (hne : H.scale ≠ 0) : (HierachyB.mk H (List.replicate H.nDims.length none)).diff = H.diff := by
  unfold HierachyB.diff Hierachy.diff
  have : ∀ k ∈ List.range H.nDims.length, (HierachyB.mk H (List.replicate H.nDims.length none)).diffK k = H.diffK k := by
    intro k hk
    have hk := List.mem_range.1 hk
    have hb : item (HierachyB.mk H (List.replicate H.nDims.length none)).basis k = .ok none := by
      unfold item
      rw [List.getElem?_replicate_of_lt hk]
    unfold HierachyB.diffK Hierachy.diffK
    have j1 : ∀ a b, (HierachyB.mk H (List.replicate H.nDims.length none)).fk k a b = .ok H.scale := by
      intro a b; unfold HierachyB.fk; rw [hb]; rfl
    have j2 : (HierachyB.mk H (List.replicate H.nDims.length none)).numberer k = H.numberer k := by
      unfold HierachyB.numberer; rw [hb]; rfl
    have j3 : (HierachyB.mk H (List.replicate H.nDims.length none)).raiser k = H.raiser k := by
      unfold HierachyB.raiser; rw [hb]; rfl
    have j4 : (HierachyB.mk H (List.replicate H.nDims.length none)).lower k = H.lower k := by
      unfold HierachyB.lower; rw [hb]; rfl
    have k1 : ∀ a, Corr.div a H.scale = .ok (a / H.scale) := fun a => if_neg hne
    simp only [j1, j2, j3, j4, k1, ok_bind]
  dsimp only
  rw [mapM_congr_mem this]

/-- **Violated** for every DVR of the package: it has no method `eig_mat`, so that the terms cannot be made. -/
theorem C106_violated (H : HierachyB) (hn : 0 < H.nDims.length) {D : SineDVR} (hk : H.basis[0]? = some (some ⟨D, none⟩)) {ck cck g : ℂ}
    (h1 : H.corr.coeff[0]? = some ck) (h2 : H.corr.conjCoeff[0]? = some cck) (h3 : H.corr.derivative[0]? = some g) :
    H.diff = .error .attributeError := by
  have hb : item H.basis 0 = .ok (some ⟨D, none⟩) := by unfold item; rw [hk]
  have hN : H.numberer 0 = .error .attributeError := by
    unfold HierachyB.numberer
    rw [hb, ok_bind]
    dsimp only
    obtain ⟨S, s1, s2, s3, -⟩ := D.fbr2dvrMat_ok D.lapDiag_shape
    have hl : D.gridPoints.length = D.n := by simp [SineDVR.gridPoints]
    unfold ModeBasis.numberer
    dsimp only
    rw [show D.dq2Mat = .ok S from s1, ok_bind]
    obtain ⟨C, c1, c2, c3, c4⟩ := Nd.sub_ok (a := (⟨D.qMat.shape, D.qMat.data.map fun a => a ^ 2⟩ : Nd ℂ)) (b := S)
      (by simpa [Nd.Wf] using qMat_wf D) s2 (by rw [s3]; exact qMat_shape D)
    obtain ⟨E, e1, -⟩ := Nd.sub_ok (a := C) (b := npEye D.n 0) c2 (Nd.ofFn_wf _ _) (by rw [c3]; exact qMat_shape D)
    rw [c1, ok_bind, hl, e1, ok_bind]
    rfl
  have hK : H.diffK 0 = .error .attributeError := by
    unfold HierachyB.diffK
    have i1 : item H.corr.coeff 0 = .ok ck := by unfold item; rw [h1]
    have i2 : item H.corr.conjCoeff 0 = .ok cck := by unfold item; rw [h2]
    have i3 : item H.corr.derivative 0 = .ok g := by unfold item; rw [h3]
    have j1 : H.fk 0 ck cck = .ok ((Real.sqrt (((ck + cck) / 2).re) : ℝ) : ℂ) := by unfold HierachyB.fk; rw [hb]; rfl
    rw [i1, ok_bind, i2, ok_bind, j1, ok_bind, i3, ok_bind, hN]
    exact error_bind _ _
  unfold HierachyB.diff
  obtain ⟨m, hm⟩ : ∃ m, H.nDims.length = m + 1 := ⟨_, (Nat.succ_pred_eq_of_pos hn).symm⟩
  dsimp only
  rw [hm, List.range_succ_eq_map, List.mapM_cons, hK, error_bind, error_bind]

/-- A basis of three points with a matrix attached as `eig_mat`. -/
noncomputable def exMode : ModeBasis := ⟨⟨-1, 1, 3, 1, 1, none, none⟩, some (npEye 3 0)⟩

example : ∃ f R, exMode.dvr.IsFunctionOf [1, 2, 3] f ∧ exMode.raiser = .ok R ∧
    Represents exMode.dvr R [1, 2, 3] [1, 2, 3]
      ((gridElement exMode.dvr (fun x => x) [1, 2, 3] [1, 2, 3] - SineDVR.inner f (deriv f)) / ((Real.sqrt 2 : ℝ) : ℂ)) := by
  obtain ⟨f, hf⟩ := SineDVR.C98_exists exMode.dvr (v := [1, 2, 3]) rfl
  obtain ⟨R, h1, h2⟩ := C106_raiser_partial (B := exMode) rfl rfl (by norm_num [exMode, SineDVR.length]) hf hf
  exact ⟨f, R, hf, h1, h2⟩

example : (HierachyB.mk ⟨[3], npEye 2 0, npEye 2 0, ⟨1, none, [1], [1], [-1]⟩, 1⟩ [some ⟨⟨-1, 1, 3, 1, 1, none, none⟩, none⟩]).diff =
    .error .attributeError := C106_violated _ Nat.one_pos rfl rfl rfl rfl

end Heom
