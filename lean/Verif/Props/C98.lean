import Verif.Lemmas.Box2

/-!
C98: the spatial functions of a sine DVR.
C99: the derivative matrices of a sine DVR are those of its spatial functions.
-/

open Py MeasureTheory
open scoped BigOperators

namespace SineDVR

variable (D : SineDVR)

/-! ### Specification -/

/-- `f` is the spatial function of the vector `v`: `dvr2cont v` returns a function, and that function, called with any number, returns the
value of `f`. -/
def IsFunctionOf (v : List ℂ) (f : ℝ → ℂ) : Prop := ∃ psi, D.dvr2cont v = .ok psi ∧ ∀ x, psi x = .ok (f x)

/-- The inner product of two functions on the line. -/
noncomputable def inner (f g : ℝ → ℂ) : ℂ := ∫ x, (starRingEnd ℂ) (f x) * g x

/-- The inner product of two vectors of `n` numbers. -/
noncomputable def dot (n : ℕ) (v w : List ℂ) : ℂ := ∑ i ∈ Finset.range n, (starRingEnd ℂ) (v.getD i 0) * w.getD i 0

/-! ### What the function is -/

theorem isFunctionOf_iff {v : List ℂ} (hv : v.length = D.n) {f : ℝ → ℂ} :
    D.IsFunctionOf v f ↔ ∀ x, f x = ∑ j ∈ Finset.range D.n, (D.fbrFunc j x : ℂ) * D.coef v j := by
  have h : D.dvr2cont v = .ok (D.fbr2cont ((List.range D.n).map fun a => ∑ b ∈ Finset.range D.n, D.uMat.get [a, b] * v.getD b 0)) := by
    unfold dvr2cont dvr2fbrVec
    rw [Phonon.matVec_ok D.uMat_shape hv, ok_bind]
    rfl
  have h2 : ∀ x, D.fbr2cont ((List.range D.n).map fun a => ∑ b ∈ Finset.range D.n, D.uMat.get [a, b] * v.getD b 0) x =
      .ok (∑ j ∈ Finset.range D.n, (D.fbrFunc j x : ℂ) * D.coef v j) := by
    intro x
    rw [D.fbr2cont_ok (by simp)]
    refine congrArg _ (Finset.sum_congr rfl fun j hj => ?_)
    rw [Phonon.map_getD _ (Finset.mem_range.1 hj)]
    rfl
  constructor
  · rintro ⟨psi, h1, h3⟩ x
    rw [h] at h1
    cases h1
    have := h3 x
    rw [h2] at this
    exact (Except.ok.inj this).symm
  · intro hf
    exact ⟨_, h, fun x => by rw [h2, hf]⟩

theorem length_of {v : List ℂ} {f : ℝ → ℂ} (h : D.IsFunctionOf v f) : v.length = D.n := by
  obtain ⟨psi, h1, -⟩ := h
  by_contra hv
  have : D.dvr2fbrVec v = .error .valueError := if_neg fun h => hv h.symm
  unfold dvr2cont at h1
  rw [this] at h1
  cases h1

theorem sum_in {f : ℝ → ℂ} {c : ℕ → ℂ} (hf : ∀ x, f x = ∑ j ∈ Finset.range D.n, (D.fbrFunc j x : ℂ) * c j) {x : ℝ}
    (h1 : D.a < x) (h2 : x < D.b) : f x = ∑ j ∈ Finset.range D.n, (D.wave j x : ℂ) * c j := by
  rw [hf]
  exact Finset.sum_congr rfl fun j _ => by rw [D.fbrFunc_in j h1 h2]

theorem sum_out {f : ℝ → ℂ} {c : ℕ → ℂ} (hf : ∀ x, f x = ∑ j ∈ Finset.range D.n, (D.fbrFunc j x : ℂ) * c j) {x : ℝ}
    (h : ¬(D.a < x ∧ x < D.b)) : f x = 0 := by
  rw [hf]
  exact Finset.sum_eq_zero fun j _ => by rw [D.fbrFunc_out j h]; simp

/-- The first derivative inside the box. -/
theorem deriv_in {f : ℝ → ℂ} {c : ℕ → ℂ} (hf : ∀ x, f x = ∑ j ∈ Finset.range D.n, (D.fbrFunc j x : ℂ) * c j) {x : ℝ}
    (h1 : D.a < x) (h2 : x < D.b) : deriv f x = ∑ j ∈ Finset.range D.n, (D.wave' j x : ℂ) * c j := by
  have e : f =ᶠ[nhds x] fun y => ∑ j ∈ Finset.range D.n, (D.wave j y : ℂ) * c j :=
    Filter.eventuallyEq_of_mem (isOpen_Ioo.mem_nhds ⟨h1, h2⟩) fun y hy => D.sum_in hf hy.1 hy.2
  rw [e.deriv_eq]
  exact (HasDerivAt.fun_sum fun j _ => ((D.wave_deriv j x).ofReal_comp.mul_const (c j))).deriv

/-- The second derivative inside the box. -/
theorem deriv2_in {f : ℝ → ℂ} {c : ℕ → ℂ} (hf : ∀ x, f x = ∑ j ∈ Finset.range D.n, (D.fbrFunc j x : ℂ) * c j) {x : ℝ}
    (h1 : D.a < x) (h2 : x < D.b) : deriv (deriv f) x =
      ∑ j ∈ Finset.range D.n, (D.wave j x : ℂ) * (((-((((j : ℝ) + 1) * Real.pi / D.length) ^ 2) : ℝ) : ℂ) * c j) := by
  have e : deriv f =ᶠ[nhds x] fun y => ∑ j ∈ Finset.range D.n, (D.wave' j y : ℂ) * c j :=
    Filter.eventuallyEq_of_mem (isOpen_Ioo.mem_nhds ⟨h1, h2⟩) fun y hy => D.deriv_in hf hy.1 hy.2
  rw [e.deriv_eq, (HasDerivAt.fun_sum fun j _ => ((D.wave'_deriv j x).ofReal_comp.mul_const (c j))).deriv]
  refine Finset.sum_congr rfl fun j _ => ?_
  push_cast
  ring

theorem wave_wave (hL : 0 < D.length) (j k : ℕ) : (∫ x in D.a..D.b, D.wave j x * D.wave k x) = if j = k then 1 else 0 := by
  rw [← D.b_eq]
  exact Box.integral_sin_sin hL D.a j k

theorem wave_wave' (hL : 0 < D.length) (j k : ℕ) : (∫ x in D.a..D.b, D.wave j x * D.wave' k x) =
    if j = k then 0 else (((j : ℤ) - k) % 2 : ℤ) * 4 * ((j : ℝ) + 1) * ((k : ℝ) + 1) / (((j : ℝ) + 1) ^ 2 - ((k : ℝ) + 1) ^ 2) / D.length := by
  rw [← D.b_eq]
  exact Box.integral_sin_cos hL D.a j k

/-- The inner product with a function that inside the box is a sum of continuous functions. -/
theorem inner_box (hL : 0 < D.length) {f g : ℝ → ℂ} {c d : ℕ → ℂ} {t : ℕ → ℝ → ℝ} (ht : ∀ j, Continuous (t j))
    (hf : ∀ x, f x = ∑ j ∈ Finset.range D.n, (D.fbrFunc j x : ℂ) * c j)
    (hg : ∀ x, D.a < x → x < D.b → g x = ∑ j ∈ Finset.range D.n, (t j x : ℂ) * d j) :
    inner f g = ∑ j ∈ Finset.range D.n, ∑ k ∈ Finset.range D.n,
      (starRingEnd ℂ) (c j) * (((∫ x in D.a..D.b, D.wave j x * t k x : ℝ) : ℂ) * d k) := by
  unfold inner
  rw [← bilinear D.n D.a D.b D.wave_continuous ht c d]
  have h := Box.integral_box hL D.a (f := fun x => (starRingEnd ℂ) (f x) * g x)
    (g := fun x => (starRingEnd ℂ) (∑ j ∈ Finset.range D.n, (D.wave j x : ℂ) * c j) * ∑ k ∈ Finset.range D.n, (t k x : ℂ) * d k)
    (fun x h1 h2 => by rw [D.b_eq] at h2; rw [D.sum_in hf h1 h2, hg x h1 h2])
    (fun x h => by rw [D.b_eq] at h; rw [D.sum_out hf h]; simp)
  rw [h, D.b_eq]

/-! ### C98 -/

/-- Every vector of `n` numbers has a spatial function. -/
theorem C98_exists {v : List ℂ} (hv : v.length = D.n) : ∃ f, D.IsFunctionOf v f :=
  ⟨_, (D.isFunctionOf_iff hv).2 fun _ => rfl⟩

/-- A vector of another length is rejected. -/
theorem C98_length {v : List ℂ} (hv : v.length ≠ D.n) : D.dvr2cont v = .error .valueError := by
  have : D.dvr2fbrVec v = .error .valueError := if_neg fun h => hv h.symm
  unfold dvr2cont
  rw [this]
  rfl

/-- The spatial function vanishes outside the box and at its walls. -/
theorem C98_box {v : List ℂ} {f : ℝ → ℂ} (hf : D.IsFunctionOf v f) {x : ℝ} (hx : x ≤ D.a ∨ D.b ≤ x) : f x = 0 :=
  D.sum_out ((D.isFunctionOf_iff (D.length_of hf)).1 hf) fun h => by rcases hx with hx | hx <;> linarith [h.1, h.2]

/-- At the grid points, the spatial function has the entries of the vector, divided by the square root of the spacing of the grid. -/
theorem C98_grid (hL : 0 < D.length) {v : List ℂ} {f : ℝ → ℂ} (hf : D.IsFunctionOf v f) {i : ℕ} {x : ℝ} (hi : D.gridPoints[i]? = some x) :
    f x = v.getD i 0 / (Real.sqrt (D.length / (D.n + 1)) : ℂ) := by
  have hlen := D.length_of hf
  have hin : i < D.n := by
    have := (List.getElem?_eq_some_iff.1 hi).1
    simpa [gridPoints] using this
  have hx : x = D.a + D.length / (D.n + 1) * (i + 1) := by
    unfold gridPoints at hi
    rw [List.getElem?_map, List.getElem?_range hin] at hi
    exact (Option.some.inj hi).symm
  have hN : (0 : ℝ) < (D.n : ℝ) + 1 := by positivity
  have hi' : ((i : ℝ) + 1) < (D.n : ℝ) + 1 := by
    have : (i : ℝ) < D.n := by exact_mod_cast hin
    linarith
  have h1 : D.a < x := by rw [hx]; have : 0 < D.length / (D.n + 1) * ((i : ℝ) + 1) := by positivity
                          linarith
  have h2 : x < D.b := by
    rw [hx, ← D.b_eq, div_mul_eq_mul_div]
    have : D.length * ((i : ℝ) + 1) / (D.n + 1) < D.length := by
      rw [div_lt_iff₀ hN]
      exact mul_lt_mul_of_pos_left hi' hL
    linarith
  rw [D.sum_in ((D.isFunctionOf_iff hlen).1 hf) h1 h2]
  have hs : Real.sqrt (2 / D.length) * Real.sqrt (D.length / (D.n + 1)) = Real.sqrt (2 / (D.n + 1)) := by
    rw [← Real.sqrt_mul (by positivity)]
    congr 1
    field_simp
  have hK : (Real.sqrt (D.length / (D.n + 1)) : ℂ) ≠ 0 := by
    have : Real.sqrt (D.length / (D.n + 1)) ≠ 0 := (Real.sqrt_pos.2 (by positivity)).ne'
    exact_mod_cast this
  rw [eq_div_iff hK, Finset.sum_mul]
  have e : ∀ j ∈ Finset.range D.n, (D.wave j x : ℂ) * D.coef v j * (Real.sqrt (D.length / (D.n + 1)) : ℂ) = D.uMat.get [j, i] * D.coef v j := by
    intro j hj
    have hw : D.wave j x * Real.sqrt (D.length / (D.n + 1)) =
        Real.sqrt (2 / (D.n + 1)) * Real.sin (((j : ℝ) + 1) * ((i : ℝ) + 1) * Real.pi / (D.n + 1)) := by
      have harg : ((j : ℝ) + 1) * Real.pi * (x - D.a) / D.length = ((j : ℝ) + 1) * ((i : ℝ) + 1) * Real.pi / (D.n + 1) := by
        rw [hx]
        field_simp
        ring
      unfold wave
      rw [harg, ← hs]
      ring
    rw [D.uMat_get (Finset.mem_range.1 hj) hin, ← hw]
    push_cast
    ring
  rw [Finset.sum_congr rfl e]
  exact ortho_apply (U := fun a s => D.uMat.get [s, a]) (fun a b ha hb => D.uMat_cols ha hb) (fun b => v.getD b 0) hin

/-- The inner product of two spatial functions is the inner product of the vectors. -/
theorem C98_inner (hL : 0 < D.length) {v w : List ℂ} {f g : ℝ → ℂ} (hf : D.IsFunctionOf v f) (hg : D.IsFunctionOf w g) :
    inner f g = dot D.n v w := by
  have hv := D.length_of hf
  have hw := D.length_of hg
  rw [D.inner_box hL D.wave_continuous ((D.isFunctionOf_iff hv).1 hf) fun x h1 h2 => D.sum_in ((D.isFunctionOf_iff hw).1 hg) h1 h2]
  simp only [D.wave_wave hL]
  refine (D.sandwich (M := fun s t => ((if s = t then 1 else 0 : ℝ) : ℂ)) (T := Nd.ofFn [D.n, D.n] fun p => if p.getD 0 0 = p.getD 1 0 then 1 else 0)
    rfl (fun a b ha hb => ?_) hw (u := w) ?_).trans rfl
  · rw [Nd.get_ofFn _ (Phonon.valid2 ha hb)]
    refine (D.uMat_cols ha hb).symm.trans (Finset.sum_congr rfl fun s hs => ?_)
    congr 1
    refine (sum_delta D.n s (Finset.mem_range.1 hs) fun t => D.uMat.get [t, b]).symm.trans (Finset.sum_congr rfl fun t _ => ?_)
    split <;> simp
  · rw [Phonon.matVec_ok (M := Nd.ofFn [D.n, D.n] fun p => if p.getD 0 0 = p.getD 1 0 then 1 else 0) (n := D.n) rfl hw]
    refine congrArg _ (List.ext_getElem (by simp [hw]) fun a h1 h2 => ?_)
    have ha : a < D.n := by simpa using h1
    rw [List.getElem_map, List.getElem_range, ← List.getD_eq_getElem w 0 h2, ← sum_delta D.n a ha fun s => w.getD s 0]
    exact Finset.sum_congr rfl fun b hb => by rw [Nd.get_ofFn _ (Phonon.valid2 ha (Finset.mem_range.1 hb))]; rfl

/-- `dvr_func i` is the spatial function of the `i`-th unit vector. -/
theorem C98_dvr_func {i : ℕ} (hi : i < D.n) : D.dvrFunc i = D.dvr2cont ((List.replicate D.n 0).set i 1) := by
  unfold dvrFunc dvr2cont dvr2fbrVec
  rw [if_pos hi, Phonon.matVec_ok D.uMat_shape (by simp), ok_bind]
  refine congrArg (fun l => Except.ok (D.fbr2cont l)) (List.map_congr_left fun j hj => ?_)
  rw [Finset.sum_eq_single i]
  · simp [hi]
  · intro b hb hbi
    have hb := Finset.mem_range.1 hb
    rw [List.getD_eq_getElem _ _ (by simpa using hb), List.getElem_set_ne (Ne.symm hbi)]
    simp
  · intro h
    exact absurd (Finset.mem_range.2 hi) h

/-- There is no DVR function beyond the number of grid points. -/
theorem C98_dvr_func_range {i : ℕ} (hi : D.n ≤ i) : D.dvrFunc i = .error .indexError := if_neg (by omega)

/-! ### C99 -/

/-- `t_mat` is the matrix of the kinetic energy: between two vectors it gives the matrix element of `-ħ²/(2m) d²/dx²` between their
spatial functions. -/
theorem C99_kinetic (hL : 0 < D.length) {v w u : List ℂ} {f g : ℝ → ℂ} (hf : D.IsFunctionOf v f) (hg : D.IsFunctionOf w g)
    {T : Nd ℂ} (hT : D.tMat = .ok T) (hu : matVec T w = .ok u) :
    inner f (fun x => ((-(D.hbar ^ 2) / (2 * D.me) : ℝ) : ℂ) * deriv (deriv g) x) = dot D.n v u := by
  have hv := D.length_of hf
  have hw := D.length_of hg
  rw [D.inner_box hL D.wave_continuous ((D.isFunctionOf_iff hv).1 hf)
    (d := fun j => ((-(D.hbar ^ 2) / (2 * D.me) : ℝ) : ℂ) * (((-((((j : ℝ) + 1) * Real.pi / D.length) ^ 2) : ℝ) : ℂ) * D.coef w j))
    fun x h1 h2 => by
      rw [D.deriv2_in ((D.isFunctionOf_iff hw).1 hg) h1 h2, Finset.mul_sum]
      exact Finset.sum_congr rfl fun j _ => by ring]
  simp only [D.wave_wave hL]
  obtain ⟨T', t1, t2, t3, t4⟩ := D.tMat_ok
  rw [t1] at hT
  cases hT
  refine .trans (Finset.sum_congr rfl fun j _ => Finset.sum_congr rfl fun k _ => ?_) (D.sandwich
    (M := fun s t => ((if s = t then 1 else 0 : ℝ) : ℂ) * (((-(D.hbar ^ 2) / (2 * D.me) : ℝ) : ℂ) * ((-((((t : ℝ) + 1) * Real.pi / D.length) ^ 2) : ℝ) : ℂ)))
    t3 (fun a b ha hb => ?_) hw hu)
  · ring
  · rw [t4 a b ha hb, Finset.mul_sum]
    refine Finset.sum_congr rfl fun s hs => ?_
    rw [mul_left_comm]
    congr 1
    rw [← mul_assoc]
    refine (sum_delta D.n s (Finset.mem_range.1 hs) fun t => ((-(D.hbar ^ 2) / (2 * D.me) : ℝ) : ℂ) *
      ((-((((t : ℝ) + 1) * Real.pi / D.length) ^ 2) : ℝ) : ℂ) * D.uMat.get [t, b]).symm.trans (Finset.sum_congr rfl fun t _ => ?_)
    split <;> simp

/-- `dq2_mat` is the matrix of the second derivative. -/
theorem C99_second (hL : 0 < D.length) {v w u : List ℂ} {f g : ℝ → ℂ} (hf : D.IsFunctionOf v f) (hg : D.IsFunctionOf w g)
    {T : Nd ℂ} (hT : D.dq2Mat = .ok T) (hu : matVec T w = .ok u) : inner f (deriv (deriv g)) = dot D.n v u := by
  have hv := D.length_of hf
  have hw := D.length_of hg
  rw [D.inner_box hL D.wave_continuous ((D.isFunctionOf_iff hv).1 hf) fun x h1 h2 => D.deriv2_in ((D.isFunctionOf_iff hw).1 hg) h1 h2]
  simp only [D.wave_wave hL]
  obtain ⟨T', t1, t2, t3, t4⟩ := D.fbr2dvrMat_ok D.lapDiag_shape
  unfold dq2Mat at hT
  rw [t1] at hT
  cases hT
  refine .trans (Finset.sum_congr rfl fun j hj => Finset.sum_congr rfl fun k hk => ?_) (D.sandwich
    (M := fun s t => D.lapDiag.get [s, t]) t3 t4 hw hu)
  rw [D.lapDiag_get (Finset.mem_range.1 hj) (Finset.mem_range.1 hk)]
  by_cases h : j = k
  · subst h; simp
  · simp [h]

theorem dqFbr_get {j k : ℕ} (hj : j < D.n) (hk : k < D.n) : D.dqFbr.get [j, k] =
    ((if j = k then 0 else (((j : ℤ) - k) % 2 : ℤ) * 4 * ((j : ℝ) + 1) * ((k : ℝ) + 1) / (((j : ℝ) + 1) ^ 2 - ((k : ℝ) + 1) ^ 2) / D.length : ℝ) : ℂ) := by
  unfold dqFbr
  rw [Nd.get_ofFn _ (Phonon.valid2 hj hk)]
  by_cases h : j = k
  · subst h; simp
  · have e : ((((j + 1 : ℕ) : ℤ) - ((k + 1 : ℕ) : ℤ)) % 2) = ((j : ℤ) - k) % 2 := by
      congr 1
      push_cast
      ring
    simp only [List.getD_cons_zero, List.getD_cons_succ]
    rw [if_pos (by omega), if_neg h, e]
    push_cast
    rfl

theorem dqFbr_anti {j k : ℕ} (hj : j < D.n) (hk : k < D.n) : D.dqFbr.get [j, k] = -D.dqFbr.get [k, j] := by
  rw [D.dqFbr_get hj hk, D.dqFbr_get hk hj, ← Complex.ofReal_neg]
  congr 1
  by_cases h : j = k
  · subst h; simp
  · rw [if_neg h, if_neg (Ne.symm h)]
    have e : ((k : ℤ) - j) % 2 = ((j : ℤ) - k) % 2 := by omega
    rw [e, show ((k : ℝ) + 1) ^ 2 - ((j : ℝ) + 1) ^ 2 = -(((j : ℝ) + 1) ^ 2 - ((k : ℝ) + 1) ^ 2) by ring, div_neg, neg_div, neg_neg]
    ring

/-- What the transformation of the matrix gives. -/
theorem dqMat_ok : ∃ T, D.dqMat = .ok T ∧ T.Wf ∧ T.shape = [D.n, D.n] ∧
    (∀ a b, a < D.n → b < D.n → T.get [a, b] = -T.get [b, a]) ∧ ∀ a b, a < D.n → b < D.n → T.get [a, b] =
      ∑ s ∈ Finset.range D.n, D.uMat.get [s, a] * ∑ t ∈ Finset.range D.n, D.dqFbr.get [s, t] * D.uMat.get [t, b] := by
  obtain ⟨S, s1, s2, s3, s4⟩ := D.fbr2dvrMat_ok (M := D.dqFbr) rfl
  have anti : ∀ a b, a < D.n → b < D.n → S.get [a, b] = -S.get [b, a] := by
    intro a b ha hb
    rw [s4 a b ha hb, s4 b a hb ha]
    simp only [Finset.mul_sum]
    rw [Finset.sum_comm, ← Finset.sum_neg_distrib]
    refine Finset.sum_congr rfl fun s hs => ?_
    rw [← Finset.sum_neg_distrib]
    refine Finset.sum_congr rfl fun t ht => ?_
    rw [D.dqFbr_anti (Finset.mem_range.1 ht) (Finset.mem_range.1 hs)]
    ring
  have get : ∀ a b, a < D.n → b < D.n →
      (Nd.ofFn [D.n, D.n] fun p => if p.getD 0 0 = p.getD 1 0 then 0 else S.get p).get [a, b] = S.get [a, b] := by
    intro a b ha hb
    rw [Nd.get_ofFn _ (Phonon.valid2 ha hb)]
    by_cases h : a = b
    · subst h
      have := anti a a ha ha
      have h0 : S.get [a, a] = 0 := by
        have h2 : 2 * S.get [a, a] = 0 := by rw [two_mul]; nth_rewrite 1 [this]; ring
        simpa using h2
      simp [h0]
    · simp [h]
  refine ⟨_, by unfold dqMat; rw [s1, ok_bind]; rfl, Nd.ofFn_wf _ _, rfl, fun a b ha hb => ?_, fun a b ha hb => ?_⟩
  · rw [get a b ha hb, get b a hb ha, anti a b ha hb]
  · rw [get a b ha hb, s4 a b ha hb]

/-- `dq_mat` is the matrix of the first derivative. -/
theorem C99_first (hL : 0 < D.length) {v w u : List ℂ} {f g : ℝ → ℂ} (hf : D.IsFunctionOf v f) (hg : D.IsFunctionOf w g)
    {T : Nd ℂ} (hT : D.dqMat = .ok T) (hu : matVec T w = .ok u) : inner f (deriv g) = dot D.n v u := by
  have hv := D.length_of hf
  have hw := D.length_of hg
  rw [D.inner_box hL D.wave'_continuous ((D.isFunctionOf_iff hv).1 hf) fun x h1 h2 => D.deriv_in ((D.isFunctionOf_iff hw).1 hg) h1 h2]
  simp only [D.wave_wave' hL]
  obtain ⟨T', t1, t2, t3, -, t4⟩ := D.dqMat_ok
  rw [t1] at hT
  cases hT
  refine .trans (Finset.sum_congr rfl fun j hj => Finset.sum_congr rfl fun k hk => ?_) (D.sandwich
    (M := fun s t => D.dqFbr.get [s, t]) t3 t4 hw hu)
  rw [D.dqFbr_get (Finset.mem_range.1 hj) (Finset.mem_range.1 hk)]

/-- `dq_mat` is antisymmetric. -/
theorem C99_antisymmetric : ∃ T, D.dqMat = .ok T ∧ T.shape = [D.n, D.n] ∧ ∀ a b, a < D.n → b < D.n → T.get [a, b] = -T.get [b, a] := by
  obtain ⟨T, t1, t2, t3, t4, -⟩ := D.dqMat_ok
  exact ⟨T, t1, t3, t4⟩

/-! ### Examples -/

/-- A box of length 2 with three points: the function of a vector, its norm and its kinetic energy. -/
example : ∃ f, IsFunctionOf ⟨-1, 1, 3, 1, 1, none, none⟩ [1, 2, Complex.I] f ∧ f 0 = 2 / (Real.sqrt (2 / (3 + 1)) : ℂ) ∧ f 1 = 0 ∧
    inner f f = 6 := by
  have hL : 0 < length ⟨-1, 1, 3, 1, 1, none, none⟩ := by norm_num [length]
  obtain ⟨f, hf⟩ := C98_exists ⟨-1, 1, 3, 1, 1, none, none⟩ (v := [1, 2, Complex.I]) rfl
  refine ⟨f, hf, ?_, C98_box _ hf (Or.inr le_rfl), ?_⟩
  · have := C98_grid _ hL hf (i := 1) (x := 0) (by norm_num [gridPoints, length, List.range, List.range.loop])
    rw [this]
    norm_num [length]
  · rw [C98_inner _ hL hf hf]
    norm_num [dot, Finset.sum_range_succ, Complex.conj_ofNat]

example (v w : List ℂ) (hv : v.length = 3) (hw : w.length = 3) : ∃ f g T u, IsFunctionOf ⟨-1, 1, 3, 1, 1, none, none⟩ v f ∧
    IsFunctionOf ⟨-1, 1, 3, 1, 1, none, none⟩ w g ∧ dqMat ⟨-1, 1, 3, 1, 1, none, none⟩ = .ok T ∧ matVec T w = .ok u ∧
    inner f (deriv g) = dot 3 v u := by
  have hL : 0 < length ⟨-1, 1, 3, 1, 1, none, none⟩ := by norm_num [length]
  obtain ⟨f, hf⟩ := C98_exists ⟨-1, 1, 3, 1, 1, none, none⟩ (v := v) hv
  obtain ⟨g, hg⟩ := C98_exists ⟨-1, 1, 3, 1, 1, none, none⟩ (v := w) hw
  obtain ⟨T, t1, t2, t3, -⟩ := dqMat_ok ⟨-1, 1, 3, 1, 1, none, none⟩
  have hu := Phonon.matVec_ok t3 hw
  exact ⟨f, g, T, _, hf, hg, t1, hu, C99_first _ hL hf hg t1 hu⟩

end SineDVR
