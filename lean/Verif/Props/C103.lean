import Verif.Model.CasDvr
import Verif.Props.C95
import Verif.Props.C98
import Verif.Props.C100

/-!
C103: a `CasDVR` represents the functions spanned by its basis, the position function and the kinetic energy.
C104: `matrix_repr` gives the matrix of an operator.
-/

open Py MeasureTheory
open scoped BigOperators

namespace CasDVR

/-! ### Specification -/

/-- Where the integrals are taken: the line or the interval `cut_off`; for numerical quadrature without `cut_off`, from -10⁴ to 10⁴. -/
noncomputable def domain (A : CasArgs) : Measure ℝ :=
  match A.cutOff, A.numPrec with
  | some i, _ => volume.restrict (Set.Ioc i.1 i.2)
  | none, none => volume
  | none, some _ => volume.restrict (Set.Ioc (-1e4) 1e4)

/-- The `i`-th basis function. -/
def phi (A : CasArgs) (i : ℕ) : ℝ → ℝ := A.basis.getD i fun _ => 0

/-- The quadrature is exact. -/
def QuadExact (quad : (ℝ → ℝ) → ℝ → ℝ → ℕ → ℝ) : Prop := ∀ g a b p, quad g a b p = ∫ x in a..b, g x

/-- The interval is not reversed. -/
def Interval (A : CasArgs) : Prop := ∀ i, A.cutOff = some i → i.1 ≤ i.2

/-- The basis functions are orthonormal. -/
def OrthonormalBasis (A : CasArgs) : Prop := ∀ i < A.basis.length, ∀ j < A.basis.length,
  Integrable (fun x => phi A i x * phi A j x) (domain A) ∧ (∫ x, phi A i x * phi A j x ∂domain A) = if i = j then 1 else 0

/-- `eigh` returns the eigenvalues and orthonormal eigenvectors, as the columns of a matrix, of the matrix `Q`. -/
def EighOk (eigh : Nd ℂ → Res (List ℝ × Nd ℝ)) (Q : Nd ℂ) (n : ℕ) : Prop :=
  ∃ e u, eigh Q = .ok (e, u) ∧ u.shape = [n, n] ∧ Mctdh.Eigen Q n n e fun k x => u.get [x, k]

/-- `f` is the spatial function of the vector `v`. -/
def IsFunctionOf (D : CasDVR) (v : List ℂ) (f : ℝ → ℂ) : Prop := ∃ psi, D.dvr2cont v = .ok psi ∧ ∀ x, psi x = .ok (f x)

/-- The inner product of two functions on the domain. -/
noncomputable def inner (A : CasArgs) (f g : ℝ → ℂ) : ℂ := ∫ x, (starRingEnd ℂ) (f x) * g x ∂domain A

/-! ### Lemmas -/

theorem cast_get (u : Nd ℝ) (p : List ℕ) : (cast u).get p = ((u.get p : ℝ) : ℂ) := by
  unfold cast Nd.get
  simp only [List.getD_eq_getElem?_getD, List.getElem?_map]
  cases u.data[ravel u.shape p]? <;> simp

theorem element_eq {quad : (ℝ → ℝ) → ℝ → ℝ → ℕ → ℝ} (hq : QuadExact quad) {A : CasArgs} (hA : Interval A) (i : ℝ → ℝ)
    (op : (ℝ → ℝ) → ℝ → ℝ) (j : ℝ → ℝ) :
    Symbolic.matrixElement quad i op j A.cutOff A.numPrec = ∫ x, i x * op j x ∂domain A := by
  unfold Symbolic.matrixElement domain
  dsimp only
  have hA := hA
  unfold Interval at hA
  generalize A.cutOff = c at hA
  cases c with
  | none =>
    cases A.numPrec with
    | none => rfl
    | some p =>
      dsimp only
      rw [hq, intervalIntegral.integral_of_le (by norm_num)]
  | some c =>
    cases A.numPrec with
    | none => exact intervalIntegral.integral_of_le (hA c rfl)
    | some p =>
      dsimp only
      rw [hq, intervalIntegral.integral_of_le (hA c rfl)]

theorem repr_get {quad : (ℝ → ℝ) → ℝ → ℝ → ℕ → ℝ} (hq : QuadExact quad) {A : CasArgs} (hA : Interval A) (op : (ℝ → ℝ) → ℝ → ℝ)
    {i j : ℕ} (hi : i < A.basis.length) (hj : j < A.basis.length) :
    (Symbolic.matrixRepr quad op A.basis A.cutOff A.numPrec).get [i, j] =
      ((∫ x, phi A (max i j) x * op (phi A (min i j)) x ∂domain A : ℝ) : ℂ) := by
  unfold Symbolic.matrixRepr
  rw [Nd.get_ofFn _ (Phonon.valid2 hi hj)]
  dsimp only
  rw [element_eq hq hA]
  rfl

/-- Sums of products between two vectors that are transformed by a real matrix. -/
theorem sandwich {n : ℕ} {U : ℕ → ℕ → ℝ} {M : ℕ → ℕ → ℂ} {T : ℕ → ℕ → ℂ}
    (h : ∀ a b, a < n → b < n → T a b = ∑ s ∈ Finset.range n, (U s a : ℂ) * ∑ t ∈ Finset.range n, M s t * (U t b : ℂ)) (v w : ℕ → ℂ) :
    (∑ j ∈ Finset.range n, ∑ k ∈ Finset.range n, (starRingEnd ℂ) (∑ a ∈ Finset.range n, (U j a : ℂ) * v a) *
      (M j k * ∑ b ∈ Finset.range n, (U k b : ℂ) * w b)) =
      ∑ a ∈ Finset.range n, (starRingEnd ℂ) (v a) * ∑ b ∈ Finset.range n, T a b * w b := by
  have e : ∀ a ∈ Finset.range n, (starRingEnd ℂ) (v a) * ∑ b ∈ Finset.range n, T a b * w b =
      ∑ j ∈ Finset.range n, ∑ k ∈ Finset.range n,
        ((U j a : ℂ) * (starRingEnd ℂ) (v a)) * (M j k * ∑ b ∈ Finset.range n, (U k b : ℂ) * w b) := by
    intro a ha
    have ha := Finset.mem_range.1 ha
    have e1 : ∀ b ∈ Finset.range n, T a b * w b = ∑ j ∈ Finset.range n, ∑ k ∈ Finset.range n, (U j a : ℂ) * M j k * ((U k b : ℂ) * w b) := by
      intro b hb
      rw [h a b ha (Finset.mem_range.1 hb), Finset.sum_mul]
      refine Finset.sum_congr rfl fun j _ => ?_
      rw [Finset.mul_sum, Finset.sum_mul]
      exact Finset.sum_congr rfl fun k _ => by ring
    rw [Finset.sum_congr rfl e1, Finset.sum_comm, Finset.mul_sum]
    refine Finset.sum_congr rfl fun j _ => ?_
    rw [Finset.sum_comm, Finset.mul_sum]
    refine Finset.sum_congr rfl fun k _ => ?_
    rw [← Finset.mul_sum]
    ring
  rw [Finset.sum_congr rfl e]
  conv_rhs => rw [Finset.sum_comm]
  refine Finset.sum_congr rfl fun j hj => ?_
  conv_rhs => rw [Finset.sum_comm]
  refine Finset.sum_congr rfl fun k _ => ?_
  rw [← Finset.sum_mul, map_sum]
  congr 1
  exact Finset.sum_congr rfl fun a _ => by rw [map_mul, Complex.conj_ofReal]

theorem bilinear {μ : Measure ℝ} (n : ℕ) {s t : ℕ → ℝ → ℝ} (h : ∀ j < n, ∀ k < n, Integrable (fun x => s j x * t k x) μ) (c d : ℕ → ℂ) :
    (∫ x, (starRingEnd ℂ) (∑ j ∈ Finset.range n, (s j x : ℂ) * c j) * (∑ k ∈ Finset.range n, (t k x : ℂ) * d k) ∂μ) =
      ∑ j ∈ Finset.range n, ∑ k ∈ Finset.range n, (starRingEnd ℂ) (c j) * (((∫ x, s j x * t k x ∂μ : ℝ) : ℂ) * d k) := by
  have e : ∀ x, (starRingEnd ℂ) (∑ j ∈ Finset.range n, (s j x : ℂ) * c j) * (∑ k ∈ Finset.range n, (t k x : ℂ) * d k) =
      ∑ j ∈ Finset.range n, ∑ k ∈ Finset.range n, ((s j x * t k x : ℝ) : ℂ) * ((starRingEnd ℂ) (c j) * d k) := by
    intro x
    rw [map_sum, Finset.sum_mul_sum]
    refine Finset.sum_congr rfl fun j _ => Finset.sum_congr rfl fun k _ => ?_
    rw [map_mul, Complex.conj_ofReal]
    push_cast
    ring
  simp only [e]
  have hi : ∀ j ∈ Finset.range n, ∀ k ∈ Finset.range n,
      Integrable (fun x => ((s j x * t k x : ℝ) : ℂ) * ((starRingEnd ℂ) (c j) * d k)) μ := fun j hj k hk =>
    (h j (Finset.mem_range.1 hj) k (Finset.mem_range.1 hk)).ofReal.mul_const _
  rw [integral_finsetSum _ fun j hj => integrable_finsetSum _ fun k hk => hi j hj k hk]
  refine Finset.sum_congr rfl fun j hj => ?_
  rw [integral_finsetSum _ fun k hk => hi j hj k hk]
  refine Finset.sum_congr rfl fun k hk => ?_
  have := integral_mul_const (μ := μ) ((starRingEnd ℂ) (c j) * d k) fun x => ((s j x * t k x : ℝ) : ℂ)
  have h2 : (∫ x, ((s j x * t k x : ℝ) : ℂ) ∂μ) = ((∫ x, s j x * t k x ∂μ : ℝ) : ℂ) := integral_ofReal
  rw [this, h2]
  ring

theorem fbr2cont_ok (D : CasDVR) {v : List ℂ} (hv : D.n ≤ v.length) (x : ℝ) :
    D.fbr2cont v x = .ok (∑ j ∈ Finset.range D.n, (phi D.toCasArgs j x : ℂ) * v.getD j 0) := by
  unfold fbr2cont
  have key : ∀ k, k ≤ D.n → ((List.range k).foldlM (fun (psi : ℂ) (j : ℕ) =>
      match v[j]? with
      | none => (.error .indexError : Res ℂ)
      | some c => .ok (psi + ((D.basis.getD j fun _ => 0) x : ℂ) * c)) 0) = .ok (∑ j ∈ Finset.range k, (phi D.toCasArgs j x : ℂ) * v.getD j 0) := by
    intro k
    induction k with
    | zero => intro _; rfl
    | succ k ih =>
      intro hk
      have hk' : k < v.length := by omega
      rw [List.range_succ, List.foldlM_append, ih (by omega), ok_bind, List.foldlM_cons, List.getElem?_eq_getElem hk']
      dsimp only
      rw [ok_bind, Finset.sum_range_succ, List.getD_eq_getElem v 0 hk']
      rfl
  exact key D.n le_rfl

/-- What creating the object does. -/
theorem create_ok {quad : (ℝ → ℝ) → ℝ → ℝ → ℕ → ℝ} {eigh : Nd ℂ → Res (List ℝ × Nd ℝ)} {A : CasArgs} {D : CasDVR}
    (hD : create quad eigh A = .ok D) (he : EighOk eigh (qMatrix quad A) A.basis.length) :
    ∃ (e : List ℝ) (U : ℕ → ℕ → ℝ), D.toCasArgs = A ∧ D.uMat.shape = [A.basis.length, A.basis.length] ∧
      (∀ a b, D.uMat.get [a, b] = (U a b : ℂ)) ∧ D.grid = e.map (A.inv.getD fun x => x) ∧
      Mctdh.Eigen (qMatrix quad A) A.basis.length A.basis.length e fun k x => U x k := by
  obtain ⟨e, u, h1, h2, h3⟩ := he
  unfold create at hD
  rw [h1, ok_bind] at hD
  cases hD
  exact ⟨e, fun a b => u.get [a, b], rfl, h2, fun a b => cast_get u _, rfl, h3⟩

theorem function_iff {D : CasDVR} {U : ℕ → ℕ → ℝ} (hs : D.uMat.shape = [D.n, D.n]) (hU : ∀ a b, D.uMat.get [a, b] = (U a b : ℂ))
    {v : List ℂ} {f : ℝ → ℂ} (hf : D.IsFunctionOf v f) : v.length = D.n ∧
    ∀ x, f x = ∑ j ∈ Finset.range D.n, (phi D.toCasArgs j x : ℂ) * ∑ b ∈ Finset.range D.n, (U j b : ℂ) * v.getD b 0 := by
  obtain ⟨psi, h1, h2⟩ := hf
  have hv : v.length = D.n := by
    by_contra hv
    have : D.dvr2fbrVec v = .error .valueError := by
      unfold dvr2fbrVec matVec
      rw [hs]
      exact if_neg fun h => hv h.symm
    unfold dvr2cont at h1
    rw [this] at h1
    cases h1
  refine ⟨hv, fun x => ?_⟩
  unfold dvr2cont dvr2fbrVec at h1
  rw [Phonon.matVec_ok hs hv, ok_bind] at h1
  cases h1
  have := h2 x
  rw [D.fbr2cont_ok (by simp)] at this
  rw [← Except.ok.inj this]
  refine Finset.sum_congr rfl fun j hj => ?_
  rw [Phonon.map_getD _ (Finset.mem_range.1 hj)]
  simp only [hU]

/-! ### C103 -/

section

variable {quad : (ℝ → ℝ) → ℝ → ℝ → ℕ → ℝ} {eigh : Nd ℂ → Res (List ℝ × Nd ℝ)} {A : CasArgs} {D : CasDVR}

/-- Every vector with as many entries as there are basis functions has a spatial function. -/
theorem C103_exists (hD : create quad eigh A = .ok D) (he : EighOk eigh (qMatrix quad A) A.basis.length) {v : List ℂ}
    (hv : v.length = A.basis.length) : ∃ f, D.IsFunctionOf v f := by
  obtain ⟨e, U, h1, h2, h3, h4, h5⟩ := create_ok hD he
  have hn : D.n = A.basis.length := by rw [← h1]; rfl
  unfold IsFunctionOf dvr2cont dvr2fbrVec
  rw [Phonon.matVec_ok h2 hv, ok_bind]
  exact ⟨_, _, rfl, fun x => D.fbr2cont_ok (by simp [hn]) x⟩

/-- The inner product of two spatial functions is that of the vectors. -/
theorem C103_inner (hD : create quad eigh A = .ok D) (he : EighOk eigh (qMatrix quad A) A.basis.length) (hb : OrthonormalBasis A)
    {v w : List ℂ} {f g : ℝ → ℂ} (hf : D.IsFunctionOf v f) (hg : D.IsFunctionOf w g) : inner A f g = SineDVR.dot A.basis.length v w := by
  obtain ⟨e, U, h1, h2, h3, h4, h5⟩ := create_ok hD he
  subst h1
  obtain ⟨hv, hf⟩ := function_iff h2 h3 hf
  obtain ⟨hw, hg⟩ := function_iff h2 h3 hg
  unfold inner
  simp only [hf, hg]
  rw [bilinear D.n (fun j hj k hk => (hb j hj k hk).1)]
  refine .trans (Finset.sum_congr rfl fun j hj => Finset.sum_congr rfl fun k hk => ?_)
    (.trans (sandwich (n := D.n) (U := U) (M := fun j k => if j = k then 1 else 0) (T := fun a b => if a = b then 1 else 0) (fun a b ha hb' => ?_)
      (fun a => v.getD a 0) fun b => w.getD b 0) ?_)
  · rw [(hb j (Finset.mem_range.1 hj) k (Finset.mem_range.1 hk)).2]
    split <;> simp
  · have := h5.orthonormal a ha b hb'
    have e2 : ((if a = b then 1 else 0 : ℂ)) = (((if a = b then 1 else 0 : ℝ)) : ℂ) := by split <;> simp
    rw [e2, ← this]
    push_cast
    refine Finset.sum_congr rfl fun s hs => ?_
    rw [SineDVR.sum_delta D.n s (Finset.mem_range.1 hs) fun t => (U t b : ℂ)]
  · exact Finset.sum_congr rfl fun a ha => by rw [SineDVR.sum_delta D.n a (Finset.mem_range.1 ha) fun b => w.getD b 0]

/-- The function that the DVR is built from is diagonal: between two vectors it acts by its values at the grid points. (For the functions
that are not given, `f` is the position itself.) -/
theorem C103_position (hq : QuadExact quad) (hI : Interval A) (hD : create quad eigh A = .ok D)
    (he : EighOk eigh (qMatrix quad A) A.basis.length)
    (hi : ∀ i < A.basis.length, ∀ j < A.basis.length, Integrable (fun x => phi A i x * ((A.f.getD fun x => x) x * phi A j x)) (domain A))
    (hinv : ∀ x, (A.f.getD fun x => x) ((A.inv.getD fun x => x) x) = x)
    {v w : List ℂ} {f g : ℝ → ℂ} (hf : D.IsFunctionOf v f) (hg : D.IsFunctionOf w g) :
    inner A f (fun x => ((A.f.getD fun x => x) x : ℂ) * g x) =
      ∑ a ∈ Finset.range A.basis.length, (starRingEnd ℂ) (v.getD a 0) * (((A.f.getD fun x => x) (D.grid.getD a 0) : ℂ) * w.getD a 0) := by
  obtain ⟨e, U, h1, h2, h3, h4, h5⟩ := create_ok hD he
  subst h1
  obtain ⟨hv, hf⟩ := function_iff h2 h3 hf
  obtain ⟨hw, hg⟩ := function_iff h2 h3 hg
  unfold inner
  simp only [hf, hg]
  set F : ℝ → ℝ := D.f.getD fun x => x with hF
  have e0 : ∀ x, (F x : ℂ) * ∑ j ∈ Finset.range D.n, (phi D.toCasArgs j x : ℂ) * ∑ b ∈ Finset.range D.n, (U j b : ℂ) * w.getD b 0 =
      ∑ j ∈ Finset.range D.n, ((F x * phi D.toCasArgs j x : ℝ) : ℂ) * ∑ b ∈ Finset.range D.n, (U j b : ℂ) * w.getD b 0 := by
    intro x
    rw [Finset.mul_sum]
    refine Finset.sum_congr rfl fun j _ => ?_
    push_cast
    ring
  simp only [e0]
  rw [bilinear D.n (t := fun k x => F x * phi D.toCasArgs k x) (fun j hj k hk => hi j hj k hk)]
  have hQ : ∀ j k, j < D.n → k < D.n → ((∫ x, phi D.toCasArgs j x * (F x * phi D.toCasArgs k x) ∂domain D.toCasArgs : ℝ) : ℂ) =
      (qMatrix quad D.toCasArgs).get [j, k] := by
    intro j k hj hk
    unfold qMatrix
    rw [repr_get hq hI _ hj hk]
    congr 1
    rcases le_total j k with h | h
    · rw [max_eq_right h, min_eq_left h]
      exact integral_congr_ae (Filter.Eventually.of_forall fun x => by simp only [Symbolic.prodOp]; rw [← hF]; ring)
    · rw [max_eq_left h, min_eq_right h]
      rfl
  refine .trans (Finset.sum_congr rfl fun j hj => Finset.sum_congr rfl fun k hk => ?_)
    (.trans (sandwich (n := D.n) (U := U) (M := fun j k => (qMatrix quad D.toCasArgs).get [j, k])
      (T := fun a b => (if a = b then 1 else 0) * (e.getD b 0 : ℂ)) (fun a b ha hb' => ?_) (fun a => v.getD a 0) fun b => w.getD b 0) ?_)
  · rw [hQ j k (Finset.mem_range.1 hj) (Finset.mem_range.1 hk)]
  · have := h5.orthonormal a ha b hb'
    have e2 : ((if a = b then 1 else 0 : ℂ)) = (((if a = b then 1 else 0 : ℝ)) : ℂ) := by split <;> simp
    rw [e2, ← this]
    push_cast
    rw [Finset.sum_mul]
    refine Finset.sum_congr rfl fun s hs => ?_
    have := h5.equation b hb' s (Finset.mem_range.1 hs)
    change _ = (U s a : ℂ) * ∑ t ∈ Finset.range D.basis.length, (qMatrix quad D.toCasArgs).get [s, t] * (U t b : ℂ)
    rw [this]
    ring
  · refine Finset.sum_congr rfl fun a ha => ?_
    have ha := Finset.mem_range.1 ha
    have hl : a < e.length := by rw [h5.count]; exact ha
    have hg' : F (D.grid.getD a 0) = e.getD a 0 := by
      rw [h4, List.getD_eq_getElem _ _ (by simpa using hl), List.getElem_map, hinv, List.getD_eq_getElem _ _ hl]
    rw [hg']
    congr 1
    simp only [mul_assoc]
    rw [SineDVR.sum_delta D.n a ha fun b => (e.getD b 0 : ℂ) * w.getD b 0]

/-- `t_mat` succeeds. -/
theorem C103_t_mat (hD : create quad eigh A = .ok D) (he : EighOk eigh (qMatrix quad A) A.basis.length) :
    ∃ T, D.tMat quad = .ok T ∧ T.shape = [A.basis.length, A.basis.length] := by
  obtain ⟨e, U, h1, h2, h3, h4, h5⟩ := create_ok hD he
  subst h1
  obtain ⟨X, x1, x2, x3, x4⟩ := Tensor.matmul_spec (Symbolic.matrixRepr quad (Symbolic.diff 2) D.basis D.cutOff D.numPrec) D.uMat
    (n := D.n) (m := D.n) rfl h2
  obtain ⟨Y, y1, y2, y3, y4⟩ := Tensor.matmul_spec (Heom.transpose D.uMat) X (Heom.transpose_shape h2) x3
  refine ⟨Nd.smul ((-(D.hbar ^ 2) / (2 * D.me) : ℝ) : ℂ) Y, ?_, y3⟩
  unfold tMat fbr2dvrMat
  dsimp only
  rw [x1, ok_bind, y1, ok_bind]
  rfl

/-- `t_mat` is the matrix of the kinetic energy, provided that the basis functions are twice differentiable and that the second derivative is
symmetric between them (which is so if the boundary terms of the integration by parts vanish). -/
theorem C103_kinetic (hq : QuadExact quad) (hI : Interval A) (hD : create quad eigh A = .ok D)
    (he : EighOk eigh (qMatrix quad A) A.basis.length)
    (hd : ∀ i < A.basis.length, Differentiable ℝ (phi A i) ∧ Differentiable ℝ (deriv (phi A i)))
    (hi : ∀ i < A.basis.length, ∀ j < A.basis.length, Integrable (fun x => phi A i x * deriv (deriv (phi A j)) x) (domain A))
    (hsym : ∀ i < A.basis.length, ∀ j < A.basis.length,
      (∫ x, phi A i x * deriv (deriv (phi A j)) x ∂domain A) = ∫ x, phi A j x * deriv (deriv (phi A i)) x ∂domain A)
    {v w u : List ℂ} {f g : ℝ → ℂ} (hf : D.IsFunctionOf v f) (hg : D.IsFunctionOf w g)
    {T : Nd ℂ} (hT : D.tMat quad = .ok T) (hu : matVec T w = .ok u) :
    inner A f (fun x => ((-(A.hbar ^ 2) / (2 * A.me) : ℝ) : ℂ) * deriv (deriv g) x) = SineDVR.dot A.basis.length v u := by
  obtain ⟨e, U, h1, h2, h3, h4, h5⟩ := create_ok hD he
  subst h1
  obtain ⟨hv, hf⟩ := function_iff h2 h3 hf
  obtain ⟨hw, hg⟩ := function_iff h2 h3 hg
  have hgf : g = fun x => ∑ j ∈ Finset.range D.n, (phi D.toCasArgs j x : ℂ) * ∑ b ∈ Finset.range D.n, (U j b : ℂ) * w.getD b 0 := funext hg
  have d1 : deriv g = fun x => ∑ j ∈ Finset.range D.n, ((deriv (phi D.toCasArgs j) x : ℝ) : ℂ) * ∑ b ∈ Finset.range D.n, (U j b : ℂ) * w.getD b 0 := by
    funext x
    rw [hgf]
    exact (HasDerivAt.fun_sum fun j hj => (((hd j (Finset.mem_range.1 hj)).1 x).hasDerivAt.ofReal_comp.mul_const _)).deriv
  have d2 : ∀ x, deriv (deriv g) x =
      ∑ j ∈ Finset.range D.n, ((deriv (deriv (phi D.toCasArgs j)) x : ℝ) : ℂ) * ∑ b ∈ Finset.range D.n, (U j b : ℂ) * w.getD b 0 := by
    intro x
    rw [d1]
    exact (HasDerivAt.fun_sum fun j hj => (((hd j (Finset.mem_range.1 hj)).2 x).hasDerivAt.ofReal_comp.mul_const _)).deriv
  unfold inner
  set c : ℂ := ((-(D.hbar ^ 2) / (2 * D.me) : ℝ) : ℂ) with hc
  have e0 : ∀ x, c * deriv (deriv g) x =
      ∑ j ∈ Finset.range D.n, ((deriv (deriv (phi D.toCasArgs j)) x : ℝ) : ℂ) * (c * ∑ b ∈ Finset.range D.n, (U j b : ℂ) * w.getD b 0) := by
    intro x
    rw [d2, Finset.mul_sum]
    exact Finset.sum_congr rfl fun j _ => by ring
  simp only [hf, e0]
  rw [bilinear D.n (t := fun k x => deriv (deriv (phi D.toCasArgs k)) x) (fun j hj k hk => hi j hj k hk)]
  set R := Symbolic.matrixRepr quad (Symbolic.diff 2) D.basis D.cutOff D.numPrec with hR
  have hRs : R.shape = [D.n, D.n] := rfl
  have hRg : ∀ j k, j < D.n → k < D.n → R.get [j, k] =
      ((∫ x, phi D.toCasArgs j x * deriv (deriv (phi D.toCasArgs k)) x ∂domain D.toCasArgs : ℝ) : ℂ) := by
    intro j k hj hk
    rw [hR, repr_get hq hI _ hj hk]
    congr 1
    have e2 : ∀ y : ℝ → ℝ, Symbolic.diff 2 y = deriv (deriv y) := by
      intro y
      unfold Symbolic.diff
      rw [iteratedDeriv_succ, iteratedDeriv_one]
    rw [e2]
    rcases le_total j k with h | h
    · rw [max_eq_right h, min_eq_left h]
      exact hsym k hk j hj
    · rw [max_eq_left h, min_eq_right h]
  obtain ⟨X, x1, x2, x3, x4⟩ := Tensor.matmul_spec R D.uMat hRs h2
  obtain ⟨Y, y1, y2, y3, y4⟩ := Tensor.matmul_spec (Heom.transpose D.uMat) X (Heom.transpose_shape h2) x3
  have hTY : T = Nd.smul c Y := by
    unfold tMat fbr2dvrMat at hT
    dsimp only at hT
    rw [← hR, x1, ok_bind, y1, ok_bind] at hT
    exact (Except.ok.inj hT).symm
  have hTs : T.shape = [D.n, D.n] := by rw [hTY]; exact y3
  have hTg : ∀ a b, a < D.n → b < D.n → T.get [a, b] = ∑ s ∈ Finset.range D.n, (U s a : ℂ) * ∑ t ∈ Finset.range D.n,
      (((∫ x, phi D.toCasArgs s x * deriv (deriv (phi D.toCasArgs t)) x ∂domain D.toCasArgs : ℝ) : ℂ) * c) * (U t b : ℂ) := by
    intro a b ha hb
    rw [hTY, Heom.smul_get, y4 a b ha hb, Finset.mul_sum]
    refine Finset.sum_congr rfl fun s hs => ?_
    have hs := Finset.mem_range.1 hs
    rw [Heom.transpose_get h2 ha hs, x4 s b hs hb, h3, mul_left_comm, Finset.mul_sum]
    congr 1
    refine Finset.sum_congr rfl fun t ht => ?_
    rw [hRg s t hs (Finset.mem_range.1 ht), h3]
    ring
  rw [Phonon.matVec_ok hTs hw] at hu
  cases hu
  refine .trans (Finset.sum_congr rfl fun j _ => Finset.sum_congr rfl fun k _ => ?_)
    (.trans (sandwich (n := D.n) (U := U) (T := fun a b => T.get [a, b]) hTg (fun a => v.getD a 0) fun b => w.getD b 0) ?_)
  · ring
  · refine Finset.sum_congr rfl fun a ha => ?_
    rw [Phonon.map_getD (n := D.n) _ (Finset.mem_range.1 ha)]

end

/-! ### C104 -/

/-- `matrix_repr` gives the matrix of an operator that is symmetric between the basis functions. -/
theorem C104_partial {quad : (ℝ → ℝ) → ℝ → ℝ → ℕ → ℝ} (hq : QuadExact quad) {A : CasArgs} (hI : Interval A) (op : (ℝ → ℝ) → ℝ → ℝ)
    (hsym : ∀ i < A.basis.length, ∀ j < A.basis.length,
      (∫ x, phi A i x * op (phi A j) x ∂domain A) = ∫ x, phi A j x * op (phi A i) x ∂domain A)
    {i j : ℕ} (hi : i < A.basis.length) (hj : j < A.basis.length) :
    (Symbolic.matrixRepr quad op A.basis A.cutOff A.numPrec).get [i, j] = ((∫ x, phi A i x * op (phi A j) x ∂domain A : ℝ) : ℂ) := by
  rw [repr_get hq hI op hi hj]
  congr 1
  rcases le_total i j with h | h
  · rw [max_eq_right h, min_eq_left h, hsym j hj i hi]
  · rw [max_eq_left h, min_eq_right h]

/-! ### The harmonic oscillator as an example -/

/-- The first `n` functions of the harmonic oscillator. -/
noncomputable def hoArgs (n : ℕ) : CasArgs :=
  ⟨(List.range n).map fun i => Symbolic.harmonicOscillator i 1 1 1, none, none, none, none, 1, 1⟩

theorem hoArgs_phi {n i : ℕ} (hi : i < n) : phi (hoArgs n) i = Symbolic.harmonicOscillator i 1 1 1 := by
  unfold phi hoArgs
  dsimp only
  rw [List.getD_eq_getElem _ _ (by simpa using hi), List.getElem_map, List.getElem_range]

theorem hoArgs_length (n : ℕ) : (hoArgs n).basis.length = n := by simp [hoArgs]

/-- A polynomial times a product of two functions of the harmonic oscillator is integrable. -/
theorem ho_integrable (p : Polynomial ℝ) (i j : ℕ) :
    Integrable fun x => p.eval x * (Symbolic.harmonicOscillator i 1 1 1 x * Symbolic.harmonicOscillator j 1 1 1 x) := by
  have h1 : (1 : ℝ) * 1 / 1 = 1 := by norm_num
  rw [Symbolic.ho_eq h1, Symbolic.ho_eq h1]
  generalize (-1 : ℝ) ^ i / (Real.sqrt (2 ^ i * (i.factorial : ℝ)) * Real.pi ^ (1 / 4 : ℝ)) = c
  generalize (-1 : ℝ) ^ j / (Real.sqrt (2 ^ j * (j.factorial : ℝ)) * Real.pi ^ (1 / 4 : ℝ)) = d
  refine ((Symbolic.integrable_poly1 (p * (Symbolic.herm i * Symbolic.herm j))).const_mul (c * d)).congr (Filter.Eventually.of_forall fun x => ?_)
  have : Real.exp (-x ^ 2) = Real.exp (-1 / 2 * x ^ 2) * Real.exp (-1 / 2 * x ^ 2) := by
    rw [← Real.exp_add]
    congr 1
    ring
  simp only [Polynomial.eval_mul]
  rw [this]
  ring

theorem ho_deriv2 (i : ℕ) (x : ℝ) : deriv (deriv (Symbolic.harmonicOscillator i 1 1 1)) x =
    (x ^ 2 - (2 * i + 1)) * Symbolic.harmonicOscillator i 1 1 1 x := by
  have := (Symbolic.C100_eigenfunction_partial (k := 1) (m := 1) (hbar := 1) one_ne_zero (by norm_num) i).2.2 x
  linarith

open Classical in
/-- An eigensolver without rounding errors. -/
noncomputable def exactEigh (Q : Nd ℂ) : Res (List ℝ × Nd ℝ) :=
  if h : ∃ r : List ℝ × Nd ℝ, r.2.shape = [Q.dim 0, Q.dim 0] ∧ Mctdh.Eigen Q (Q.dim 0) (Q.dim 0) r.1 fun k x => r.2.get [x, k]
  then .ok h.choose else .error .valueError

/-- The matrix that `CasDVR` diagonalises is real and symmetric, so that there is such an eigensolver. -/
theorem exactEigh_ok (quad : (ℝ → ℝ) → ℝ → ℝ → ℕ → ℝ) (A : CasArgs) : EighOk exactEigh (qMatrix quad A) A.basis.length := by
  have hs : (qMatrix quad A).shape = [A.basis.length, A.basis.length] := rfl
  have hd : (qMatrix quad A).dim 0 = A.basis.length := rfl
  obtain ⟨e, v, k1, k2⟩ := Mctdh.exists_eigen (qMatrix quad A) A.basis.length A.basis.length le_rfl
    (fun a b => Symbolic.matrixElement quad (A.basis.getD (max a b) fun _ => 0) (Symbolic.prodOp (A.f.getD fun x => x))
      (A.basis.getD (min a b) fun _ => 0) A.cutOff A.numPrec)
    (fun a ha b hb => by
      unfold qMatrix Symbolic.matrixRepr
      rw [Nd.get_ofFn _ (Phonon.valid2 ha hb)]
      rfl)
    (fun a _ b _ => by rw [max_comm, min_comm])
  have hex : ∃ r : List ℝ × Nd ℝ, r.2.shape = [(qMatrix quad A).dim 0, (qMatrix quad A).dim 0] ∧
      Mctdh.Eigen (qMatrix quad A) ((qMatrix quad A).dim 0) ((qMatrix quad A).dim 0) r.1 fun k x => r.2.get [x, k] := ⟨(e, v), k1, k2⟩
  refine ⟨hex.choose.1, hex.choose.2, ?_, hex.choose_spec.1, hex.choose_spec.2⟩
  unfold exactEigh
  rw [dif_pos hex]

/-- All the hypotheses of C103 are met by the functions of the harmonic oscillator, for any number of functions. -/
theorem ho_basis (n : ℕ) : OrthonormalBasis (hoArgs n) ∧ Interval (hoArgs n) ∧
    (∀ i < n, ∀ j < n, Integrable (fun x => phi (hoArgs n) i x * (x * phi (hoArgs n) j x)) (domain (hoArgs n))) ∧
    (∀ i < n, Differentiable ℝ (phi (hoArgs n) i) ∧ Differentiable ℝ (deriv (phi (hoArgs n) i))) ∧
    (∀ i < n, ∀ j < n, Integrable (fun x => phi (hoArgs n) i x * deriv (deriv (phi (hoArgs n) j)) x) (domain (hoArgs n))) ∧
    ∀ i < n, ∀ j < n, (∫ x, phi (hoArgs n) i x * deriv (deriv (phi (hoArgs n) j)) x ∂domain (hoArgs n)) =
      ∫ x, phi (hoArgs n) j x * deriv (deriv (phi (hoArgs n) i)) x ∂domain (hoArgs n) := by
  have hdom : domain (hoArgs n) = volume := rfl
  have horth := Symbolic.C100_orthonormal_partial (k := 1) (m := 1) (hbar := 1) (by norm_num)
  have e : ∀ i j x, Symbolic.harmonicOscillator i 1 1 1 x * deriv (deriv (Symbolic.harmonicOscillator j 1 1 1)) x =
      (Polynomial.X ^ 2 : Polynomial ℝ).eval x * (Symbolic.harmonicOscillator i 1 1 1 x * Symbolic.harmonicOscillator j 1 1 1 x) -
        (2 * j + 1) * (Symbolic.harmonicOscillator i 1 1 1 x * Symbolic.harmonicOscillator j 1 1 1 x) := by
    intro i j x
    rw [ho_deriv2]
    simp only [Polynomial.eval_pow, Polynomial.eval_X]
    ring
  refine ⟨?_, fun i h => (by cases h), ?_, ?_, ?_, ?_⟩
  · unfold OrthonormalBasis
    rw [hoArgs_length, hdom]
    intro i hi j hj
    rw [hoArgs_phi hi, hoArgs_phi hj]
    exact horth i j
  · intro i hi j hj
    rw [hoArgs_phi hi, hoArgs_phi hj, hdom]
    refine (ho_integrable Polynomial.X i j).congr (Filter.Eventually.of_forall fun x => ?_)
    simp only [Polynomial.eval_X]
    ring
  · intro i hi
    rw [hoArgs_phi hi]
    have := Symbolic.C100_eigenfunction_partial (k := 1) (m := 1) (hbar := 1) one_ne_zero (by norm_num) i
    exact ⟨this.1, this.2.1⟩
  · intro i hi j hj
    rw [hoArgs_phi hi, hoArgs_phi hj, hdom]
    simp only [e]
    exact (ho_integrable _ i j).sub ((horth i j).1.const_mul _)
  · intro i hi j hj
    rw [hoArgs_phi hi, hoArgs_phi hj, hdom]
    simp only [e]
    rw [integral_sub (ho_integrable _ i j) ((horth i j).1.const_mul _), integral_sub (ho_integrable _ j i) ((horth j i).1.const_mul _),
      integral_const_mul, integral_const_mul, (horth i j).2, (horth j i).2]
    congr 1
    · exact integral_congr_ae (Filter.Eventually.of_forall fun x => by dsimp only; ring)
    · by_cases h : i = j
      · subst h; rfl
      · rw [if_neg h, if_neg (Ne.symm h)]; simp

/-- The DVR of the first `n` functions of the harmonic oscillator. -/
example (quad : (ℝ → ℝ) → ℝ → ℝ → ℕ → ℝ) (hq : QuadExact quad) (n : ℕ) (v w : List ℂ) (hv : v.length = n) (hw : w.length = n) :
    ∃ D f g, create quad exactEigh (hoArgs n) = .ok D ∧ D.IsFunctionOf v f ∧ D.IsFunctionOf w g ∧
      inner (hoArgs n) f g = SineDVR.dot n v w ∧
      inner (hoArgs n) f (fun x => (x : ℂ) * g x) = ∑ a ∈ Finset.range n, (starRingEnd ℂ) (v.getD a 0) * ((D.grid.getD a 0 : ℂ) * w.getD a 0) := by
  have hE := exactEigh_ok quad (hoArgs n)
  obtain ⟨e, u, h1, h2, h3⟩ := hE
  have hD : create quad exactEigh (hoArgs n) = .ok { hoArgs n with grid := e.map ((hoArgs n).inv.getD fun x => x), uMat := cast u } := by
    unfold create
    rw [h1]
    rfl
  have hE := exactEigh_ok quad (hoArgs n)
  obtain ⟨b1, b2, b3, -⟩ := ho_basis n
  obtain ⟨f, hf⟩ := C103_exists hD hE (v := v) (by rw [hv, hoArgs_length])
  obtain ⟨g, hg⟩ := C103_exists hD hE (v := w) (by rw [hw, hoArgs_length])
  refine ⟨_, f, g, hD, hf, hg, ?_, ?_⟩
  · rw [C103_inner hD hE b1 hf hg, hoArgs_length]
  · have := C103_position hq b2 hD hE (by rw [hoArgs_length]; exact b3) (fun x => rfl) hf hg
    rw [hoArgs_length] at this
    exact this

/-- **Violated** for an operator that is not symmetric: the first derivative is antisymmetric between the functions of the harmonic oscillator,
the matrix is not. -/
theorem C104_violated (quad : (ℝ → ℝ) → ℝ → ℝ → ℕ → ℝ) (hq : QuadExact quad) :
    (Symbolic.matrixRepr quad (Symbolic.diff 1) (hoArgs 2).basis none none).get [0, 1] ≠
      ((∫ x, phi (hoArgs 2) 0 x * Symbolic.diff 1 (phi (hoArgs 2) 1) x : ℝ) : ℂ) := by
  have hI : Interval (hoArgs 2) := (ho_basis 2).2.1
  have h := repr_get hq hI (Symbolic.diff 1) (i := 0) (j := 1) (by rw [hoArgs_length]; norm_num) (by rw [hoArgs_length]; norm_num)
  have h' : (Symbolic.matrixRepr quad (Symbolic.diff 1) (hoArgs 2).basis none none).get [0, 1] =
      ((∫ x, phi (hoArgs 2) 1 x * Symbolic.diff 1 (phi (hoArgs 2) 0) x : ℝ) : ℂ) := h
  rw [h']
  have e1 : ∀ y : ℝ → ℝ, Symbolic.diff 1 y = deriv y := fun y => by unfold Symbolic.diff; rw [iteratedDeriv_one]
  rw [e1, e1, hoArgs_phi (by norm_num : (0 : ℕ) < 2), hoArgs_phi (by norm_num : (1 : ℕ) < 2)]
  have h1 : (1 : ℝ) * 1 / 1 = 1 := by norm_num
  have hd : ∀ i x, HasDerivAt (Symbolic.harmonicOscillator i 1 1 1) (deriv (Symbolic.harmonicOscillator i 1 1 1) x) x := fun i x =>
    ((Symbolic.C100_eigenfunction_partial (k := 1) (m := 1) (hbar := 1) one_ne_zero (by norm_num) i).1 x).hasDerivAt
  set p := Symbolic.harmonicOscillator 0 1 1 1 with hp
  set q := Symbolic.harmonicOscillator 1 1 1 1 with hqd
  -- the derivative of the ground function is a multiple of the first one
  have hpi : Real.pi ^ (1 / 4 : ℝ) ≠ 0 := (Real.rpow_pos_of_pos Real.pi_pos _).ne'
  have h2 : Real.sqrt 2 * Real.sqrt 2 = 2 := Real.mul_self_sqrt (by norm_num)
  have h2' : Real.sqrt 2 ≠ 0 := by positivity
  have dp : ∀ x, deriv p x = -(1 / Real.sqrt 2) * q x := by
    intro x
    rw [hp, hqd, Symbolic.ho_eq h1, Symbolic.ho_eq h1, ((Symbolic.poly_half_deriv _ x).const_mul _).deriv]
    simp only [Symbolic.herm, Polynomial.derivative_one, Polynomial.eval_sub, Polynomial.eval_mul, Polynomial.eval_X, Polynomial.eval_ofNat,
      Polynomial.eval_zero, Polynomial.eval_one, pow_one, pow_zero, Nat.factorial_zero, Nat.factorial_one, Nat.cast_one, mul_one, Real.sqrt_one]
    generalize Real.exp (-1 / 2 * x ^ 2) = E
    generalize Real.pi ^ (1 / 4 : ℝ) = P at hpi
    generalize Real.sqrt 2 = r at h2 h2'
    field_simp
    rw [show r ^ 2 = 2 by rw [sq, h2]]
    ring
  have horth := Symbolic.C100_orthonormal_partial (k := 1) (m := 1) (hbar := 1) (by norm_num)
  have i1 : (∫ x, q x * deriv p x) = -(1 / Real.sqrt 2) := by
    have : ∀ x, q x * deriv p x = -(1 / Real.sqrt 2) * (q x * q x) := fun x => by rw [dp]; ring
    simp only [this]
    rw [integral_const_mul, (horth 1 1).2]
    simp
  have dq : ∀ x, deriv q x = 1 / Real.sqrt 2 * (2 * p x) - x * q x := by
    intro x
    rw [hp, hqd, Symbolic.ho_eq h1, Symbolic.ho_eq h1, ((Symbolic.poly_half_deriv _ x).const_mul _).deriv]
    simp only [Symbolic.herm, Polynomial.derivative_one, Polynomial.eval_sub, Polynomial.eval_mul, Polynomial.eval_X, Polynomial.eval_ofNat,
      Polynomial.eval_zero, Polynomial.eval_one, pow_one, pow_zero, Nat.factorial_zero, Nat.factorial_one, Nat.cast_one, mul_one, Real.sqrt_one,
      zero_sub, Polynomial.derivative_neg, Polynomial.derivative_mul, Polynomial.derivative_X, Polynomial.eval_neg, Polynomial.eval_add,
      Polynomial.derivative_ofNat, zero_mul, zero_add]
    generalize Real.exp (-1 / 2 * x ^ 2) = E
    generalize Real.pi ^ (1 / 4 : ℝ) = P at hpi
    generalize Real.sqrt 2 = r at h2 h2'
    field_simp
    ring
  have hint : Integrable fun x => p x * deriv q x := by
    have e : ∀ x, p x * deriv q x = (2 / Real.sqrt 2) * (p x * p x) - (Polynomial.X : Polynomial ℝ).eval x * (p x * q x) := fun x => by
      rw [dq, Polynomial.eval_X]; ring
    simp only [e]
    exact ((horth 0 0).1.const_mul _).sub (ho_integrable _ 0 1)
  have hint2 : Integrable fun x => deriv p x * q x := by
    have e : ∀ x, deriv p x * q x = -(1 / Real.sqrt 2) * (q x * q x) := fun x => by rw [dp]; ring
    simp only [e]
    exact (horth 1 1).1.const_mul _
  have hby : (∫ x, p x * deriv q x) = -∫ x, deriv p x * q x :=
    integral_mul_deriv_eq_deriv_mul_of_integrable (fun x _ => hd 0 x) (fun x _ => hd 1 x) hint hint2 (horth 0 1).1
  have i2 : (∫ x, p x * deriv q x) = 1 / Real.sqrt 2 := by
    rw [hby, ← neg_neg (1 / Real.sqrt 2), ← i1]
    congr 1
    exact integral_congr_ae (Filter.Eventually.of_forall fun x => by dsimp only; ring)
  rw [i1, i2]
  intro hE
  have hE := Complex.ofReal_injective hE
  have : 0 < 1 / Real.sqrt 2 := by positivity
  linarith

end CasDVR
