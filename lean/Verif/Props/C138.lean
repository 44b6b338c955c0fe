import Verif.Model.GridStates
import Verif.Model.GridProp
import Verif.Lemmas.Phonon
import Verif.Nd.OpsLemmas
import Mathlib.Analysis.Normed.Algebra.MatrixExponential
import Mathlib.Analysis.Matrix.Spectrum
import Mathlib.Analysis.SpecialFunctions.Exponential

/-!
C138: `GridBasis.exp(c, v)` for several states multiplies, at every point of the grid, with the exponential of the matrix of the potential there.
-/

open Py Phonon
open scoped BigOperators Matrix

namespace GridStates

/-- A square array as a matrix. -/
def toMatrix (n : ℕ) (A : Nd ℂ) : Matrix (Fin n) (Fin n) ℂ := fun i j => A.get [(i : ℕ), (j : ℕ)]

/-- The matrix of the potential at the point `k`. -/
def potential (n : ℕ) (v : Nd ℂ) (k : ℕ) : Matrix (Fin n) (Fin n) ℂ := fun i j => v.get [(i : ℕ), (j : ℕ), k]

/-- The vector of the states at the point `k`. -/
def states (n : ℕ) (f : Nd ℂ) (k : ℕ) : Fin n → ℂ := fun i => f.get [(i : ℕ), k]

/-- What `scipy.linalg.eigh` promises for a Hermitian matrix: real eigenvalues and a unitary matrix that diagonalises it. -/
def EighSpec (eigh : Nd ℂ → Res (List ℝ × Nd ℂ)) : Prop :=
  ∀ (n : ℕ) (A : Nd ℂ), A.shape = [n, n] → (toMatrix n A).IsHermitian → ∃ w u, eigh A = .ok (w, u) ∧ w.length = n ∧ u.shape = [n, n] ∧
    (toMatrix n u)ᴴ * toMatrix n u = 1 ∧
    toMatrix n u * Matrix.diagonal (fun i : Fin n => ((w.getD i 0 : ℝ) : ℂ)) * (toMatrix n u)ᴴ = toMatrix n A

variable {eigh : Nd ℂ → Res (List ℝ × Nd ℂ)} {n p : ℕ} {v f : Nd ℂ}

private theorem conj_get (A : Nd ℂ) (q : List ℕ) : A.conj.get q = star (A.get q) := by
  unfold Nd.conj Nd.get
  simp only [List.getD_eq_getElem?_getD, List.getElem?_map]
  cases A.data[ravel A.shape q]? <;> simp

private theorem valid2 {a b i j : ℕ} (hi : i < a) (hj : j < b) : Valid [a, b] [i, j] := by
  simp [Valid, hi, hj]

private theorem valid3 {a b c i j k : ℕ} (hi : i < a) (hj : j < b) (hk : k < c) : Valid [a, b, c] [i, j, k] := by
  simp [Valid, hi, hj, hk]

private theorem mulVec_list {M : Nd ℂ} (hM : M.shape = [n, n]) (x : List ℂ) (hx : x.length = n) :
    ∃ y, matVec M x = .ok y ∧ y.length = n ∧ (fun i : Fin n => y.getD i 0) = toMatrix n M *ᵥ fun i : Fin n => x.getD i 0 := by
  refine ⟨_, matVec_ok hM hx, by simp, funext fun i => ?_⟩
  rw [List.getD_eq_getElem _ _ (by simp), List.getElem_map, List.getElem_range]
  simp only [Matrix.mulVec, dotProduct, toMatrix]
  exact Finset.sum_range fun b => M.get [(i : ℕ), b] * x.getD b 0

private theorem point_ok (he : EighSpec eigh) (c : ℂ) {A : Nd ℂ} (hA : A.shape = [n, n]) (hh : (toMatrix n A).IsHermitian) {x : List ℂ}
    (hx : x.length = n) : ∃ y, expPoint eigh c A x = .ok y ∧ y.length = n ∧
      (fun i : Fin n => y.getD i 0) = NormedSpace.exp (c • toMatrix n A) *ᵥ fun i : Fin n => x.getD i 0 := by
  obtain ⟨w, u, e, hw, hu, h1, h2⟩ := he n A hA hh
  have hts : (Heom.transpose u).conj.shape = [n, n] := by
    simp [Heom.transpose, Nd.transposeCore, Nd.ofFn, Nd.conj, hu]
  have htm : toMatrix n (Heom.transpose u).conj = (toMatrix n u)ᴴ := by
    ext i j
    simp only [toMatrix, Matrix.conjTranspose_apply, conj_get]
    congr 1
    unfold Heom.transpose
    rw [Nd.get_transposeCore u (by simpa [Nd.transposeCore, Nd.ofFn, hu] using valid2 i.2 j.2)]
    simp [Nd.ndim, hu, List.range_succ, List.idxOf, List.findIdx_cons]
  obtain ⟨y, y1, y2, y3⟩ := mulVec_list hts x hx
  set z := List.zipWith (fun (e : ℝ) y => Complex.exp (c * e) * y) w y with hz
  have hzl : z.length = n := by rw [hz, List.length_zipWith, hw, y2, min_self]
  obtain ⟨r, r1, r2, r3⟩ := mulVec_list hu z hzl
  refine ⟨r, ?_, r2, ?_⟩
  · unfold expPoint
    rw [e]
    change (do
      let x ← matVec (Heom.transpose u).conj x
      if w.length = x.length then matVec u (List.zipWith (fun (e : ℝ) y => Complex.exp (c * e) * y) w x) else throw Err.valueError) = .ok r
    rw [y1, ok_bind, if_pos (hw.trans y2.symm)]
    exact r1
  · have hzv : (fun i : Fin n => z.getD i 0) =
        Matrix.diagonal (fun i : Fin n => Complex.exp (c * ((w.getD i 0 : ℝ) : ℂ))) *ᵥ fun i : Fin n => y.getD i 0 := by
      funext i
      rw [Matrix.mulVec_diagonal, hz, List.getD_eq_getElem _ _ (by simp [hw, y2]), List.getElem_zipWith,
        List.getD_eq_getElem w _ (by simp [hw]), List.getD_eq_getElem y _ (by simp [y2])]
    have hinv : (toMatrix n u)⁻¹ = (toMatrix n u)ᴴ := Matrix.inv_eq_left_inv h1
    have hunit : IsUnit (toMatrix n u) := by
      rw [Matrix.isUnit_iff_isUnit_det]
      exact Matrix.isUnit_det_of_left_inverse h1
    have hexp : NormedSpace.exp (c • toMatrix n A) =
        toMatrix n u * Matrix.diagonal (fun i : Fin n => Complex.exp (c * ((w.getD i 0 : ℝ) : ℂ))) * (toMatrix n u)ᴴ := by
      have : c • toMatrix n A = toMatrix n u * Matrix.diagonal (fun i : Fin n => c * ((w.getD i 0 : ℝ) : ℂ)) * (toMatrix n u)⁻¹ := by
        rw [hinv, ← h2, ← Matrix.smul_mul, ← Matrix.mul_smul, ← Matrix.diagonal_smul]
        rfl
      rw [this, Matrix.exp_conj _ _ hunit, Matrix.exp_diagonal, hinv]
      congr 2
      refine congrArg Matrix.diagonal (funext fun i => ?_)
      rw [Pi.coe_exp, Complex.exp_eq_exp_ℂ]
    rw [r3, hzv, y3, htm, hexp, Matrix.mulVec_mulVec, Matrix.mulVec_mulVec, Matrix.mul_assoc]

private theorem mapM_exists {β : Type} {P : ℕ → β → Prop} {g : ℕ → Res β} : ∀ {l : List ℕ}, (∀ k ∈ l, ∃ y, g k = .ok y ∧ P k y) →
    ∃ r, l.mapM g = .ok r ∧ List.Forall₂ P l r
  | [], _ => ⟨[], rfl, .nil⟩
  | a :: l, h => by
    obtain ⟨y, h1, h2⟩ := h a List.mem_cons_self
    obtain ⟨r, h3, h4⟩ := mapM_exists fun k hk => h k (List.mem_cons_of_mem _ hk)
    refine ⟨y :: r, ?_, .cons h2 h4⟩
    rw [List.mapM_cons, h1, ok_bind, h3, ok_bind]
    rfl

/-- **C138.** For a Hermitian potential `exp(c, v)(f)` is, at every point of the grid, the exponential of `c` times the matrix of the potential
at this point, applied to the vector of the states there; it does not depend on the eigenvectors that `eigh` chooses. -/
theorem C138_exponential (he : EighSpec eigh) (c : ℂ) (hp : 0 < p) (hv : v.shape = [n, n, p]) (hf : f.shape = [n, p])
    (hh : ∀ k < p, (potential n v k).IsHermitian) :
    ∃ g, exp eigh c v f = .ok g ∧ g.Wf ∧ g.shape = [n, p] ∧
      ∀ k < p, states n g k = NormedSpace.exp (c • potential n v k) *ᵥ states n f k := by
  have ha : (v.transposeCore [2, 0, 1]).shape = [p, n, n] := by simp [Nd.transposeCore, Nd.ofFn, hv]
  have hb : (f.transposeCore [1, 0]).shape = [p, n] := by simp [Nd.transposeCore, Nd.ofFn, hf]
  have a0 : (v.transposeCore [2, 0, 1]).dim 0 = p := by unfold Nd.dim; rw [ha]; rfl
  have a1 : (v.transposeCore [2, 0, 1]).dim 1 = n := by unfold Nd.dim; rw [ha]; rfl
  have a2 : (v.transposeCore [2, 0, 1]).dim 2 = n := by unfold Nd.dim; rw [ha]; rfl
  have b0 : (f.transposeCore [1, 0]).dim 0 = p := by unfold Nd.dim; rw [hb]; rfl
  have b1 : (f.transposeCore [1, 0]).dim 1 = n := by unfold Nd.dim; rw [hb]; rfl
  have hm : ∀ k < p, toMatrix n (Nd.ofFn [n, n] fun q => (v.transposeCore [2, 0, 1]).get (k :: q)) = potential n v k := by
    intro k hk
    ext i j
    unfold toMatrix potential
    rw [Nd.get_ofFn _ (valid2 i.2 j.2), Nd.get_transposeCore v (by rw [ha]; exact valid3 hk i.2 j.2)]
    simp [Nd.ndim, hv, List.range_succ, List.idxOf, List.findIdx_cons]
  have hx : ∀ k < p, (fun i : Fin n => ((List.range n).map fun j : ℕ => (f.transposeCore [1, 0]).get [k, j]).getD i 0) = states n f k := by
    intro k hk
    funext i
    unfold states
    rw [List.getD_eq_getElem _ _ (by simp), List.getElem_map, List.getElem_range,
      Nd.get_transposeCore f (by rw [hb]; exact valid2 hk i.2)]
    simp [Nd.ndim, hf, List.range_succ, List.idxOf, List.findIdx_cons]
  obtain ⟨rows, r1, r2⟩ := mapM_exists (l := List.range p)
    (g := fun k : ℕ => expPoint eigh c (Nd.ofFn [n, n] fun q => (v.transposeCore [2, 0, 1]).get (k :: q))
      ((List.range n).map fun j : ℕ => (f.transposeCore [1, 0]).get [k, j]))
    (P := fun k y => y.length = n ∧ (fun i : Fin n => y.getD i 0) = NormedSpace.exp (c • potential n v k) *ᵥ states n f k) (by
      intro k hk
      have hk := List.mem_range.1 hk
      obtain ⟨y, y1, y2, y3⟩ := point_ok he c (A := Nd.ofFn [n, n] fun q => (v.transposeCore [2, 0, 1]).get (k :: q)) rfl
        (by rw [hm k hk]; exact hh k hk) (x := (List.range n).map fun j : ℕ => (f.transposeCore [1, 0]).get [k, j]) (by simp)
      rw [hm k hk, hx k hk] at y3
      exact ⟨y, y1, y2, y3⟩)
  have hrl : rows.length = p := by simpa using r2.length_eq.symm
  rw [List.forall₂_iff_get] at r2
  have hrow : ∀ k < p, (rows.getD k []).length = n ∧ (fun i : Fin n => (rows.getD k []).getD i 0) =
      NormedSpace.exp (c • potential n v k) *ᵥ states n f k := by
    intro k hk
    have := r2.2 k (by simpa using hk) (hrl ▸ hk)
    simp only [List.get_eq_getElem, List.getElem_range] at this
    rw [List.getD_eq_getElem rows _ (hrl ▸ hk)]
    exact this
  refine ⟨Nd.ofFn [n, p] fun q => (rows.getD (q.getD 1 0) []).getD (q.getD 0 0) 0, ?_, Nd.ofFn_wf _ _, rfl, fun k hk => ?_⟩
  · unfold exp
    dsimp only
    rw [a0, a1, a2, b0, b1, min_self, r1, ok_bind, (hrow 0 hp).1, hrl]
    rfl
  · rw [← (hrow k hk).2]
    funext i
    unfold states
    rw [Nd.get_ofFn _ (valid2 i.2 hk)]
    rfl

/-- A function that keeps the promise of `eigh` exists, by the spectral theorem. -/
theorem C138_eigh : ∃ eigh, EighSpec eigh := by
  have key : ∀ (n : ℕ) (A : Nd ℂ), (toMatrix n A).IsHermitian → ∃ q : List ℝ × Nd ℂ, q.1.length = n ∧ q.2.shape = [n, n] ∧
      (toMatrix n q.2)ᴴ * toMatrix n q.2 = 1 ∧
      toMatrix n q.2 * Matrix.diagonal (fun i : Fin n => ((q.1.getD i 0 : ℝ) : ℂ)) * (toMatrix n q.2)ᴴ = toMatrix n A := by
    intro n A hA
    let U : Matrix (Fin n) (Fin n) ℂ := hA.eigenvectorUnitary
    let u : Nd ℂ := Nd.ofFn [n, n] fun q => if h : q.getD 0 0 < n ∧ q.getD 1 0 < n then U ⟨_, h.1⟩ ⟨_, h.2⟩ else 0
    have hu : toMatrix n u = U := by
      ext i j
      unfold toMatrix
      rw [Nd.get_ofFn _ (valid2 i.2 j.2)]
      exact dif_pos ⟨i.2, j.2⟩
    refine ⟨(List.ofFn hA.eigenvalues, u), by simp, rfl, ?_, ?_⟩
    · rw [hu]
      exact Unitary.coe_star_mul_self hA.eigenvectorUnitary
    · rw [hu]
      have hd : (fun i : Fin n => (((List.ofFn hA.eigenvalues).getD i 0 : ℝ) : ℂ)) = RCLike.ofReal ∘ hA.eigenvalues := by
        funext i
        rw [List.getD_eq_getElem _ _ (by simp), List.getElem_ofFn]
        rfl
      dsimp only
      rw [hd]
      have := hA.spectral_theorem
      rw [Unitary.conjStarAlgAut_apply] at this
      exact this.symm
  classical
  refine ⟨fun A => if h : (toMatrix (A.dim 0) A).IsHermitian then .ok (key _ A h).choose else .error .valueError, fun n A hs hA => ?_⟩
  have hn : A.dim 0 = n := by unfold Nd.dim; rw [hs]; rfl
  subst hn
  exact ⟨_, _, dif_pos hA, (key _ A hA).choose_spec⟩

/-- With `c = -1.0j * dt / hbar` the norm of the vector of the states is conserved at every point. -/
theorem C138_norm (he : EighSpec eigh) (dt hbar : ℝ) (hp : 0 < p) (hv : v.shape = [n, n, p]) (hf : f.shape = [n, p])
    (hh : ∀ k < p, (potential n v k).IsHermitian) {g : Nd ℂ} (hg : exp eigh (-1 * Complex.I * dt / hbar) v f = .ok g) :
    ∀ k < p, ∑ i, ‖states n g k i‖ ^ 2 = ∑ i, ‖states n f k i‖ ^ 2 := by
  obtain ⟨g', e, _, _, h⟩ := C138_exponential he (-1 * Complex.I * dt / hbar) hp hv hf hh
  rw [hg] at e
  cases e
  intro k hk
  have hs : ∀ x : Fin n → ℂ, ((∑ i, ‖x i‖ ^ 2 : ℝ) : ℂ) = star x ⬝ᵥ x := by
    intro x
    simp only [dotProduct, Pi.star_apply, Complex.ofReal_sum]
    refine Finset.sum_congr rfl fun i _ => ?_
    rw [Complex.star_def, ← Complex.normSq_eq_conj_mul_self, Complex.normSq_eq_norm_sq]
  have hc : star (-1 * Complex.I * dt / hbar : ℂ) = -(-1 * Complex.I * dt / hbar) := by
    simp [neg_div]
  have hU : (NormedSpace.exp ((-1 * Complex.I * dt / hbar : ℂ) • potential n v k))ᴴ *
      NormedSpace.exp ((-1 * Complex.I * dt / hbar : ℂ) • potential n v k) = 1 := by
    rw [← Matrix.exp_conjTranspose, Matrix.conjTranspose_smul, (hh k hk).eq, hc, neg_smul,
      ← Matrix.exp_add_of_commute _ _ ((Commute.refl ((-1 * Complex.I * dt / hbar : ℂ) • potential n v k)).neg_left), neg_add_cancel, NormedSpace.exp_zero]
  apply Complex.ofReal_injective
  rw [hs, hs, h k hk, Matrix.star_mulVec, Matrix.dotProduct_mulVec, Matrix.vecMul_vecMul, hU, Matrix.vecMul_one]

/-- Two steps in the same potential are one step with the sum of the factors. -/
theorem C138_group (he : EighSpec eigh) (c c' : ℂ) (hp : 0 < p) (hv : v.shape = [n, n, p]) (hf : f.shape = [n, p])
    (hh : ∀ k < p, (potential n v k).IsHermitian) :
    ∃ g h s, exp eigh c v f = .ok g ∧ exp eigh c' v g = .ok h ∧ exp eigh (c + c') v f = .ok s ∧
      ∀ k < p, states n h k = states n s k := by
  obtain ⟨g, g1, _, g2, g3⟩ := C138_exponential he c hp hv hf hh
  obtain ⟨h, h1, _, _, h3⟩ := C138_exponential he c' hp hv g2 hh
  obtain ⟨s, s1, _, _, s3⟩ := C138_exponential he (c + c') hp hv hf hh
  refine ⟨g, h, s, g1, h1, s1, fun k hk => ?_⟩
  rw [h3 k hk, g3 k hk, s3 k hk, Matrix.mulVec_mulVec, add_comm c, add_smul, Matrix.exp_add_of_commute]
  exact ((Commute.refl _).smul_left _).smul_right _

/-- `exp(-c, v)` undoes `exp(c, v)`. -/
theorem C138_reverse (he : EighSpec eigh) (c : ℂ) (hp : 0 < p) (hv : v.shape = [n, n, p]) (hf : f.shape = [n, p])
    (hh : ∀ k < p, (potential n v k).IsHermitian) :
    ∃ g h, exp eigh c v f = .ok g ∧ exp eigh (-c) v g = .ok h ∧ ∀ k < p, states n h k = states n f k := by
  obtain ⟨g, h, s, g1, h1, s1, e⟩ := C138_group he c (-c) hp hv hf hh
  obtain ⟨s', s1', _, _, s3⟩ := C138_exponential he (c + -c) hp hv hf hh
  rw [s1] at s1'
  cases s1'
  refine ⟨g, h, g1, h1, fun k hk => ?_⟩
  rw [e k hk, s3 k hk, add_neg_cancel, zero_smul, NormedSpace.exp_zero, Matrix.one_mulVec]

/-- `mop(v)` multiplies with the matrix of the potential at every point, and `exp(c, v)` commutes with it: a step in the potential does not
change its mean value. -/
theorem C138_commute (he : EighSpec eigh) (c : ℂ) (hp : 0 < p) (hv : v.shape = [n, n, p]) (hf : f.shape = [n, p])
    (hh : ∀ k < p, (potential n v k).IsHermitian) :
    ∃ g a b m, exp eigh c v f = .ok g ∧ mop v g = .ok a ∧ mop v f = .ok m ∧ exp eigh c v m = .ok b ∧
      (∀ k < p, states n m k = potential n v k *ᵥ states n f k) ∧ ∀ k < p, states n a k = states n b k := by
  have hmop : ∀ {f : Nd ℂ}, f.shape = [n, p] → ∃ m, mop v f = .ok m ∧ m.shape = [n, p] ∧
      ∀ k < p, states n m k = potential n v k *ᵥ states n f k := by
    intro f hf
    unfold mop
    rw [hv, hf]
    refine ⟨_, if_pos ⟨rfl, rfl⟩, rfl, fun k hk => funext fun i => ?_⟩
    simp only [states, Matrix.mulVec, dotProduct, potential]
    rw [Nd.get_ofFn _ (valid2 i.2 hk)]
    exact Finset.sum_range fun j => v.get [(i : ℕ), j, k] * f.get [j, k]
  obtain ⟨g, g1, _, g2, g3⟩ := C138_exponential he c hp hv hf hh
  obtain ⟨a, a1, _, a3⟩ := hmop g2
  obtain ⟨m, m1, m2, m3⟩ := hmop hf
  obtain ⟨b, b1, _, _, b3⟩ := C138_exponential he c hp hv m2 hh
  refine ⟨g, a, b, m, g1, a1, m1, b1, m3, fun k hk => ?_⟩
  rw [a3 k hk, g3 k hk, b3 k hk, m3 k hk, Matrix.mulVec_mulVec, Matrix.mulVec_mulVec]
  have : Commute (potential n v k) (c • potential n v k) := (Commute.refl _).smul_right _
  rw [this.exp_right.eq]

/-- States that are not coupled are treated as single states: for potentials `V 0, V 1, ...` of the states, without coupling, every row of
`exp(c, v)(f)` is what the code for one state gives for this state. -/
theorem C138_uncoupled (he : EighSpec eigh) (c : ℂ) {xs : List ℂ} (hx : 0 < xs.length) (V : ℕ → ℂ → ℝ) (hv : v.shape = [n, n, xs.length])
    (hf : f.shape = [n, xs.length])
    (hd : ∀ i < n, ∀ j < n, ∀ k < xs.length, v.get [i, j, k] = if i = j then ((V i (xs.getD k 0) : ℝ) : ℂ) else 0) :
    ∃ g, exp eigh c v f = .ok g ∧ ∀ i < n, ((List.range xs.length).map fun k => g.get [i, k]) =
      Grids.mulExp c (fun x => ((V i x : ℝ) : ℂ)) xs ((List.range xs.length).map fun k => f.get [i, k]) := by
  have hdiag : ∀ k < xs.length, potential n v k = Matrix.diagonal fun i : Fin n => ((V i (xs.getD k 0) : ℝ) : ℂ) := by
    intro k hk
    ext i j
    rw [Matrix.diagonal_apply]
    unfold potential
    rw [hd i i.2 j j.2 k hk]
    simp [Fin.ext_iff]
  obtain ⟨g, g1, _, _, g3⟩ := C138_exponential he c hx hv hf (by
    intro k hk
    rw [hdiag k hk]
    exact Matrix.isHermitian_diagonal_of_self_adjoint _ (funext fun i => by simp))
  refine ⟨g, g1, fun i hi => ?_⟩
  unfold Grids.mulExp
  refine List.ext_getElem (by simp) fun k h1 h2 => ?_
  have hk : k < xs.length := by simpa using h1
  have := congrFun (g3 k hk) ⟨i, hi⟩
  rw [hdiag k hk, ← Matrix.diagonal_smul, Matrix.exp_diagonal, Matrix.mulVec_diagonal, Pi.coe_exp] at this
  simp only [List.getElem_map, List.getElem_range, List.getElem_zipWith]
  rw [List.getD_eq_getElem _ _ hk, ← Complex.exp_eq_exp_ℂ] at this
  exact this

/-- Two states, coupled at the second of two points only. -/
example : ∃ eigh g, EighSpec eigh ∧ exp eigh (-1 * Complex.I * (2 : ℝ) / (1 : ℝ)) ⟨[2, 2, 2], [1, 1, 0, Complex.I, 0, -Complex.I, 3, 3]⟩
    ⟨[2, 2], [1, 0, 2, 1]⟩ = .ok g ∧ ∑ i, ‖states 2 g 1 i‖ ^ 2 = 1 := by
  obtain ⟨eigh, he⟩ := C138_eigh
  have hh : ∀ k < 2, (potential 2 ⟨[2, 2, 2], [1, 1, 0, Complex.I, 0, -Complex.I, 3, 3]⟩ k).IsHermitian := by
    intro k hk
    ext i j
    interval_cases k <;> fin_cases i <;> fin_cases j <;> simp [potential, Nd.get, ravel]
  obtain ⟨g, h1, _⟩ := C138_exponential he (-1 * Complex.I * (2 : ℝ) / (1 : ℝ)) (n := 2) (p := 2) (f := ⟨[2, 2], [1, 0, 2, 1]⟩) two_pos rfl rfl hh
  refine ⟨eigh, g, he, h1, ?_⟩
  rw [C138_norm he 2 1 two_pos rfl rfl hh h1 1 one_lt_two]
  simp [states, Nd.get, ravel, Fin.sum_univ_two]

end GridStates
