import Verif.Lemmas.Full3
import Verif.Lemmas.Absorb

/-! The local equations of any tensor of a sweep, over the configurations of the network at the start, for C134. -/

open scoped BigOperators
open Py

namespace SplitProp

open Heap ML

variable {K T : Type} [Zero T]

/-- The states of the network in terms of the entries of the tensor `t`, at the configurations of `s0`. -/
noncomputable def frameB (s0 : Obj T ℂ) (F0 : Forest) (h : Heap ℂ) (t : ℕ) (F : Forest) (shape : List ℕ) (n : ℕ) :
    Matrix (Fin (leafDims s0 F0).prod) (Fin n) ℂ :=
  fun i k => (h.setArray t (some (unitNd shape k))).treeAmp t F (point s0 F0 i)

/-- What is known of a state of the sweep, compared with the start. -/
structure Based (s0 : Obj T ℂ) (F0 : Forest) (x : Ext T ℂ) (h : Heap ℂ) (t : ℕ) (F : Forest) : Prop where
  ttn : h.IsTTN t F
  canon : h.CanonicalTree t F
  empty : ∀ e ∈ F.edges t, h.isLeaf e.2.2.1 = true → h.array e.2.2.1 = none
  leaves : (h.leafList t F).Perm (s0.heap.leafList s0.root F0)
  dot : ∀ φ χ, dot (x.obj h t) F φ χ = ML.dot s0 F0 φ χ
  element : ∀ φ χ, element (x.obj h t) F φ χ = ML.element s0 F0 φ χ
  norm : ML.dot s0 F0 (h.treeAmp t F) (h.treeAmp t F) = 1
  gen : ∀ coef, Generates s0 F0 coef → Generates (x.obj h t) F coef

theorem Keep.based {C : Config K T ℂ} {N : ℕ} {s0 : Obj T ℂ} {F0 : Forest} {E : ℂ} (hf0 : s0.fList = none) {x : Ext T ℂ} {h : Heap ℂ} {t : ℕ} {F : Forest}
    (ht : h.IsTTN t F) (f : Good (Call.Right C) N x h t) (k : Keep s0 F0 E x h t) : Based s0 F0 x h t F := by
  have st := k.state F ht
  have ha0 : s0.allTerms none = s0.hList := by unfold Obj.allTerms; simp [hf0]
  have ha : (x.obj h t).allTerms none = x.hList := f.allTerms h t
  have hall : (x.obj h t).allTerms none = s0.allTerms none := by rw [ha, ha0, k.hList]
  have hop : ∀ term ∈ s0.allTerms none, ∀ l, opOn (x.obj h t).now term l = opOn s0.now term l := fun term hterm l =>
    opOn_const (f.const term (by rw [k.hList, ← ha0]; exact hterm)) _ _ l
  refine ⟨ht, st.canon, fun e _ q => f.empty _ q, st.leaves, fun φ χ => dot_same (leafList_nodup ht) st.leaves φ χ,
    fun φ χ => element_same (leafList_nodup ht) st.leaves hall hop φ χ, st.norm, fun coef hg u v hu hv => ?_⟩
  rw [hEntry_same (s' := x.obj h t) st.leaves hall hop, hEntry_same (s' := x.obj h t) st.leaves hall hop]
  exact hg u v (fun p hp => hu p (st.leaves.mem_iff.2 hp)) fun p hp => hv p (st.leaves.mem_iff.2 hp)

theorem Based.range {s0 : Obj T ℂ} {F0 : Forest} (ht0 : s0.heap.IsTTN s0.root F0) {x : Ext T ℂ} {h : Heap ℂ} {t : ℕ} {F : Forest} (b : Based s0 F0 x h t F)
    (i : Fin (leafDims s0 F0).prod) : ∀ p ∈ h.leafList t F, point s0 F0 i p.1 < p.2 :=
  fun p hp => point_valid s0 F0 (leafList_nodup ht0) i.2 p (b.leaves.mem_iff.1 hp)

theorem Based.amps {s0 : Obj T ℂ} {F0 : Forest} (ht0 : s0.heap.IsTTN s0.root F0) {x : Ext T ℂ} {h : Heap ℂ} {t : ℕ} {F : Forest} (b : Based s0 F0 x h t F)
    {A Y : Nd ℂ} (hA : h.Full t A) (hYs : Y.shape = A.shape) :
    amps s0 F0 ((h.setArray t (some Y)).treeAmp t F) = (frameB s0 F0 h t F A.shape A.shape.prod).mulVec (asVec A.shape.prod Y.data) := by
  funext i
  unfold ML.amps
  have := variation_lin (s := x.obj h t) b.ttn hA hYs (b.range ht0 i)
  refine this.trans ?_
  rw [Finset.sum_range]
  unfold Matrix.mulVec dotProduct frameB asVec
  exact Finset.sum_congr rfl fun k _ => mul_comm _ _

theorem Based.self {s0 : Obj T ℂ} {F0 : Forest} (ht0 : s0.heap.IsTTN s0.root F0) {x : Ext T ℂ} {h : Heap ℂ} {t : ℕ} {F : Forest} (b : Based s0 F0 x h t F)
    {A : Nd ℂ} (hA : h.Full t A) :
    ML.amps s0 F0 (h.treeAmp t F) = (frameB s0 F0 h t F A.shape A.shape.prod).mulVec (asVec A.shape.prod A.data) := by
  rw [← b.amps ht0 hA rfl]
  congr 1
  exact funext fun w => (amp_self hA.array F w).symm

theorem Based.orth {s0 : Obj T ℂ} {F0 : Forest} {x : Ext T ℂ} {h : Heap ℂ} {t : ℕ} {F : Forest} (b : Based s0 F0 x h t F) {A : Nd ℂ} (hA : h.Full t A) :
    (frameB s0 F0 h t F A.shape A.shape.prod).conjTranspose * frameB s0 F0 h t F A.shape A.shape.prod = 1 := by
  have h0 := frame_orth (s := x.obj h t) b.ttn b.canon b.empty hA
  rw [← h0]
  ext k l
  have e1 : ∀ (s : Obj T ℂ) (F : Forest) (φ χ : (ℕ → ℕ) → ℂ), ∑ j : Fin (leafDims s F).prod, star (χ (point s F j)) * φ (point s F j) = ML.dot s F φ χ := by
    intro s F φ χ
    rw [dot_point, Finset.sum_range]
    exact Finset.sum_congr rfl fun j _ => mul_comm _ _
  rw [Matrix.mul_apply, Matrix.mul_apply]
  refine (e1 s0 F0 ((h.setArray t (some (unitNd A.shape l))).treeAmp t F) ((h.setArray t (some (unitNd A.shape k))).treeAmp t F)).trans ?_
  rw [← b.dot]
  exact (e1 (x.obj h t) F _ _).symm

theorem Based.wMat {s0 : Obj T ℂ} {F0 : Forest} {x : Ext T ℂ} {h : Heap ℂ} {t : ℕ} {F : Forest} (b : Based s0 F0 x h t F) (shape : List ℕ) (coef e : ℂ) (n : ℕ)
    (ho : (frameB s0 F0 h t F shape n).conjTranspose * frameB s0 F0 h t F shape n = 1) :
    asMat n (wMat (x.obj h t) F shape coef e) =
      (frameB s0 F0 h t F shape n).conjTranspose * (genMatrix s0 F0 coef e * frameB s0 F0 h t F shape n) := by
  have hG : genMatrix s0 F0 coef e = coef⁻¹ • (hamMat s0 F0 - e • 1) := by
    ext i j
    rw [Matrix.smul_apply, Matrix.sub_apply, Matrix.smul_apply, Matrix.one_apply]
    unfold genMatrix hamMat
    simp only [smul_eq_mul, mul_ite, mul_one, mul_zero]
    rw [div_eq_inv_mul]
  have hH : ∀ k l : Fin n, hMat (x.obj h t) F shape k l =
      ((frameB s0 F0 h t F shape n).conjTranspose * (hamMat s0 F0 * frameB s0 F0 h t F shape n)) k l := by
    intro k l
    unfold hMat
    rw [b.element, element_apply, dot_point, Finset.sum_range, Matrix.mul_apply]
    refine Finset.sum_congr rfl fun i _ => ?_
    rw [apply_point, Finset.sum_range, Matrix.mul_apply, mul_comm]
    congr 1
    exact Finset.sum_congr rfl fun j _ => mul_comm _ _
  rw [hG, Matrix.smul_mul, Matrix.mul_smul, Matrix.sub_mul, Matrix.mul_sub, Matrix.smul_mul, Matrix.one_mul, Matrix.mul_smul, ho]
  ext k l
  unfold asMat SplitProp.wMat
  rw [hH, Matrix.smul_apply, Matrix.sub_apply, Matrix.smul_apply, Matrix.one_apply, div_eq_inv_mul]
  simp only [smul_eq_mul, mul_ite, mul_one, mul_zero, Fin.ext_iff]

/-- One propagation of a tensor with the exact solver: the exponential of the projected generator. -/
theorem evolve_frame {N : ℕ} (cf : Config ℝ T ℂ) (hs : cf.solver = exactSolver) {coef : ℂ} (h00 : coef ≠ 0)
    (hcoef : ∀ time : Option T, time.isNone = cf.imaginary → cf.coef time = coef)
    (he : coef * star (cf.initEnergy.getD 0) = -(star coef * cf.initEnergy.getD 0)) (h1 : cf.sqrt 1 = 1)
    {s0 : Obj T ℂ} {F0 : Forest} (ht0 : s0.heap.IsTTN s0.root F0) (hg : Generates s0 F0 coef)
    {x : Ext T ℂ} {h : Heap ℂ} {t : ℕ} {F : Forest} (tau : ℝ) (cache : Bool) (hr : h.Rooted t F)
    (f : Fine (Call.Right cf) N x h t) (b : Based s0 F0 x h t F) {A : Nd ℂ} (hA : h.Full t A) :
    ∃ x' h', evolve cf x h t tau cache = .ok (x', h') ∧ h.GoodChange h' t ∧ ∃ A', h'.Full t A' ∧ A'.shape = A.shape ∧
      frameB s0 F0 h' t F A.shape A.shape.prod = frameB s0 F0 h t F A.shape A.shape.prod ∧
      asVec A.shape.prod A'.data = (NormedSpace.exp (tau • ((frameB s0 F0 h t F A.shape A.shape.prod).conjTranspose *
        (genMatrix s0 F0 coef (cf.initEnergy.getD 0) * frameB s0 F0 h t F A.shape A.shape.prod)))).mulVec (asVec A.shape.prod A.data) := by
  have ht := b.ttn
  have ho := b.orth hA
  set s : Obj T ℂ := x.obj h t with hsdef
  have hts : s.heap.IsTTN s.root F := ht
  have hAs : s.heap.Full s.root A := hA
  set n := A.shape.prod with hn'
  set W := SplitProp.wMat s F A.shape coef (cf.initEnergy.getD 0) with hW
  have hself : variation s F t (some A) = h.treeAmp t F := funext fun w => amp_self hA.array F w
  have n1 : normSq n A.data = 1 := by
    rw [← dot_coord hts b.canon b.empty hAs hA.wf rfl]
    show ML.dot s F (variation s F t (some A)) (variation s F t (some A)) = 1
    rw [hself, b.dot]; exact b.norm
  have hlen : A.data.length = n := hA.wf
  obtain ⟨y, hy⟩ : ∃ y, y = List.ofFn ((NormedSpace.exp (tau • asMat n W)).mulVec (asVec n A.data)) := ⟨_, rfl⟩
  have hyl : y.length = n := by rw [hy]; simp
  have hval := C127_exact_value (x.time.getD 0) A.data tau W
  have hupd := C127_exact n W (fun a _ c _ => wMat_skew hts h00 (b.gen _ hg) he A.shape a c) (x.time.getD 0) A.data tau hlen y (by
    rw [hlen] at hval
    rw [hval, List.mem_singleton, hy])
  obtain ⟨x1, h1', r1, r2, r3, r4, r5⟩ := run_collect (N := N) cf cache (x0 := x) ht hA f.fList f.const h00 hcoef (x.time.getD 0)
    (fun ds => .update (List.ofFn ((NormedSpace.exp (tau • ofCols n ds)).mulVec fun k : Fin n => A.data.getD k 0)) .stop) (basis n)
    (by intro z hz; unfold basis at hz; obtain ⟨l, -, rfl⟩ := List.mem_map.1 hz; simp [hn']) [] x h ht hr f
    (.refl fun B hB => by rw [hA.array] at hB; cases hB; exact hA.wf) rfl hA.array
  rw [List.nil_append, ← hW, ← hn', cols_matVec] at r1
  have hyy : (List.ofFn ((NormedSpace.exp (tau • asMat n W)).mulVec fun k : Fin n => A.data.getD k 0)) = y := hy.symm
  rw [hyy] at r1
  have ht1 := Sweep.ttn_change ht r2
  have hr1 := Sweep.rooted_change hr r2
  have hYw : (⟨A.shape, y⟩ : Nd ℂ).Wf := by unfold Nd.Wf; exact hyl
  have g1 := goodChange_setArray r5 hYw rfl
  obtain ⟨h2, o, m1, m2, m3⟩ := normalize_unit (h := h1'.setArray t (some ⟨A.shape, y⟩)) (t := t) (A := ⟨A.shape, y⟩)
    (by rw [Heap.array_setArray, if_pos rfl]) hYw (Sweep.rooted_change hr1 g1).1 h1 (hupd.2.1.trans n1) (!cf.imaginary)
  have g2 := GoodChange.trans g1 m2
  have g3 := GoodChange.trans r2 g2
  obtain ⟨A2, hA2⟩ := (Sweep.ttn_change ht g3).full t (mem_tensors.2 ⟨.inl rfl, (Sweep.ttn_change ht g3).leaf⟩)
  obtain rfl : (⟨A.shape, y⟩ : Nd ℂ) = A2 := Option.some.inj (m3.symm.trans hA2.array)
  refine ⟨x1, h2, ?_, g3, _, hA2, rfl, ?_, ?_⟩
  · unfold evolve
    rw [hA.array, hs]
    dsimp only
    rw [exactSolver_eq _ _ hlen, r1]
    unfold run
    rw [r5]
    simp only
    rw [if_pos hyl, m1]
    rfl
  · funext i k
    exact variation_same g3 _ F _
  · have e3 : asVec n y = (NormedSpace.exp (tau • asMat n W)).mulVec (asVec n A.data) := by
      funext k
      show y.getD k.1 0 = _
      rw [hy, List.getD_eq_getElem?_getD, List.getElem?_ofFn]
      simp
    show asVec n y = _
    rw [e3, hW, b.wMat A.shape coef _ n ho]

/-- Propagation in one of two frames of the same space and back in the other. -/
theorem exp_cancel {m n n' : ℕ} (hn : n = n') (B : Matrix (Fin m) (Fin n) ℂ) (C : Matrix (Fin m) (Fin n') ℂ) (hB : B.conjTranspose * B = 1)
    (hC : C.conjTranspose * C = 1) (Q : Matrix (Fin n) (Fin n') ℂ) (hQ : C = B * Q) (G : Matrix (Fin m) (Fin m) ℂ) (tau : ℝ)
    (y : Fin n → ℂ) (z : Fin n' → ℂ) (hyz : B.mulVec ((NormedSpace.exp (tau • (B.conjTranspose * (G * B)))).mulVec y) = C.mulVec z) :
    C.mulVec ((NormedSpace.exp ((-tau) • (C.conjTranspose * (G * C)))).mulVec z) = B.mulVec y := by
  subst hn
  have hQ1 : Q.conjTranspose * Q = 1 := by
    rw [hQ, Matrix.conjTranspose_mul, Matrix.mul_assoc, ← Matrix.mul_assoc _ B, hB, Matrix.one_mul] at hC
    exact hC
  set W := B.conjTranspose * (G * B) with hW
  have hCW : C.conjTranspose * (G * C) = Q.conjTranspose * (W * Q) := by
    rw [hQ, hW, Matrix.conjTranspose_mul]
    simp only [Matrix.mul_assoc]
  have hz : (NormedSpace.exp (tau • W)).mulVec y = Q.mulVec z := by
    have := congrArg (fun v => B.conjTranspose.mulVec v) hyz
    simp only [Matrix.mulVec_mulVec] at this
    rw [← Matrix.mul_assoc, hB, Matrix.one_mul, hQ, ← Matrix.mul_assoc, hB, Matrix.one_mul] at this
    exact this
  have h1 := exp_frame rfl Q hQ1 W (-tau)
  rw [hCW, Matrix.mulVec_mulVec, hQ, Matrix.mul_assoc, h1, ← Matrix.mulVec_mulVec, ← Matrix.mulVec_mulVec, ← hz, Matrix.mulVec_mulVec _ (NormedSpace.exp ((-tau) • W)), neg_smul]
  have h2 : NormedSpace.exp (-(tau • W)) * NormedSpace.exp (tau • W) = 1 := by
    rw [← Matrix.exp_add_of_commute _ _ (Commute.neg_left (Commute.refl (tau • W))), neg_add_cancel, NormedSpace.exp_zero]
  rw [h2, Matrix.one_mulVec]

/-- The same, when the frame of the larger one comes last. -/
theorem exp_cancel' {m n n' : ℕ} (hn : n = n') (B : Matrix (Fin m) (Fin n) ℂ) (C : Matrix (Fin m) (Fin n') ℂ) (hB : B.conjTranspose * B = 1)
    (hC : C.conjTranspose * C = 1) (Q : Matrix (Fin n) (Fin n') ℂ) (hQ : C = B * Q) (G : Matrix (Fin m) (Fin m) ℂ) (tau : ℝ)
    (y : Fin n' → ℂ) (z : Fin n → ℂ) (hyz : C.mulVec ((NormedSpace.exp ((-tau) • (C.conjTranspose * (G * C)))).mulVec y) = B.mulVec z) :
    B.mulVec ((NormedSpace.exp (tau • (B.conjTranspose * (G * B)))).mulVec z) = C.mulVec y := by
  subst hn
  have hQ1 : Q.conjTranspose * Q = 1 := by
    have := hC
    rw [hQ, Matrix.conjTranspose_mul, Matrix.mul_assoc, ← Matrix.mul_assoc _ B, hB, Matrix.one_mul] at this
    exact this
  have := exp_cancel rfl C B hC hB Q.conjTranspose (by rw [hQ, Matrix.mul_assoc, mul_eq_one_comm.1 hQ1, Matrix.mul_one]) G (-tau) y z hyz
  rwa [neg_neg] at this

/-- Columns in the range of another matrix. -/
theorem exists_factor {m n n' : ℕ} (B : Matrix (Fin m) (Fin n) ℂ) (C : Matrix (Fin m) (Fin n') ℂ)
    (h : ∀ k, ∃ z, (fun i => C i k) = B.mulVec z) : ∃ Q, C = B * Q := by
  choose z hz using h
  refine ⟨fun i k => z k i, ?_⟩
  ext i k
  exact congrFun (hz k) i

end SplitProp
