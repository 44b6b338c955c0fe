import Verif.Lemmas.Full
import Verif.Lemmas.Conserve3
import Verif.Props.C127
import Mathlib.Analysis.Normed.Algebra.MatrixExponential

/-! The local equations of a full root are those of the whole state, for C133. -/

open scoped BigOperators
open Py

namespace SplitProp

open Heap ML

variable {K T : Type} [Zero T]

/-- The states of the network in terms of the entries of the root. -/
noncomputable def frame (s : Obj T ℂ) (F : Forest) (shape : List ℕ) (n : ℕ) : Matrix (Fin (leafDims s F).prod) (Fin n) ℂ :=
  fun i k => variation s F s.root (some (unitNd shape k)) (point s F i)

theorem leafPoint_lt {L : List (ℕ × ℕ)} (hL : (L.map Prod.fst).Nodup) {idx : List ℕ} (hv : Valid (L.map Prod.snd) idx) (x : ℕ → ℕ) :
    ∀ p ∈ L, leafPoint L idx x p.1 < p.2 := by
  induction L generalizing idx x with
  | nil => intro p hp; cases hp
  | cons q L ih =>
    obtain ⟨l, n⟩ := q
    rw [List.map_cons, List.nodup_cons] at hL
    cases idx with
    | nil => simp [Valid] at hv
    | cons i idx =>
      rw [List.map_cons, Valid, List.forall₂_cons] at hv
      intro p hp
      show leafPoint L idx (Nd.upd x l i) p.1 < p.2
      rcases List.mem_cons.1 hp with rfl | hp
      · rw [leafPoint_notMem hL.1]
        simpa [Nd.upd] using hv.1
      · exact ih hL.2 hv.2 _ p hp

theorem point_valid (s : Obj T ℂ) (F : Forest) (hnd : (s.heap.leafList s.root F).map Prod.fst |>.Nodup) {k : ℕ} (hk : k < (leafDims s F).prod) :
    ∀ p ∈ s.heap.leafList s.root F, point s F k p.1 < p.2 :=
  leafPoint_lt hnd (valid_unravel hk) _

theorem amps_variation {s : Obj T ℂ} {F : Forest} (ht : s.heap.IsTTN s.root F) {A Y : Nd ℂ} (hA : s.heap.Full s.root A)
    (hYs : Y.shape = A.shape) : amps s F (variation s F s.root (some Y)) = (frame s F A.shape A.shape.prod).mulVec (asVec A.shape.prod Y.data) := by
  funext i
  unfold amps
  rw [variation_lin ht hA hYs (point_valid s F (leafList_nodup ht) i.2), Finset.sum_range]
  unfold Matrix.mulVec dotProduct frame asVec
  exact Finset.sum_congr rfl fun k _ => mul_comm _ _

theorem frame_orth {s : Obj T ℂ} {F : Forest} (ht : s.heap.IsTTN s.root F) (hcan : s.heap.CanonicalTree s.root F)
    (hleaf : ∀ e ∈ F.edges s.root, s.heap.isLeaf e.2.2.1 = true → s.heap.array e.2.2.1 = none) {A : Nd ℂ} (hA : s.heap.Full s.root A) :
    (frame s F A.shape A.shape.prod).conjTranspose * frame s F A.shape A.shape.prod = 1 := by
  ext k l
  rw [Matrix.mul_apply, Matrix.one_apply]
  have h1 := overlap_root ht hcan hleaf hA (unitNd_wf A.shape k) rfl (unitNd_wf A.shape l) rfl
  have h2 := dot_point s F (variation s F s.root (some (unitNd A.shape l))) (variation s F s.root (some (unitNd A.shape k)))
  rw [Finset.sum_range] at h2
  have h3 : ∑ j, (frame s F A.shape A.shape.prod).conjTranspose k j * frame s F A.shape A.shape.prod j l =
      dot s F (variation s F s.root (some (unitNd A.shape l))) (variation s F s.root (some (unitNd A.shape k))) := by
    rw [h2]
    exact Finset.sum_congr rfl fun j _ => mul_comm _ _
  rw [h3]
  refine h1.trans ?_
  rw [sumIdx_eq_sum_range]
  have e : ∀ m < A.shape.prod, ∀ k, (unitNd A.shape k : Nd ℂ).get (unravel A.shape m) = if m = k then 1 else 0 := by
    intro m hm k
    rw [unitNd_get _ _ (valid_unravel hm), ravel_unravel hm]
  rw [Finset.sum_congr rfl fun m hm => by rw [e m (Finset.mem_range.1 hm), e m (Finset.mem_range.1 hm)]]
  rw [Finset.sum_eq_single l.1]
  · rw [if_pos rfl, one_mul]
    by_cases q : k = l
    · subst q; simp
    · rw [if_neg (fun q' => q (Fin.ext q'.symm)), if_neg q, star_zero]
  · intro m _ hm; rw [if_neg hm, zero_mul]
  · intro q; exact absurd (Finset.mem_range.2 l.2) q

/-- The Hamiltonian over the configurations. -/
noncomputable def hamMat (s : Obj T ℂ) (F : Forest) : Matrix (Fin (leafDims s F).prod) (Fin (leafDims s F).prod) ℂ :=
  fun i j => hEntry s F (point s F j) (point s F i)

theorem wMat_frame (s : Obj T ℂ) (F : Forest) (shape : List ℕ) (coef e : ℂ) (n : ℕ)
    (ho : (frame s F shape n).conjTranspose * frame s F shape n = 1) :
    asMat n (wMat s F shape coef e) = (frame s F shape n).conjTranspose * (genMatrix s F coef e * frame s F shape n) := by
  have hG : genMatrix s F coef e = coef⁻¹ • (hamMat s F - e • 1) := by
    ext i j
    rw [Matrix.smul_apply, Matrix.sub_apply, Matrix.smul_apply, Matrix.one_apply]
    unfold genMatrix hamMat
    simp only [smul_eq_mul, mul_ite, mul_one, mul_zero]
    rw [div_eq_inv_mul]
  have hH : ∀ k l : Fin n, hMat s F shape k l = ((frame s F shape n).conjTranspose * (hamMat s F * frame s F shape n)) k l := by
    intro k l
    unfold hMat
    rw [element_apply, dot_point, Finset.sum_range, Matrix.mul_apply]
    refine Finset.sum_congr rfl fun i _ => ?_
    rw [apply_point, Finset.sum_range, Matrix.mul_apply, mul_comm]
    congr 1
    exact Finset.sum_congr rfl fun j _ => mul_comm _ _
  rw [hG, Matrix.smul_mul, Matrix.mul_smul, Matrix.sub_mul, Matrix.mul_sub, Matrix.smul_mul, Matrix.one_mul, Matrix.mul_smul, ho]
  ext k l
  unfold asMat wMat
  rw [hH, Matrix.smul_apply, Matrix.sub_apply, Matrix.smul_apply, Matrix.one_apply, div_eq_inv_mul]
  simp only [smul_eq_mul, mul_ite, mul_one, mul_zero, Fin.ext_iff]

/-- A square matrix with orthonormal columns carries one exponential to the other. -/
theorem exp_frame {m n : ℕ} (hmn : n = m) (B : Matrix (Fin m) (Fin n) ℂ) (ho : B.conjTranspose * B = 1) (G : Matrix (Fin m) (Fin m) ℂ) (tau : ℝ) :
    B * NormedSpace.exp (tau • (B.conjTranspose * (G * B))) = NormedSpace.exp (tau • G) * B := by
  subst hmn
  have h2 : B * B.conjTranspose = 1 := mul_eq_one_comm.1 ho
  have hu : IsUnit B := ⟨⟨B, B.conjTranspose, h2, ho⟩, rfl⟩
  have hi : B⁻¹ = B.conjTranspose := Matrix.inv_eq_left_inv ho
  have := Matrix.exp_conj' B (tau • G) hu
  rw [hi] at this
  rw [show tau • (B.conjTranspose * (G * B)) = B.conjTranspose * (tau • G) * B by
    rw [mul_smul_comm, smul_mul_assoc, Matrix.mul_assoc], this, ← Matrix.mul_assoc, ← Matrix.mul_assoc, h2, Matrix.one_mul]

/-- The evaluations of the derivative before the end of the plan. -/
theorem run_collect {N : ℕ} (cf : Config K T ℂ) {t : ℕ} {F : Forest} (cache : Bool) {x0 : Ext T ℂ} {h0 : Heap ℂ} (ht0 : h0.IsTTN t F)
    {A0 : Nd ℂ} (hA0 : h0.Full t A0) (hf0 : x0.fList = none) (hc : ∀ term ∈ x0.hList, ∀ p ∈ term, ∀ t t' : T, p.2.at t = p.2.at t') {coef : ℂ} (h00 : coef ≠ 0)
    (hcoef : ∀ time : Option T, time.isNone = cf.imaginary → cf.coef time = coef) (t0 : T) (fin : List (List ℂ) → Plan T ℂ) (ys : List (List ℂ)) :
    (∀ y ∈ ys, y.length = A0.shape.prod) → ∀ (ds : List (List ℂ)) (x : Ext T ℂ) (h : Heap ℂ), h.IsTTN t F → h.Rooted t F → Fine (Call.Right cf) N x h t →
    h0.GoodChange h t → x.hList = x0.hList → h.array t = some A0 →
    ∃ x' h', run cf t cache (collect t0 ys ds fin) (x, h) =
        run cf t cache (fin (ds ++ ys.map (matVec A0.shape.prod (wMat (x0.obj h0 t) F A0.shape coef (cf.initEnergy.getD 0))))) (x', h') ∧
      h.GoodChange h' t ∧ Fine (Call.Right cf) N x' h' t ∧ x'.hList = x0.hList ∧ h'.array t = some A0 := by
  induction ys with
  | nil =>
    intro _ ds x h ht hr f g hx hA
    refine ⟨x, h, by simp [collect], .refl fun B hB => by rw [hA] at hB; cases hB; exact hA0.wf, f, hx, hA⟩
  | cons y ys ih =>
    intro hys ds x h ht hr f g hx hA
    obtain ⟨A1, hA1⟩ := ht.full t (mem_tensors.2 ⟨.inl rfl, ht.leaf⟩)
    obtain rfl : A0 = A1 := Option.some.inj (hA.symm.trans hA1.array)
    have hy := hys y (List.mem_cons_self ..)
    obtain ⟨x3, h3, d, G, q1, g3, f3, q4, q5, q6, q7, q8, q9, q10⟩ := eval_step cf cache ht hr f hA1 t0 hy fun d => collect t0 ys (ds ++ [d]) fin
    have hti : cf.coef (if cf.imaginary then none else some t0) = coef := hcoef _ (by cases cf.imaginary <;> rfl)
    rw [hti] at q10
    have hd := deriv_coord (x0 := x0) ht0 g hx hf0 f.fList hc hA0 _ h00 q6 q8 hy q9 (q10 h00)
    obtain ⟨x', h', e1, e2, e3⟩ := ih (fun z hz => hys z (List.mem_cons_of_mem _ hz)) (ds ++ [d]) x3 h3 (Sweep.ttn_change ht g3) (Sweep.rooted_change hr g3) f3
      (GoodChange.trans g g3) (q5.trans hx) q4
    refine ⟨x', h', ?_, GoodChange.trans g3 e2, e3⟩
    rw [collect, q1, e1, hd]
    simp

theorem exactSolver_eq (t0 : T) {y0 : List ℂ} (tau : ℝ) {n : ℕ} (hn : y0.length = n) : exactSolver t0 y0 tau =
    collect t0 (basis n) [] fun ds => .update (List.ofFn ((NormedSpace.exp (tau • ofCols n ds)).mulVec fun k : Fin n => y0.getD k 0)) .stop := by
  subst hn; rfl

/-- One propagation of a full root with the exact solver is the exact propagation of the state. -/
theorem evolve_exact {N : ℕ} (cf : Config ℝ T ℂ) (hs : cf.solver = exactSolver) {coef : ℂ} (h00 : coef ≠ 0)
    (hcoef : ∀ time : Option T, time.isNone = cf.imaginary → cf.coef time = coef)
    (he : coef * star (cf.initEnergy.getD 0) = -(star coef * cf.initEnergy.getD 0)) (h1 : cf.sqrt 1 = 1)
    {x : Ext T ℂ} {h : Heap ℂ} {t : ℕ} {F : Forest} (tau : ℝ) (cache : Bool) (ht : h.IsTTN t F) (hr : h.Rooted t F)
    (f : Fine (Call.Right cf) N x h t) (hcan : h.CanonicalTree t F) (hg : Generates (x.obj h t) F coef)
    (hn : dot (x.obj h t) F (h.treeAmp t F) (h.treeAmp t F) = 1) (hfull : FullRoot (x.obj h t) F) :
    ∃ x' h', evolve cf x h t tau cache = .ok (x', h') ∧ h.GoodChange h' t ∧ Fine (Call.Right cf) N x' h' t ∧ x'.hList = x.hList ∧
      amps (x.obj h t) F (h'.treeAmp t F) =
        (NormedSpace.exp (tau • genMatrix (x.obj h t) F coef (cf.initEnergy.getD 0))).mulVec (amps (x.obj h t) F (h.treeAmp t F)) := by
  obtain ⟨A, hA⟩ := ht.full t (mem_tensors.2 ⟨.inl rfl, ht.leaf⟩)
  set s : Obj T ℂ := x.obj h t with hsdef
  have hts : s.heap.IsTTN s.root F := ht
  have hAs : s.heap.Full s.root A := hA
  obtain ⟨A', hA', hnn⟩ := hfull
  obtain rfl : A = A' := Option.some.inj (hA.array.symm.trans hA')
  have hleaf : ∀ e ∈ F.edges s.root, s.heap.isLeaf e.2.2.1 = true → s.heap.array e.2.2.1 = none := fun e _ q => f.empty _ q
  have ho := frame_orth hts hcan hleaf hAs
  set n := A.shape.prod with hn'
  set W := wMat s F A.shape coef (cf.initEnergy.getD 0) with hW
  have hself : variation s F t (some A) = h.treeAmp t F := funext fun w => amp_self hA.array F w
  have n1 : normSq n A.data = 1 := by
    rw [← dot_coord hts hcan hleaf hAs hA.wf rfl]
    show dot s F (variation s F t (some A)) (variation s F t (some A)) = 1
    rw [hself]; exact hn
  have hlen : A.data.length = n := hA.wf
  obtain ⟨y, hy⟩ : ∃ y, y = List.ofFn ((NormedSpace.exp (tau • asMat n W)).mulVec (asVec n A.data)) := ⟨_, rfl⟩
  have hyl : y.length = n := by rw [hy]; simp
  have hval := C127_exact_value (x.time.getD 0) A.data tau W
  have hupd := C127_exact n W (fun a _ b _ => wMat_skew hts h00 hg he A.shape a b) (x.time.getD 0) A.data tau hlen y (by
    rw [hlen] at hval
    rw [hval, List.mem_singleton, hy])
  obtain ⟨x1, h1', r1, r2, r3, r4, r5⟩ := run_collect (N := N) cf cache (x0 := x) ht hA f.fList f.const h00 hcoef (x.time.getD 0)
    (fun ds => .update (List.ofFn ((NormedSpace.exp (tau • ofCols n ds)).mulVec fun k : Fin n => A.data.getD k 0)) .stop) (basis n)
    (by intro z hz; unfold basis at hz; obtain ⟨l, -, rfl⟩ := List.mem_map.1 hz; simp [hn']) [] x h ht hr f
    (.refl fun B hB => by rw [hA.array] at hB; cases hB; exact hA.wf) rfl hA.array
  rw [List.nil_append, ← hW, ← hn', cols_matVec] at r1
  have hyy : (List.ofFn ((NormedSpace.exp (tau • asMat n W)).mulVec fun k : Fin n => A.data.getD k 0)) = y := hy.symm
  rw [hyy] at r1
  have ht1 := Sweep.ttn_change ht r2
  have hr1 := Sweep.rooted_change hr r2
  have hYw : (⟨A.shape, y⟩ : Nd ℂ).Wf := by unfold Nd.Wf; exact hyl
  have g1 := goodChange_setArray r5 hYw rfl
  obtain ⟨h2, o, m1, m2, m3⟩ := normalize_unit (h := h1'.setArray t (some ⟨A.shape, y⟩)) (t := t) (A := ⟨A.shape, y⟩)
    (by rw [Heap.array_setArray, if_pos rfl]) hYw (Sweep.rooted_change hr1 g1).1 h1 (hupd.2.1.trans n1) (!cf.imaginary)
  have g2 := GoodChange.trans g1 m2
  have g3 := GoodChange.trans r2 g2
  refine ⟨x1, h2, ?_, g3, r3.change ht1 hr1 g2 rfl rfl r3.calls fun k v q => .inl q, r4, ?_⟩
  · unfold evolve
    rw [hA.array, hs]
    dsimp only
    rw [exactSolver_eq _ _ hlen, r1]
    unfold run
    rw [r5]
    simp only
    rw [if_pos hyl, m1]
    rfl
  · have hself' : h2.treeAmp t F = variation s F t (some ⟨A.shape, y⟩) := funext fun w =>
      (amp_self m3 F w).symm.trans (variation_same g3 _ F w)
    have e1 := amps_variation (s := s) (Y := ⟨A.shape, y⟩) hts hAs rfl
    have e2 := amps_variation (s := s) (Y := A) hts hAs rfl
    have e3 : asVec n y = (NormedSpace.exp (tau • asMat n W)).mulVec (asVec n A.data) := by
      funext k
      show y.getD k.1 0 = _
      rw [hy, List.getD_eq_getElem?_getD, List.getElem?_ofFn]
      simp
    rw [hself']
    refine e1.trans ?_
    show (frame s F A.shape n).mulVec (asVec n y) = _
    rw [e3, Matrix.mulVec_mulVec, hW, wMat_frame s F A.shape coef _ n ho, exp_frame hnn _ ho, ← Matrix.mulVec_mulVec]
    rw [← hself]
    congr 1
    exact e2.symm

end SplitProp
