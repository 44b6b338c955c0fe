import Verif.Lemmas.Full2
import Verif.Lemmas.Rk4
import Mathlib.LinearAlgebra.FiniteDimensional.Basic

/-! Sequences of exact propagations, for C133. -/

open scoped BigOperators
open Py

namespace SplitProp

open Heap ML Sweep

variable {T : Type} [Zero T]

/-- `genMatrix`, in terms of the leaves and the entries of the Hamiltonian. -/
noncomputable def genL (L : List (ℕ × ℕ)) (hE : (ℕ → ℕ) → (ℕ → ℕ) → ℂ) (coef e : ℂ) : Matrix (Fin (L.map Prod.snd).prod) (Fin (L.map Prod.snd).prod) ℂ :=
  fun i j => (hE (leafPoint L (unravel (L.map Prod.snd) j) fun _ => 0) (leafPoint L (unravel (L.map Prod.snd) i) fun _ => 0) - if i = j then e else 0) / coef

/-- What C133 says of one propagation, in the same terms. -/
def exactL (L : List (ℕ × ℕ)) (hE : (ℕ → ℕ) → (ℕ → ℕ) → ℂ) (coef e : ℂ) (tau : ℝ) (ψ ψ' : (ℕ → ℕ) → ℂ) : Prop :=
  (fun i : Fin (L.map Prod.snd).prod => ψ' (leafPoint L (unravel (L.map Prod.snd) i) fun _ => 0)) =
    (NormedSpace.exp (tau • genL L hE coef e)).mulVec
      fun i : Fin (L.map Prod.snd).prod => ψ (leafPoint L (unravel (L.map Prod.snd) i) fun _ => 0)

theorem exactL_iff (s : Obj T ℂ) (F : Forest) (coef e : ℂ) (tau : ℝ) (ψ ψ' : (ℕ → ℕ) → ℂ) :
    exactL (s.heap.leafList s.root F) (hEntry s F) coef e tau ψ ψ' ↔
      amps s F ψ' = (NormedSpace.exp (tau • genMatrix s F coef e)).mulVec (amps s F ψ) := Iff.rfl

theorem exact_same {s s0 : Obj T ℂ} {F : Forest} (hl : s.heap.leafList s.root F = s0.heap.leafList s0.root F) (hh : hEntry s F = hEntry s0 F) {coef e : ℂ}
    {tau : ℝ} {ψ ψ' : (ℕ → ℕ) → ℂ} (h : amps s F ψ' = (NormedSpace.exp (tau • genMatrix s F coef e)).mulVec (amps s F ψ)) :
    amps s0 F ψ' = (NormedSpace.exp (tau • genMatrix s0 F coef e)).mulVec (amps s0 F ψ) := by
  rw [← exactL_iff] at h ⊢
  rw [← hl, ← hh]; exact h

theorem leafList_caches {h h' : Heap ℂ} (e : OnlyCaches h h') (r : ℕ) (F : Forest) : h'.leafList r F = h.leafList r F := by
  have hlf : ∀ u, h'.isLeaf u = h.isLeaf u := fun u => (e.node u).1
  unfold Heap.leafList Heap.hdim
  simp only [hlf, e.array]

/-- The states between the propagations. -/
structure Track (cf : Config ℝ T ℂ) (N : ℕ) (s0 : Obj T ℂ) (F : Forest) (E : ℂ) (x : Ext T ℂ) (h : Heap ℂ) : Prop where
  ttn : h.IsTTN s0.root F
  rooted : h.Rooted s0.root F
  good : Good (Call.Right cf) N x h s0.root
  keep : Keep s0 F E x h s0.root
  leaves : h.leafList s0.root F = s0.heap.leafList s0.root F
  full : FullRoot (x.obj h s0.root) F
  leafs : ∀ u, h.isLeaf u = s0.heap.isLeaf u

/-- `_form_env()` and `_split_prop(root)`. -/
theorem Track.next {cf : Config ℝ T ℂ} (hs : cf.solver = exactSolver) {coef : ℂ} (h00 : coef ≠ 0)
    (hcoef : ∀ time : Option T, time.isNone = cf.imaginary → cf.coef time = coef)
    (he : coef * star (cf.initEnergy.getD 0) = -(star coef * cf.initEnergy.getD 0)) (h1 : cf.sqrt 1 = 1) {N : ℕ}
    {s0 : Obj T ℂ} {F : Forest} {E : ℂ} (ht0 : s0.heap.IsTTN s0.root F) (hf0 : s0.fList = none) (hg : Generates s0 F coef)
    {x : Ext T ℂ} {h : Heap ℂ} (tr : Track cf N s0 F E x h) (tau : ℝ) (cache : Bool) :
    ∃ x1 h1 x2 h2, formEnv cf x h s0.root = .ok (x1, h1) ∧ OnlyCaches h h1 ∧ h1.IsTTN s0.root F ∧ evolve cf x1 h1 s0.root tau cache = .ok (x2, h2) ∧ Track cf N s0 F E x2 h2 ∧
      amps s0 F (h2.treeAmp s0.root F) = (NormedSpace.exp (tau • genMatrix s0 F coef (cf.initEnergy.getD 0))).mulVec (amps s0 F (h.treeAmp s0.root F)) := by
  obtain ⟨x1, g1, e1, e2, e3⟩ := formEnv_fine cf tr.ttn tr.rooted tr.good
  obtain ⟨A, hA⟩ := tr.ttn.full s0.root (mem_tensors.2 ⟨.inl rfl, tr.ttn.leaf⟩)
  have gc : h.GoodChange g1 s0.root := ⟨e2.access, e2.next, e2.node, fun c _ => e2.array c, fun A' hA' => by
    rw [hA.array] at hA'; cases hA'
    exact ⟨A, by rw [e2.array]; exact hA.array, hA.wf, rfl⟩⟩
  have hx1 : x1.hList = s0.hList := by
    unfold formEnv at e1
    obtain ⟨s1, -, e4⟩ := bind_eq_ok.1 e1
    simp only [pure, Except.pure, Except.ok.injEq, Prod.mk.injEq] at e4
    rw [← e4.1]; exact tr.keep.hList
  have t1 := ttn_change tr.ttn gc
  have r1 := rooted_change tr.rooted gc
  have st := tr.keep.state F tr.ttn
  have hamp : g1.treeAmp s0.root F = h.treeAmp s0.root F := funext fun w =>
    treeAmp_congr e2.array (fun u k => by rw [Heap.acc_def, Heap.acc_def, e2.access]) (fun u => (e2.node u).1) s0.root F w
  have l1 : g1.leafList s0.root F = s0.heap.leafList s0.root F := (leafList_change gc hA.array _ F).trans tr.leaves
  have k1 : Keep s0 F E x1 g1 s0.root := by
    refine ⟨hx1, fun F' ht' => ?_⟩
    obtain rfl := t1.tree.unique ht'.tree
    exact ⟨canon_change tr.ttn st.canon gc, by rw [l1], by rw [hamp]; exact st.norm, by rw [hamp]; exact st.energy⟩
  set s : Obj T ℂ := x1.obj g1 s0.root with hsdef
  have ha0 : s0.allTerms none = s0.hList := by unfold Obj.allTerms; simp [hf0]
  have ha : s.allTerms none = x1.hList := e3.allTerms g1 s0.root
  have hall : s.allTerms none = s0.allTerms none := by rw [ha, ha0, hx1]
  have hop : ∀ term ∈ s0.allTerms none, ∀ l, opOn s.now term l = opOn s0.now term l := fun term hterm l =>
    opOn_const (e3.const term (by rw [hx1, ← ha0]; exact hterm)) _ _ l
  have hlp : (s.heap.leafList s.root F).Perm (s0.heap.leafList s0.root F) := by
    show (g1.leafList s0.root F).Perm _
    rw [l1]
  have hent : hEntry s F = hEntry s0 F := funext fun u => funext fun v => hEntry_same hlp hall hop u v
  have hgs : Generates s F coef := by
    intro u v hu hv
    rw [hent]
    exact hg u v (fun p hp => hu p (hlp.mem_iff.2 hp)) fun p hp => hv p (hlp.mem_iff.2 hp)
  have st1 := k1.state F t1
  have hn : dot s F (g1.treeAmp s0.root F) (g1.treeAmp s0.root F) = 1 := by
    rw [dot_same (leafList_nodup t1) hlp]; exact st1.norm
  have hfull : FullRoot s F := by
    obtain ⟨B, b1, b2⟩ := tr.full
    refine ⟨B, (e2.array _).trans b1, b2.trans ?_⟩
    show ((h.leafList s0.root F).map Prod.snd).prod = ((g1.leafList s0.root F).map Prod.snd).prod
    rw [l1, tr.leaves]
  obtain ⟨x2, g2, q1, q2, q3, q4, q5⟩ := evolve_exact cf hs h00 hcoef he h1 tau cache t1 r1 e3 st1.canon hgs hn hfull
  obtain ⟨x2', g2', p1, -, -, p4⟩ := evolve_keep cf (by rw [hs]; exact C127_exact) h00 hcoef he h1 hf0 hg tau cache t1 r1 e3 k1
  rw [q1] at p1
  obtain ⟨rfl, rfl⟩ : x2 = x2' ∧ g2 = g2' := by cases p1; exact ⟨rfl, rfl⟩
  have hA1 : g1.array s0.root = some A := (e2.array _).trans hA.array
  have l2 : g2.leafList s0.root F = s0.heap.leafList s0.root F := (leafList_change q2 hA1 _ F).trans l1
  refine ⟨x1, g1, x2, g2, e1, e2, t1, q1, ⟨ttn_change t1 q2, rooted_change r1 q2, q3.toGood, p4, l2, ?_, fun u => ?_⟩, ?_⟩
  · obtain ⟨B, b1, b2⟩ := hfull
    obtain ⟨B', c1, c2, c3⟩ := q2.array B b1
    refine ⟨B', c1, (congrArg List.prod c3).trans (b2.trans ?_)⟩
    show ((g1.leafList s0.root F).map Prod.snd).prod = ((g2.leafList s0.root F).map Prod.snd).prod
    rw [l1, l2]
  · rw [GoodChange.isLeaf q2, GoodChange.isLeaf gc]; exact tr.leafs u
  · rw [hamp] at q5
    exact exact_same l1 hent q5

theorem leafPoint_inj {L : List (ℕ × ℕ)} (hL : (L.map Prod.fst).Nodup) {I J : List ℕ} (hI : (L.map Prod.snd).length = I.length) (hJ : (L.map Prod.snd).length = J.length)
    {x y : ℕ → ℕ} (h : ∀ l ∈ L.map Prod.fst, leafPoint L I x l = leafPoint L J y l) : I = J := by
  induction L generalizing I J x y with
  | nil => simp at hI hJ; rw [List.eq_nil_of_length_eq_zero hI.symm, List.eq_nil_of_length_eq_zero hJ.symm]
  | cons p L ih =>
    obtain ⟨l, n⟩ := p
    rw [List.map_cons, List.nodup_cons] at hL
    cases I with
    | nil => simp at hI
    | cons i I =>
    cases J with
    | nil => simp at hJ
    | cons j J =>
    have h0 := h l (by simp)
    simp only [leafPoint] at h0 h
    rw [leafPoint_notMem hL.1, leafPoint_notMem hL.1] at h0
    rw [show i = j by simpa [Nd.upd] using h0, ih hL.2 (by simpa using hI) (by simpa using hJ) fun m hm => h m (by simp [hm])]

/-- The array of the only tensor of a network is full. -/
theorem full_one {s : Obj T ℂ} {F : Forest} (ht : s.heap.IsTTN s.root F) (h1 : ∀ l ∈ F.ids, s.heap.isLeaf l = true)
    (hleaf : ∀ e ∈ F.edges s.root, s.heap.isLeaf e.2.2.1 = true → s.heap.array e.2.2.1 = none) : FullRoot s F := by
  obtain ⟨A, hA⟩ := ht.full s.root (mem_tensors.2 ⟨.inl rfl, ht.leaf⟩)
  have hcan : s.heap.CanonicalTree s.root F := by
    intro e he'
    obtain ⟨q1, q2⟩ := List.mem_filter.1 he'
    rw [h1 _ (Forest.edges_tgt q1)] at q2
    cases q2
  refine ⟨A, hA.array, le_antisymm ?_ ?_⟩
  · have ho := frame_orth ht hcan hleaf hA
    have hinj : Function.Injective (frame s F A.shape A.shape.prod).mulVecLin := by
      intro u v huv
      have := congrArg (fun z => (frame s F A.shape A.shape.prod).conjTranspose.mulVec z) huv
      simpa only [Matrix.mulVecLin_apply, Matrix.mulVec_mulVec, ho, Matrix.one_mulVec] using this
    have := LinearMap.finrank_le_finrank_of_injective hinj
    simpa using this
  · have hv : ∀ k : Fin (leafDims s F).prod, Valid A.shape (s.heap.oneIdx s.root A.ndim (point s F k)) := fun k =>
      oneIdx_valid ht h1 hA (point_valid s F (leafList_nodup ht) k.2)
    have := Fintype.card_le_of_injective (fun k : Fin (leafDims s F).prod => (⟨ravel A.shape (s.heap.oneIdx s.root A.ndim (point s F k)), ravel_lt (hv k)⟩ : Fin A.shape.prod)) (by
      intro k l hkl
      have e1 : ravel A.shape (s.heap.oneIdx s.root A.ndim (point s F k)) = ravel A.shape (s.heap.oneIdx s.root A.ndim (point s F l)) := congrArg Fin.val hkl
      have e2 : s.heap.oneIdx s.root A.ndim (point s F k) = s.heap.oneIdx s.root A.ndim (point s F l) := by
        rw [← unravel_ravel (hv k), ← unravel_ravel (hv l), e1]
      have e3 := (oneIdx_eq ht h1 hA _ _).1 e2
      have e4 := leafPoint_inj (leafList_nodup ht) (valid_unravel (shape := leafDims s F) k.2).length_eq.symm (valid_unravel (shape := leafDims s F) l.2).length_eq.symm e3
      have e5 := congrArg (ravel (leafDims s F)) e4
      rw [ravel_unravel k.2, ravel_unravel l.2] at e5
      exact Fin.ext e5)
    simpa using this

end SplitProp
