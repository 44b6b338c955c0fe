import Verif.Lemmas.Conserve4
import Verif.Props.C28
import Mathlib.Analysis.Normed.Algebra.MatrixExponential
import Mathlib.Analysis.Complex.Basic

/-!
C127: the sweeps of the projector-splitting integrator conserve the norm and the energy.
-/

open scoped BigOperators
open Py

namespace SplitProp

open Heap ML Sweep

variable {K T R : Type} [Zero T] [Field R] [StarRing R]

/-- A list of sweeps over one tensor at a time. -/
theorem cmdsS_ok [Field K] {E : Type} {I J : E → Heap R → ℕ → Prop} {H : Hooks K E R} (hH : H.GoodS I J) {F : Forest} {fuel : ℕ}
    (hfu : F.ids.length < fuel) (cmds : List (Cmd K)) (hu : ∀ tau, Cmd.unite tau ∉ cmds) : ∀ s : State K E R, s.heap.IsTTN s.root F →
      s.heap.Rooted s.root F → s.heap.PlainNames (s.heap.tensors s.root F) → J s.ext s.heap s.root →
      ∃ s', cmds.foldlM (Cmd.exec H fuel) s = .ok s' ∧ s'.root = s.root ∧ s'.heap.IsTTN s.root F ∧ J s'.ext s'.heap s'.root := by
  have hd : F.depth < fuel := lt_of_le_of_lt F.depth_le hfu
  induction cmds with
  | nil => intro s ht hr hp hJ; exact ⟨s, rfl, rfl, ht, hJ⟩
  | cons c cmds ih =>
    intro s ht hr hp hJ
    obtain ⟨s1, e1, e2, iv⟩ : ∃ s1, Cmd.exec H fuel s c = .ok s1 ∧ s1.root = s.root ∧ Inv I s.heap s.root s1 := by
      cases c with
      | split tau b =>
        obtain ⟨s1, e1, e2, iv, -⟩ := splitStep_ok hH ht hr hp hJ hd tau b
        exact ⟨s1, e1, e2, iv⟩
      | unite tau => exact absurd (List.mem_cons_self ..) (hu tau)
      | rSplit snd tau =>
        obtain ⟨s1, e1, e2, iv, -⟩ := rSplitStep_ok hH ht hr hp hJ hd snd tau
        exact ⟨s1, e1, e2, iv⟩
    obtain ⟨f1, f2, f3⟩ := iv.final ht e2
    obtain ⟨s', g1, g2, g3, g4⟩ := ih (fun tau q => hu tau (List.mem_cons_of_mem _ q)) s1 (e2 ▸ f1) (e2 ▸ f2) (e2 ▸ f3) (hH.again _ _ _ iv.inv)
    refine ⟨s', ?_, g2.trans e2, e2 ▸ g3, g4⟩
    rw [List.foldlM_cons, e1]
    exact g1

theorem start_keep (c : Config K T R) {s : State K (Ext T R) R} {F : Forest} (ht : s.heap.IsTTN s.root F) (st : Start s.ext s.heap)
    (hcalls : s.ext.calls = []) (hcan : s.heap.CanonicalTree s.root F)
    (hn : dot (s.ext.obj s.heap s.root) F (s.heap.treeAmp s.root F) (s.heap.treeAmp s.root F) = 1) :
    Good (Call.Right c) s.heap.next s.ext s.heap s.root ∧ Keep (s.ext.obj s.heap s.root) F
      (element (s.ext.obj s.heap s.root) F (s.heap.treeAmp s.root F) (s.heap.treeAmp s.root F)) s.ext s.heap s.root := by
  refine ⟨⟨Nat.le_refl _, st.fList, st.const, st.leaf, st.fits, st.empty, st.marks, by rw [hcalls]; intro call hcall; cases hcall⟩,
    rfl, fun F' ht' => ?_⟩
  obtain rfl := ht.tree.unique ht'.tree
  exact ⟨hcan, .refl _, hn, rfl⟩

theorem end_keep {c : Config K T R} {s s' : State K (Ext T R) R} {F : Forest} {E : R} (st : Start s.ext s.heap)
    (g : Good (Call.Right c) s.heap.next s.ext s.heap s.root) (e2 : s'.root = s.root) (e3 : s'.heap.IsTTN s.root F)
    (e4 : Good (Call.Right c) s.heap.next s'.ext s'.heap s'.root) (e5 : Keep (s.ext.obj s.heap s.root) F E s'.ext s'.heap s'.root) :
    s'.heap.CanonicalTree s.root F ∧
      dot (s'.ext.obj s'.heap s'.root) F (s'.heap.treeAmp s.root F) (s'.heap.treeAmp s.root F) = 1 ∧
      element (s'.ext.obj s'.heap s'.root) F (s'.heap.treeAmp s.root F) (s'.heap.treeAmp s.root F) = E := by
  have q := e5.state F (e2 ▸ e3)
  have hall : (s'.ext.obj s'.heap s'.root).allTerms none = (s.ext.obj s.heap s.root).allTerms none := by
    rw [e4.allTerms, e5.hList, g.allTerms]; rfl
  refine ⟨e2 ▸ q.canon, ?_, ?_⟩
  · rw [dot_same (leafList_nodup (e2 ▸ e3)) q.leaves]
    have := q.norm
    rwa [e2] at this
  · rw [element_same (leafList_nodup (e2 ▸ e3)) q.leaves hall (fun term hterm l => opOn_const
      (st.const term (by rw [g.allTerms] at hterm; exact hterm)) _ _ l)]
    have := q.energy
    rwa [e2] at this

/-- **C127.** Start with a tree tensor network in canonical form with norm 1, whose terms do not depend on time and generate a unitary
evolution (the operator divided by the coefficient of the code is anti-Hermitian), with an initial energy shift that does so too. Make any
sweeps over one tensor at a time one after the other (forwards, backwards, of second order, over links), where the decompositions are exact and
the solver conserves norm and expectation value in linear equations with an anti-Hermitian matrix. Then the sweeps return normally, the
network has the same tree, root and canonical form as before, its norm is 1, and the expectation value `<H>` is the one of the start. So the
projection of the equations on the tensors, their splitting, the backward propagation of the links and the stored mean fields add no error
to norm and energy. -/
theorem C127_one_site [Field K] (c : Config K T R) (h1 : SvdShape c.svd) (h2 : SvdIso c.svd) (h3 : SvdExact c.svd) (hs : Conservative c.solver)
    (hq : c.sqrt 1 = 1) {coef : R} (h0 : coef ≠ 0) (hcoef : ∀ time : Option T, time.isNone = c.imaginary → c.coef time = coef)
    (he : coef * star (c.initEnergy.getD 0) = -(star coef * c.initEnergy.getD 0))
    {s : State K (Ext T R) R} {F : Forest} (ht : s.heap.IsTTN s.root F) (hr : s.heap.Rooted s.root F)
    (hp : s.heap.PlainNames (s.heap.tensors s.root F)) (st : Start s.ext s.heap) (hcalls : s.ext.calls = [])
    (hcan : s.heap.CanonicalTree s.root F) (hg : Generates (s.ext.obj s.heap s.root) F coef)
    (hn : dot (s.ext.obj s.heap s.root) F (s.heap.treeAmp s.root F) (s.heap.treeAmp s.root F) = 1) {fuel : ℕ}
    (hfu : F.ids.length < fuel) (cmds : List (Cmd K)) (hu : ∀ tau, Cmd.unite tau ∉ cmds) :
    ∃ s', cmds.foldlM (Cmd.exec (hooks c) fuel) s = .ok s' ∧ s'.root = s.root ∧ s'.heap.IsTTN s.root F ∧
      s'.heap.CanonicalTree s.root F ∧
      dot (s'.ext.obj s'.heap s'.root) F (s'.heap.treeAmp s.root F) (s'.heap.treeAmp s.root F) = 1 ∧
      element (s'.ext.obj s'.heap s'.root) F (s'.heap.treeAmp s.root F) (s'.heap.treeAmp s.root F) =
        element (s.ext.obj s.heap s.root) F (s.heap.treeAmp s.root F) (s.heap.treeAmp s.root F) := by
  obtain ⟨g, k⟩ := start_keep c ht st hcalls hcan hn
  obtain ⟨s', e1, e2, e3, e4, e5⟩ := cmdsS_ok (goodS s.heap.next c h1 h2 h3 hs h0 hcoef he hq (s0 := s.ext.obj s.heap s.root) ht st.fList hg) hfu
    cmds hu s ht hr hp ⟨g, k⟩
  exact ⟨s', e1, e2, e3, end_keep st g e2 e3 e4 e5⟩

/-- **C127, pairs.** The same for any list of sweeps, those over pairs of tensors (`unite_step`) among them, if the decomposition used to split
the pairs is exact too. -/
theorem C127_sweeps [Field K] (c : Config K T R) (h1 : SvdShape c.svd) (h2 : SvdIso c.svd) (h3 : SvdExact c.svd) (h1' : SvdShape c.svdU)
    (h2' : SvdIso c.svdU) (h3' : SvdExact c.svdU) (hs : Conservative c.solver)
    (hq : c.sqrt 1 = 1) {coef : R} (h0 : coef ≠ 0) (hcoef : ∀ time : Option T, time.isNone = c.imaginary → c.coef time = coef)
    (he : coef * star (c.initEnergy.getD 0) = -(star coef * c.initEnergy.getD 0))
    {s : State K (Ext T R) R} {F : Forest} (ht : s.heap.IsTTN s.root F) (hr : s.heap.Rooted s.root F)
    (hp : s.heap.PlainNames (s.heap.tensors s.root F)) (st : Start s.ext s.heap) (hcalls : s.ext.calls = [])
    (hcan : s.heap.CanonicalTree s.root F) (hg : Generates (s.ext.obj s.heap s.root) F coef)
    (hn : dot (s.ext.obj s.heap s.root) F (s.heap.treeAmp s.root F) (s.heap.treeAmp s.root F) = 1) {fuel : ℕ}
    (hfu : F.ids.length < fuel) (cmds : List (Cmd K)) :
    ∃ s', cmds.foldlM (Cmd.exec (hooks c) fuel) s = .ok s' ∧ s'.root = s.root ∧ s'.heap.IsTTN s.root F ∧
      s'.heap.CanonicalTree s.root F ∧
      dot (s'.ext.obj s'.heap s'.root) F (s'.heap.treeAmp s.root F) (s'.heap.treeAmp s.root F) = 1 ∧
      element (s'.ext.obj s'.heap s'.root) F (s'.heap.treeAmp s.root F) (s'.heap.treeAmp s.root F) =
        element (s.ext.obj s.heap s.root) F (s.heap.treeAmp s.root F) (s.heap.treeAmp s.root F) := by
  obtain ⟨g, k⟩ := start_keep c ht st hcalls hcan hn
  obtain ⟨s', e1, e2, -, e3, -, e45⟩ := cmds_ok (goodI_keep s.heap.next c h1 h2 h3 h1' h2' h3' hs h0 hcoef he hq (s0 := s.ext.obj s.heap s.root) ht
    st.fList hg) hfu cmds s ht hr hp ⟨g, k⟩
  exact ⟨s', e1, e2, e3, end_keep st g e2 e3 e45.1 e45.2⟩

/-! The exact solution of the linear equations is conservative. -/

/-- Evaluate the derivative at the given vectors, one after the other. -/
def collect (t0 : T) : List (List R) → List (List R) → (List (List R) → Plan T R) → Plan T R
  | [], ds, fin => fin ds
  | y :: ys, ds, fin => .eval t0 y fun d => collect t0 ys (ds ++ [d]) fin

omit [Zero T] [Field R] [StarRing R] in
theorem updates_collect [CommRing R] (D : List R → List R) (t0 : T) (fin : List (List R) → Plan T R) (ys : List (List R)) :
    ∀ ds, (collect t0 ys ds fin).updates D = (fin (ds ++ ys.map D)).updates D := by
  induction ys with
  | nil => intro ds; rw [collect]; simp
  | cons y ys ih => intro ds; rw [collect, Plan.updates, ih]; simp

/-- The unit vectors. -/
def basis (n : ℕ) : List (List R) := (List.range n).map fun l => (List.range n).map fun k => if k = l then 1 else 0

/-- The matrix with the given columns. -/
def ofCols (n : ℕ) (ds : List (List R)) : Matrix (Fin n) (Fin n) R := fun k l => (ds.getD l []).getD k 0

/-- A solver that finds the matrix from its columns, and returns the exact solution `exp(tau W) y0`. -/
noncomputable def exactSolver (t0 : T) (y0 : List ℂ) (tau : ℝ) : Plan T ℂ :=
  collect t0 (basis y0.length) [] fun ds =>
    .update (List.ofFn ((NormedSpace.exp (tau • ofCols y0.length ds)).mulVec fun k : Fin y0.length => y0.getD k 0)) .stop

/-- `W` as a matrix, and `y` as a vector, of Mathlib. -/
def asMat (n : ℕ) (W : ℕ → ℕ → ℂ) : Matrix (Fin n) (Fin n) ℂ := fun k l => W k.1 l.1

def asVec (n : ℕ) (y : List ℂ) : Fin n → ℂ := fun k => y.getD k.1 0

theorem cols_matVec (n : ℕ) (W : ℕ → ℕ → ℂ) : ofCols n ((basis n).map (matVec n W)) = asMat n W := by
  funext k l
  unfold ofCols basis matVec asMat
  simp [List.getD_eq_getElem?_getD, l.2, k.2]
  rw [Finset.sum_eq_single l.1]
  · simp [l.2]
  · intro m hm hml
    simp [Finset.mem_range.1 hm, hml]
  · intro q; exact absurd (Finset.mem_range.2 l.2) q

/-- What this solver hands to `updater`. -/
theorem C127_exact_value (t0 : T) (y0 : List ℂ) (tau : ℝ) (W : ℕ → ℕ → ℂ) :
    (exactSolver t0 y0 tau).updates (matVec y0.length W) =
      [List.ofFn ((NormedSpace.exp (tau • asMat y0.length W)).mulVec (asVec y0.length y0))] := by
  unfold exactSolver
  rw [updates_collect, List.nil_append, cols_matVec]
  rfl

theorem normSq_fin (n : ℕ) (y : List ℂ) : normSq n y = star (asVec n y) ⬝ᵥ asVec n y := by
  unfold normSq dotProduct
  rw [Finset.sum_range]
  exact Finset.sum_congr rfl fun k _ => mul_comm _ _

theorem form_fin (n : ℕ) (W : ℕ → ℕ → ℂ) (y : List ℂ) : form n W y = star (asVec n y) ⬝ᵥ (asMat n W).mulVec (asVec n y) := by
  unfold form Matrix.mulVec dotProduct
  rw [Finset.sum_range]
  refine Finset.sum_congr rfl fun k _ => ?_
  rw [Finset.sum_range, Finset.mul_sum]
  exact Finset.sum_congr rfl fun l _ => mul_assoc _ _ _

/-- **C127, the exact solution.** Unitarity: `exp(tau W)` keeps the norm and the expectation value of `W` if `W` is anti-Hermitian. So
`C127_one_site` is about all solvers that are exact or conserve these two. -/
theorem C127_exact : Conservative (exactSolver (T := T)) := by
  intro n W hW t0 y0 tau hy y hmem
  subst hy
  rw [C127_exact_value, List.mem_singleton] at hmem
  set n := y0.length with hn
  obtain ⟨M, hM⟩ : ∃ M : Matrix (Fin n) (Fin n) ℂ, M = asMat n W := ⟨_, rfl⟩
  obtain ⟨v, hv⟩ : ∃ v : Fin n → ℂ, v = asVec n y0 := ⟨_, rfl⟩
  rw [← hM, ← hv] at hmem
  have hlen : y.length = n := by rw [hmem]; simp
  set U := NormedSpace.exp (tau • M) with hU
  have hz : asVec n y = U.mulVec v := by
    funext k
    unfold asVec
    rw [hmem, List.getD_eq_getElem?_getD, List.getElem?_ofFn]
    simp
  have hMs : M.conjTranspose = -M := by
    funext k l
    rw [hM]
    exact hW l l.2 k k.2
  have hUs : U.conjTranspose * U = 1 := by
    rw [hU, ← Matrix.exp_conjTranspose, Matrix.conjTranspose_smul, hMs, star_trivial, smul_neg, Matrix.exp_neg]
    exact Matrix.nonsing_inv_mul _ ((Matrix.isUnit_iff_isUnit_det _).1 (Matrix.isUnit_exp _))
  have hcom : M * U = U * M := by
    have : Commute M (tau • M) := (Commute.refl M).smul_right tau
    exact this.exp_right
  have key : ∀ X : Matrix (Fin n) (Fin n) ℂ, X * U = U * X → star (U.mulVec v) ⬝ᵥ X.mulVec (U.mulVec v) = star v ⬝ᵥ X.mulVec v := by
    intro X hX
    rw [Matrix.mulVec_mulVec, hX, ← Matrix.mulVec_mulVec, Matrix.star_mulVec, Matrix.dotProduct_mulVec, Matrix.vecMul_vecMul, hUs,
      Matrix.vecMul_one]
  refine ⟨hlen, ?_, ?_⟩
  · rw [normSq_fin, normSq_fin, hz, ← hv]
    have := key 1 (by simp)
    simpa using this
  · rw [form_fin, form_fin, hz, ← hv, ← hM]
    exact key M hcom

/-! Instance: two tensors with two spins, the entangled state `3/5 |00> + 4/5 i |11>`, the generator `-i (σx ⊗ 1 + σz ⊗ σz)`, in real time (so that
the coefficient of the code is `hbar = 1`), with the exact solution of the local equations. -/

noncomputable def exSpins : Heap ℂ :=
  let h := (empty.alloc (Node.tensor (some ['a']) (some ⟨[2, 2], [3/5, 0, 0, 4/5 * Complex.I]⟩) none)).1
  let h := (h.alloc (Node.tensor (some ['b']) (some ⟨[2, 2], [1, 0, 0, 1]⟩) (some 1) true)).1
  let h := (h.alloc (Node.leaf (some ['x']))).1
  let h := (h.alloc (Node.leaf (some ['y']))).1
  ((h.link 0 0 1 1).link 0 1 2 0).link 1 0 3 0

theorem exSpins_reachable : Reachable exSpins := by
  unfold exSpins
  refine .link (.link (.link (.new _ (.new _ (.new _ (.new _ .empty rfl) rfl) rfl) rfl) ?_ ?_ ?_ ?_)
    ?_ ?_ ?_ ?_) ?_ ?_ ?_ ?_ <;> decide +kernel

theorem exSpins_acc (k : ℕ) : exSpins.acc 0 (k + 2) = none ∧ exSpins.acc 1 (k + 2) = none := by
  constructor <;> simp [exSpins, Heap.acc_def, Heap.access, Heap.link, Heap.alloc, Heap.upd, Heap.empty, Node.tensor, Node.leaf,
    Dict.get?, Dict.set]

theorem exSpins_full : exSpins.Full 0 ⟨[2, 2], [3/5, 0, 0, 4/5 * Complex.I]⟩ ∧ exSpins.Full 1 ⟨[2, 2], [1, 0, 0, 1]⟩ := by
  refine ⟨⟨rfl, rfl, by simp [Nd.Wf], by simp, fun k => ?_⟩, ⟨rfl, rfl, by simp [Nd.Wf], by simp, fun k => ?_⟩⟩ <;>
    rcases k with _ | _ | k
  · simp [Nd.ndim]; decide +kernel
  · simp [Nd.ndim]; decide +kernel
  · exact ⟨fun q => absurd (exSpins_acc k).1 q, fun q => absurd q (by simp [Nd.ndim])⟩
  · simp [Nd.ndim]; decide +kernel
  · simp [Nd.ndim]; decide +kernel
  · exact ⟨fun q => absurd (exSpins_acc k).2 q, fun q => absurd q (by simp [Nd.ndim])⟩

theorem exSpins_tensors : exSpins.tensors 0 exTwoForest = [0, 1] := by decide +kernel

theorem exSpins_ttn : exSpins.IsTTN 0 exTwoForest where
  links := linkInv_of_reachable exSpins_reachable
  tree := ⟨by decide +kernel, ⟨by decide +kernel, ⟨by decide +kernel, trivial, trivial⟩, by decide +kernel, trivial, trivial⟩,
    by decide +kernel, ⟨by decide +kernel, ⟨fun _ => rfl, trivial, trivial⟩, fun _ => rfl, trivial, trivial⟩⟩
  leaf := rfl
  lt := by decide +kernel
  full := by
    rw [exSpins_tensors]
    intro t ht
    simp only [List.mem_cons, List.not_mem_nil, or_false] at ht
    rcases ht with rfl | rfl
    · exact ⟨_, exSpins_full.1⟩
    · exact ⟨_, exSpins_full.2⟩
  dims := by decide +kernel
  names := by
    rw [exSpins_tensors]
    intro t ht
    simp only [List.mem_cons, List.not_mem_nil, or_false] at ht
    rcases ht with rfl | rfl
    · exact ⟨['a'], rfl⟩
    · exact ⟨['b'], rfl⟩

theorem exSpins_bonds : exSpins.bonds 0 exTwoForest = [(0, 0, 1, 1)] := by decide +kernel

theorem exSpins_canonical : exSpins.Canonical 1 1 := by
  refine ⟨⟨[2, 2], [1, 0, 0, 1]⟩, rfl, by simp [Nd.ndim], fun z w hz hw => ?_⟩
  change z < 2 at hz
  change w < 2 at hw
  obtain rfl | rfl : z = 0 ∨ z = 1 := by omega
  all_goals obtain rfl | rfl : w = 0 ∨ w = 1 := by omega
  all_goals simp [sumIdx, Nd.get, ravel, Finset.sum_range_succ]

/-- What has links. -/
theorem exSpins_links {t k l j : ℕ} (h : exSpins.acc t k = some (l, j)) :
    (t, k, l, j) ∈ [(0, 0, 1, 1), (0, 1, 2, 0), (1, 0, 3, 0), (1, 1, 0, 0), (2, 0, 0, 1), (3, 0, 1, 0)] := by
  have hlt : t < 4 := (exSpins_ttn.links.lt h).1
  have hm := (mem_linkages exSpins_ttn.links.wf).2 h
  have key : ∀ t < 4, ∀ p ∈ exSpins.linkages t, (t, p) ∈ [(0, 0, 1, 1), (0, 1, 2, 0), (1, 0, 3, 0), (1, 1, 0, 0), (2, 0, 0, 1), (3, 0, 1, 0)] := by
    decide +kernel
  exact key t hlt _ hm

noncomputable def exSpinTerms : List (Term ℝ ℂ) :=
  [[(2, .mat ⟨[2, 2], [0, -Complex.I, -Complex.I, 0]⟩)],
    [(2, .mat ⟨[2, 2], [-Complex.I, 0, 0, Complex.I]⟩), (3, .mat ⟨[2, 2], [1, 0, 0, -1]⟩)]]

noncomputable def exSpinState : State ℝ (Ext ℝ ℂ) ℂ := ⟨exSpins, 0, ⟨exSpinTerms, none, some 0, [], []⟩, []⟩

noncomputable def exSpinCfg : Config ℝ ℝ ℂ where
  imaginary := false
  sqrt z := (Real.sqrt z.re : ℂ)
  coef := coefficient Complex.I 1
  initEnergy := none
  solver := exactSolver
  svd := trivialSvd
  svdU := trivialSvd

theorem exSpin_start : Start exSpinState.ext exSpins where
  fList := rfl
  const := by
    intro term ht p hp t t'
    simp only [exSpinState, exSpinTerms, List.mem_cons, List.not_mem_nil, or_false] at ht
    rcases ht with rfl | rfl <;> simp only [List.mem_cons, List.not_mem_nil, or_false] at hp
    · subst hp; rfl
    · rcases hp with rfl | rfl <;> rfl
  leaf := by
    intro term ht p hp
    simp only [exSpinState, exSpinTerms, List.mem_cons, List.not_mem_nil, or_false] at ht
    rcases ht with rfl | rfl <;> simp only [List.mem_cons, List.not_mem_nil, or_false] at hp
    · subst hp; exact ⟨rfl, by decide +kernel⟩
    · rcases hp with rfl | rfl <;> exact ⟨rfl, by decide +kernel⟩
  fits := by
    intro term ht t k l j hl hlf
    have hm := exSpins_links hl
    simp only [exSpinState, exSpinTerms, List.mem_cons, List.not_mem_nil, or_false, Prod.mk.injEq] at ht hm
    rcases hm with ⟨rfl, rfl, rfl, rfl⟩ | ⟨rfl, rfl, rfl, rfl⟩ | ⟨rfl, rfl, rfl, rfl⟩ | ⟨rfl, rfl, rfl, rfl⟩ | ⟨rfl, rfl, rfl, rfl⟩ |
      ⟨rfl, rfl, rfl, rfl⟩
    · cases hlf
    · rcases ht with rfl | rfl <;> exact ⟨by simp [Nd.Wf, TermOp.at], rfl⟩
    · rcases ht with rfl | rfl
      · rfl
      · exact ⟨by simp [Nd.Wf, TermOp.at], rfl⟩
    · cases hlf
    · cases hlf
    · cases hlf
  empty := by
    intro l hl
    rcases l with _ | _ | _ | _ | l
    · cases hl
    · cases hl
    · rfl
    · rfl
    · rfl
  marks := by
    intro t k hk hx
    obtain ⟨⟨l, j⟩, h⟩ := Option.ne_none_iff_exists'.1 hk
    have hm := exSpins_links h
    simp only [List.mem_cons, List.not_mem_nil, or_false, Prod.mk.injEq] at hm
    rcases hm with ⟨rfl, rfl, rfl, rfl⟩ | ⟨rfl, rfl, rfl, rfl⟩ | ⟨rfl, rfl, rfl, rfl⟩ | ⟨rfl, rfl, rfl, rfl⟩ | ⟨rfl, rfl, rfl, rfl⟩ |
      ⟨rfl, rfl, rfl, rfl⟩
    · exact absurd rfl hx
    · exact absurd rfl hx
    · intro A _ _ _; exact exSpins_canonical
    · intro A _ _ _; exact exSpins_canonical
    · intro A _ q; cases q
    · intro A _ q; cases q

theorem exSpin_canon : exSpins.CanonicalTree 0 exTwoForest := by
  intro e he
  rw [exSpins_bonds, List.mem_singleton] at he
  subst he; exact exSpins_canonical

theorem exSpin_leaves : exSpins.leafList 0 exTwoForest = [(3, 2), (2, 2)] := by decide +kernel

theorem exSpin_norm : dot (exSpinState.ext.obj exSpins 0) exTwoForest (exSpins.treeAmp 0 exTwoForest) (exSpins.treeAmp 0 exTwoForest) = 1 := by
  have h1 : variation (exSpinState.ext.obj exSpins 0) exTwoForest 0 (some ⟨[2, 2], [3/5, 0, 0, 4/5 * Complex.I]⟩) =
      exSpins.treeAmp 0 exTwoForest := funext fun w => amp_self exSpins_full.1.array exTwoForest w
  rw [← h1]
  refine (dot_coord (s := exSpinState.ext.obj exSpins 0) (Y := ⟨[2, 2], [3/5, 0, 0, 4/5 * Complex.I]⟩) exSpins_ttn exSpin_canon
    (fun e _ q => exSpin_start.empty _ q) exSpins_full.1 exSpins_full.1.wf rfl).trans ?_
  have c3 : (starRingEnd ℂ) 3 = 3 := Complex.conj_ofNat 3
  have c4 : (starRingEnd ℂ) 4 = 4 := Complex.conj_ofNat 4
  have c5 : (starRingEnd ℂ) 5 = 5 := Complex.conj_ofNat 5
  simp [normSq, Finset.sum_range_succ, c3, c4, c5]
  ring_nf
  simp
  norm_num

theorem exSpin_generates : Generates (exSpinState.ext.obj exSpins 0) exTwoForest 1 := by
  intro x y hx hy
  replace hx : ∀ p ∈ exSpins.leafList 0 exTwoForest, x p.1 < p.2 := hx
  replace hy : ∀ p ∈ exSpins.leafList 0 exTwoForest, y p.1 < p.2 := hy
  rw [exSpin_leaves] at hx hy
  have a1 := hx (3, 2) (by simp)
  have a2 := hx (2, 2) (by simp)
  have b1 := hy (3, 2) (by simp)
  have b2 := hy (2, 2) (by simp)
  simp only at a1 a2 b1 b2
  have key : ∀ x y : ℕ → ℕ, hEntry (exSpinState.ext.obj exSpins 0) exTwoForest x y =
      (if x 3 = y 3 then (1 : ℂ) else 0) * (⟨[2, 2], [0, -Complex.I, -Complex.I, 0]⟩ : Nd ℂ).get [x 2, y 2] +
      (⟨[2, 2], [1, 0, 0, -1]⟩ : Nd ℂ).get [x 3, y 3] * (⟨[2, 2], [-Complex.I, 0, 0, Complex.I]⟩ : Nd ℂ).get [x 2, y 2] := by
    intro x y
    unfold hEntry termEntry
    have e1 : (exSpinState.ext.obj exSpins 0).allTerms none = exSpinTerms := rfl
    have e2 : (exSpinState.ext.obj exSpins 0).heap.leafList (exSpinState.ext.obj exSpins 0).root exTwoForest = [(3, 2), (2, 2)] := exSpin_leaves
    rw [e1, e2]
    simp [exSpinTerms, opOn, TermOp.at, opEntry]
  rw [key, key]
  obtain p1 | p1 : x 3 = 0 ∨ x 3 = 1 := by omega
  all_goals obtain p2 | p2 : x 2 = 0 ∨ x 2 = 1 := by omega
  all_goals obtain p3 | p3 : y 3 = 0 ∨ y 3 = 1 := by omega
  all_goals obtain p4 | p4 : y 2 = 0 ∨ y 2 = 1 := by omega
  all_goals rw [p1, p2, p3, p4]
  all_goals simp [Nd.get, ravel]

/-- The claim for the example; the hypotheses are those of `C127_one_site` and those on the second decomposition. -/
example (cmds : List (Cmd ℝ)) : ∃ s', cmds.foldlM (Cmd.exec (hooks exSpinCfg) 5) exSpinState = .ok s' ∧
    s'.root = 0 ∧ s'.heap.IsTTN 0 exTwoForest ∧ s'.heap.CanonicalTree 0 exTwoForest ∧
    dot (s'.ext.obj s'.heap s'.root) exTwoForest (s'.heap.treeAmp 0 exTwoForest) (s'.heap.treeAmp 0 exTwoForest) = 1 ∧
    element (s'.ext.obj s'.heap s'.root) exTwoForest (s'.heap.treeAmp 0 exTwoForest) (s'.heap.treeAmp 0 exTwoForest) =
      element (exSpinState.ext.obj exSpins 0) exTwoForest (exSpins.treeAmp 0 exTwoForest) (exSpins.treeAmp 0 exTwoForest) := by
  refine C127_sweeps exSpinCfg trivialSvd_shape trivialSvd_iso trivialSvd_exact trivialSvd_shape trivialSvd_iso
    trivialSvd_exact C127_exact (by simp [exSpinCfg]) (coef := 1) one_ne_zero ?_ ?_
    (s := exSpinState) exSpins_ttn ⟨rfl, ?_⟩ ?_ exSpin_start rfl exSpin_canon exSpin_generates exSpin_norm (by decide) cmds
  · intro time h
    cases time with
    | none => cases h
    | some t => rfl
  · simp [exSpinCfg]
  · show ∀ e ∈ exSpins.bonds 0 exTwoForest, (exSpins.node e.2.2.1).axis = some e.2.2.2
    decide +kernel
  · show exSpins.PlainNames (exSpins.tensors 0 exTwoForest)
    rw [exSpins_tensors]
    intro t ht n hn
    simp only [List.mem_cons, List.not_mem_nil, or_false] at ht
    rcases ht with rfl | rfl
    · have : n = ['a'] := (Option.some.inj hn).symm
      subst this; decide
    · have : n = ['b'] := (Option.some.inj hn).symm
      subst this; decide

end SplitProp
