import Verif.Lemmas.Splitting2
import Verif.Props.C28

/-!
C67: the right-hand sides that `ProjectorSplitting` (`minitn/heom/propagate2.py`) gives to the ODE solver.

`Right` (in `Verif.Spec.Splitting2`) says what is claimed of one call.
-/

open Py

namespace Splitting2

open Heap ML SplitProp Sweep

variable {K T R : Type} [Zero T] [Field R] [StarRing R]

/-- The invariant before the first sweep. -/
theorem good_start {s : State K (Ext T R) R} (st : Start s.ext s.heap) (hc : s.ext.calls = []) (h1 : s.ext.hList.length ≤ 1) :
    Good1 s.heap.next s.ext s.heap s.root :=
  ⟨⟨Nat.le_refl _, st.fList, st.const, st.leaf, st.fits, st.empty, st.marks, by rw [hc]; intro call hcall; cases hcall⟩, h1⟩

/-- **C67, with at most one term.** Start with a tree tensor network whose only root is the root of the object, and make any steps one
after the other, with any solver that keeps to vectors of the right length. They return normally, the root and the links are as before, and
in every call of the right-hand side that the solver made the result was the derivative of the energy of the present state. What is
missing is a Hamiltonian of several terms; see `C67_two_terms_violated`. -/
theorem C67_one_term_partial [Field K] (c : Config K T R) (h0 : ∀ t0 y0 tau, (c.solver t0 y0 tau).Sane y0.length)
    (h1 : SvdShape c.svd) (h2 : SvdShape c.svdU) (h3 : SvdIso c.svd) (h4 : SvdIso c.svdU) {s : State K (Ext T R) R} {F : Forest}
    (ht : s.heap.IsTTN s.root F) (hr : s.heap.Rooted s.root F) (hp : s.heap.PlainNames (s.heap.tensors s.root F))
    (st : Start s.ext s.heap) (hc : s.ext.calls = []) (hone : s.ext.hList.length ≤ 1) {fuel : ℕ} (hfu : F.ids.length < fuel)
    (steps : List (Step K)) :
    ∃ s', steps.foldlM (Step.exec (hooks c) fuel) s = .ok s' ∧ s'.root = s.root ∧ (∀ t k, s'.heap.acc t k = s.heap.acc t k) ∧
      s'.heap.IsTTN s.root F ∧ s'.heap.Rooted s.root F ∧ ∀ call ∈ s'.ext.calls, Right call := by
  obtain ⟨s', e1, e2, e3, e4, e5, e6⟩ := cmds_ok (goodI s.heap.next c h0 h1 h2 h3 h4) hfu
    (steps.map fun x => match x with | .one tau b => Cmd.split tau b | .two tau => Cmd.unite tau) s ht hr hp (good_start st hc hone)
  refine ⟨s', ?_, e2, e3, e4, e5, e6.1.calls⟩
  rw [← e1]
  generalize s = s
  clear * -
  induction steps generalizing s with
  | nil => rfl
  | cons x steps ih =>
    rw [List.map_cons, List.foldlM_cons, List.foldlM_cons]
    have : Step.exec (hooks c) fuel s x = Cmd.exec (hooks c) fuel s (match x with | .one tau b => Cmd.split tau b | .two tau => Cmd.unite tau) := by
      cases x <;> rfl
    rw [this]
    congr 1
    funext s1
    exact ih s1

/-- **C67.** In one `one_site_step` every tensor is propagated exactly once for `ode_inter`, every link between two tensors exactly once
for `-ode_inter`, and nothing else. -/
theorem C67_one_site_order_partial [Field K] (c : Config K T R) (h0 : ∀ t0 y0 tau, (c.solver t0 y0 tau).Sane y0.length)
    (h1 : SvdShape c.svd) (h2 : SvdShape c.svdU) (h3 : SvdIso c.svd) (h4 : SvdIso c.svdU) {s : State K (Ext T R) R} {F : Forest}
    (ht : s.heap.IsTTN s.root F) (hr : s.heap.Rooted s.root F) (hp : s.heap.PlainNames (s.heap.tensors s.root F))
    (st : Start s.ext s.heap) (hc : s.ext.calls = []) (hone : s.ext.hList.length ≤ 1) {fuel : ℕ} (hfu : F.ids.length < fuel)
    (tau : K) (backward : Bool) :
    ∃ s' es sites, Step.exec (hooks c) fuel s (.one tau backward) = .ok s' ∧ s'.log = s.log ++ es ∧ Recorded s.heap es sites ∧
      OneSite s.heap s.root F tau sites := by
  obtain ⟨s', e1, e2, iv, es, e3, e4⟩ := splitStep_ok (goodI s.heap.next c h0 h1 h2 h3 h4).toGoodS ht hr hp (good_start st hc hone)
    (lt_of_le_of_lt F.depth_le hfu) tau backward
  refine ⟨s', es, _, e1, e3, e4, ?_⟩
  have h1 := siteF_oneSite ht tau
  cases backward with
  | false => exact ⟨fun _ => false, by simpa using h1⟩
  | true =>
    refine ⟨fun _ => true, ?_⟩
    simp only [if_true]
    refine (List.reverse_perm _).trans ((h1.map _).trans (List.Perm.of_eq ?_))
    simp only [List.map_append, List.map_map]
    rfl

/-! Instance: the network of C28, and one explicit Euler step. -/

/-- The solver. -/
def exCfg2 : Config ℚ ℚ ℚ where
  solver t0 y0 tau := .eval t0 y0 fun d => .stop (List.zipWith (fun y d => y + tau * d) y0 d)
  svd := trivialSvd
  svdU := trivialSvd

theorem exCfg2_sane (t0 : ℚ) (y0 : List ℚ) (tau : ℚ) : (exCfg2.solver t0 y0 tau).Sane y0.length :=
  ⟨rfl, fun d hd => by simp [Solve.Sane, hd]⟩

/-- The second of the two terms of C28. -/
def exOne : List (Term ℚ ℚ) := exTerms.drop 1

theorem exOne_start : Start (exExt exOne none) exSq where
  fList := rfl
  const term h := exSt_start.const term (List.mem_of_mem_drop h)
  leaf term h := exSt_start.leaf term (List.mem_of_mem_drop h)
  fits term h := exSt_start.fits term (List.mem_of_mem_drop h)
  empty := exSt_start.empty
  marks := exSt_start.marks

/-- The claim for the example: any steps. -/
example (steps : List (Step ℚ)) : ∃ s', steps.foldlM (Step.exec (hooks exCfg2) 5) (exSt exOne none) = .ok s' ∧
    ∀ call ∈ s'.ext.calls, Right call :=
  let ⟨s', e, _, _, _, _, h⟩ := C67_one_term_partial exCfg2 exCfg2_sane trivialSvd_shape trivialSvd_shape trivialSvd_iso trivialSvd_iso
    (s := exSt exOne none) exSq_ttn exSq_rooted exSq_plain exOne_start rfl (by decide) (by decide) steps
  ⟨s', e, h⟩

/-- In one sweep the right-hand side is called for tensor 1, for the tensor on the link and for tensor 0. -/
example : (([Step.one (1/2) false].foldlM (Step.exec (hooks exCfg2) 5) (exSt exOne none)).toOption.map fun s =>
    s.ext.calls.map fun c => (c.tensor, c.value.data.length)) = some [(1, 4), (5, 4), (0, 4)] := by
  decide +kernel

/-- The first call in `one_site_step(backward=True)` with the two terms of C28: for the root, before anything has changed. -/
def exCall : Call ℚ ℚ :=
  match splitStep (hooks exCfg2) 5 (1/2) true (exSt exTerms none) with
  | .ok s => s.ext.calls.getD 0 ⟨(exExt exTerms none).obj exSq 0, 0, true, ⟨[], []⟩, []⟩
  | .error _ => ⟨(exExt exTerms none).obj exSq 0, 0, true, ⟨[], []⟩, []⟩

theorem exCall_tree : IsTree exCall.obj.heap 0 none exTwoForest :=
  ⟨by decide +kernel, ⟨by decide +kernel, ⟨by decide +kernel, trivial, trivial⟩, by decide +kernel, trivial, trivial⟩,
    by decide +kernel, ⟨by decide +kernel, ⟨by decide +kernel, trivial, trivial⟩, by decide +kernel, trivial, trivial⟩⟩

/-- **C67, with two terms the property is violated.** `term_visitor` empties the caches of the tensors only once, before the first
term, so that the mean fields of the second term are those of the first. On a network of two tensors, with the terms `1 ⊗ X` and `Y ⊗ Z`,
already the first right-hand side, at the root and before anything has changed, is not the derivative of the energy. -/
theorem C67_two_terms_violated : Start (exExt exTerms none) exSq ∧ ∃ s', Step.exec (hooks exCfg2) 5 (exSt exTerms none) (.one (1/2) true) = .ok s' ∧
    ∃ call, s'.ext.calls[0]? = some call ∧ ¬ Right call := by
  refine ⟨exSt_start, ?_⟩
  have key : ((splitStep (hooks exCfg2) 5 (1/2) true (exSt exTerms none)).toOption.map fun s => s.ext.calls.length) = some 3 := by
    decide +kernel
  have hc : exCall = exCall := rfl
  conv_rhs at hc => unfold exCall
  show ∃ s', splitStep (hooks exCfg2) 5 (1/2) true (exSt exTerms none) = .ok s' ∧ _
  cases e : splitStep (hooks exCfg2) 5 (1/2) true (exSt exTerms none) with
  | error x => rw [e] at key; cases key
  | ok s =>
    rw [e] at key hc
    simp only [Except.toOption, Option.map_some, Option.some.injEq] at key
    refine ⟨s, rfl, exCall, ?_, fun h => ?_⟩
    · rw [hc]
      simp only
      rw [List.getD_eq_getElem?_getD, List.getElem?_eq_getElem (by omega)]
      rfl
    · obtain ⟨F, h1, -, A, G, h2, h3, h4, h5, h6, -⟩ := h.net
      have ht0 : exCall.tensor = 0 := by decide +kernel
      rw [ht0] at h1 h2 h3
      obtain rfl : exTwoForest = F := exCall_tree.unique h1.tree
      have hA : exCall.obj.heap.array 0 = some ⟨[2, 2], [1, 2, 3, 5]⟩ := by decide +kernel
      rw [hA] at h2
      obtain rfl := (Option.some.inj h2).symm
      have hv : exCall.value = ⟨[4], [32/25, 19/25, -426/25, -292/25]⟩ := by decide +kernel
      rw [hv] at h6
      have hG : G = ⟨[2, 2], [32/25, 19/25, -426/25, -292/25]⟩ := by
        obtain ⟨sh, dt⟩ := G
        simp only [Nd.mk.injEq] at h5 h6 ⊢
        exact ⟨h5, h6.2.symm⟩
      subst hG
      have := h3 ⟨[2, 2], [1, 0, 0, 0]⟩ (by unfold Nd.Wf; decide) rfl
      exact absurd this (by decide +kernel)

end Splitting2
