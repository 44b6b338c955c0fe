import Verif.Lemmas.SplitProp2
import Verif.Props.C26
import Verif.Props.C27
import Verif.Props.C32
import Verif.Props.C52

/-!
C28: the mean fields that the projector-splitting integrator takes from its cache.

`Call.Right` (in `Verif.Spec.SplitProp`) says what is claimed of one call of the right-hand side.
-/

open Py

namespace SplitProp

open Heap ML Sweep

variable {K T R : Type} [Zero T] [Field R] [StarRing R]

/-- A list of sweeps, one after the other. -/
theorem cmds_ok [Field K] {E : Type} {I J : E → Heap R → ℕ → Prop} {H : Hooks K E R} (hH : H.GoodI I J) {F : Forest} {fuel : ℕ}
    (hfu : F.ids.length < fuel) (cmds : List (Cmd K)) : ∀ s : State K E R, s.heap.IsTTN s.root F → s.heap.Rooted s.root F →
      s.heap.PlainNames (s.heap.tensors s.root F) → J s.ext s.heap s.root →
      ∃ s', cmds.foldlM (Cmd.exec H fuel) s = .ok s' ∧ s'.root = s.root ∧ (∀ t k, s'.heap.acc t k = s.heap.acc t k) ∧
        s'.heap.IsTTN s.root F ∧ s'.heap.Rooted s.root F ∧ J s'.ext s'.heap s'.root := by
  have hd : F.depth < fuel := lt_of_le_of_lt F.depth_le hfu
  induction cmds with
  | nil => intro s ht hr hp hJ; exact ⟨s, rfl, rfl, fun _ _ => rfl, ht, hr, hJ⟩
  | cons c cmds ih =>
    intro s ht hr hp hJ
    obtain ⟨s1, e1, e2, iv⟩ : ∃ s1, Cmd.exec H fuel s c = .ok s1 ∧ s1.root = s.root ∧ Inv I s.heap s.root s1 := by
      cases c with
      | split tau b =>
        obtain ⟨s1, e1, e2, iv, -⟩ := splitStep_ok hH.toGoodS ht hr hp hJ hd tau b
        exact ⟨s1, e1, e2, iv⟩
      | unite tau =>
        obtain ⟨s1, e1, e2, iv, -⟩ := uniteStep_ok hH ht hr hp hJ hfu tau
        exact ⟨s1, e1, e2, iv⟩
      | rSplit snd tau =>
        obtain ⟨s1, e1, e2, iv, -⟩ := rSplitStep_ok hH.toGoodS ht hr hp hJ hd snd tau
        exact ⟨s1, e1, e2, iv⟩
    obtain ⟨f1, f2, f3⟩ := iv.final ht e2
    obtain ⟨s', g1, g2, g3, g4, g5, g6⟩ := ih s1 (e2 ▸ f1) (e2 ▸ f2) (e2 ▸ f3) (hH.again _ _ _ iv.inv)
    refine ⟨s', ?_, g2.trans e2, fun t k => (g3 t k).trans (iv.acc t k), e2 ▸ g4, e2 ▸ g5, g6⟩
    rw [List.foldlM_cons, e1]
    exact g1

/-- **C28, without time-dependent terms.** Start with a tree tensor network whose only root is the root of the object, and make any
sweeps one after the other, with any solver. They return normally, and in every call of the right-hand side
that the solver made, each mean field that could be taken from the cache was the one of the present arrays, and the result was the
derivative of the energy of the present state, as with an empty cache. What is missing is an `f_list`; see `C28_f_list_violated`. -/
theorem C28_sweeps_partial [Field K] (c : Config K T R) (h1 : SvdShape c.svd) (h2 : SvdShape c.svdU) (h3 : SvdIso c.svd)
    (h4 : SvdIso c.svdU) {s : State K (Ext T R) R} {F : Forest} (ht : s.heap.IsTTN s.root F) (hr : s.heap.Rooted s.root F)
    (hp : s.heap.PlainNames (s.heap.tensors s.root F)) (st : Start s.ext s.heap) (hc : s.ext.calls = []) {fuel : ℕ}
    (hfu : F.ids.length < fuel) (cmds : List (Cmd K)) :
    ∃ s', cmds.foldlM (Cmd.exec (hooks c) fuel) s = .ok s' ∧ s'.root = s.root ∧ (∀ call ∈ s'.ext.calls, call.Right c) := by
  have g : Good (Call.Right c) s.heap.next s.ext s.heap s.root :=
    ⟨Nat.le_refl _, st.fList, st.const, st.leaf, st.fits, st.empty, st.marks, by rw [hc]; intro call hcall; cases hcall⟩
  obtain ⟨s', e1, e2, -, -, -, e3⟩ := cmds_ok (goodI s.heap.next c h1 h2 h3 h4) hfu cmds s ht hr hp g
  exact ⟨s', e1, e2, e3.calls⟩

/-! Instance: the network of C32 with tensors of dimension 2, and explicit Euler steps. -/

/-- The network. -/
def exSq : Heap ℚ := exEomHeap.setArray 1 (some ⟨[2, 2], [3/5, -4/5, 4/5, 3/5]⟩)

/-- One explicit Euler step in imaginary time. -/
def exCfg : Config ℚ ℚ ℚ where
  imaginary := true
  sqrt := id
  coef := fun _ => 1
  initEnergy := none
  solver t0 y0 tau := .eval t0 y0 fun d => .update (List.zipWith (fun y d => y - tau * d) y0 d) (.reform .stop)
  svd := trivialSvd
  svdU := trivialSvd

/-- Two terms. -/
def exTerms : List (Term ℚ ℚ) := [[(3, .mat ⟨[2, 2], [0, 1, 1, 0]⟩)], [(2, .mat ⟨[2, 2], [1, 2, 2, 0]⟩), (3, .mat ⟨[2, 2], [1, 0, 0, -1]⟩)]]

/-- The object before the first sweep. -/
def exExt (hl : List (Term ℚ ℚ)) (fl : Option (List (Term ℚ ℚ))) : Ext ℚ ℚ := ⟨hl, fl, none, [], []⟩

def exSt (hl : List (Term ℚ ℚ)) (fl : Option (List (Term ℚ ℚ))) : State ℚ (Ext ℚ ℚ) ℚ := ⟨exSq, 0, exExt hl fl, []⟩

theorem exSq_acc (t k : ℕ) : exSq.acc t k = exEomHeap.acc t k := by
  unfold exSq
  rw [Heap.acc_def, Heap.acc_def]
  unfold Heap.access
  rw [node_setArray]; split
  · next e => subst e; rfl
  · rfl

theorem exSq_leaf (t : ℕ) : exSq.isLeaf t = exEomHeap.isLeaf t := by
  unfold exSq Heap.isLeaf
  rw [node_setArray]; split
  · next e => subst e; rfl
  · rfl

theorem exSq_full : exSq.Full 0 ⟨[2, 2], [1, 2, 3, 5]⟩ ∧ exSq.Full 1 ⟨[2, 2], [3/5, -4/5, 4/5, 3/5]⟩ := by
  refine ⟨⟨rfl, rfl, by simp [Nd.Wf], by decide, fun k => ?_⟩, ⟨rfl, rfl, by simp [Nd.Wf], by decide, fun k => ?_⟩⟩
  · rw [exSq_acc, exEomHeap_full.1.acc]
  · rw [exSq_acc, exEomHeap_full.2.acc]; exact Iff.rfl

theorem exSq_tensors : exSq.tensors 0 exTwoForest = [0, 1] := by decide +kernel

theorem exSq_ttn : exSq.IsTTN 0 exTwoForest where
  links := exEomHeap_ttn.links.congr' (fun c => by
    unfold exSq Heap.access
    rw [node_setArray]; split
    · next e => subst e; rfl
    · rfl) rfl
  tree := ⟨by decide +kernel, ⟨by decide +kernel, ⟨by decide +kernel, trivial, trivial⟩, by decide +kernel, trivial, trivial⟩,
    by decide +kernel, ⟨by decide +kernel, ⟨fun _ => rfl, trivial, trivial⟩, fun _ => rfl, trivial, trivial⟩⟩
  leaf := rfl
  lt := by decide +kernel
  full := by
    rw [exSq_tensors]
    intro t ht
    simp only [List.mem_cons, List.not_mem_nil, or_false] at ht
    rcases ht with rfl | rfl
    · exact ⟨_, exSq_full.1⟩
    · exact ⟨_, exSq_full.2⟩
  dims := by decide +kernel
  names := by
    rw [exSq_tensors]
    intro t ht
    simp only [List.mem_cons, List.not_mem_nil, or_false] at ht
    rcases ht with rfl | rfl
    · exact ⟨['a'], rfl⟩
    · exact ⟨['b'], rfl⟩

theorem exSq_rooted : exSq.Rooted 0 exTwoForest :=
  ⟨rfl, (by decide +kernel : ∀ e ∈ exSq.bonds 0 exTwoForest, (exSq.node e.2.2.1).axis = some e.2.2.2)⟩

theorem exSq_plain : exSq.PlainNames (exSq.tensors 0 exTwoForest) := by
  rw [exSq_tensors]
  intro t ht n hn
  simp only [List.mem_cons, List.not_mem_nil, or_false] at ht
  rcases ht with rfl | rfl
  · have : n = ['a'] := (Option.some.inj hn).symm
    subst this; decide
  · have : n = ['b'] := (Option.some.inj hn).symm
    subst this; decide

theorem exSq_canonical : exSq.Canonical 1 1 := by
  refine ⟨⟨[2, 2], [3/5, -4/5, 4/5, 3/5]⟩, rfl, by decide, fun z w hz hw => ?_⟩
  change z < 2 at hz
  change w < 2 at hw
  obtain rfl | rfl : z = 0 ∨ z = 1 := by omega
  all_goals obtain rfl | rfl : w = 0 ∨ w = 1 := by omega
  all_goals decide +kernel

/-- What has links. -/
theorem exSq_links {t k l j : ℕ} (h : exSq.acc t k = some (l, j)) :
    (t, k, l, j) ∈ [(0, 0, 1, 1), (0, 1, 2, 0), (1, 0, 3, 0), (1, 1, 0, 0), (2, 0, 0, 1), (3, 0, 1, 0)] := by
  have hlt : t < 4 := (exSq_ttn.links.lt h).1
  have hm := (mem_linkages exSq_ttn.links.wf).2 h
  have key : ∀ t < 4, ∀ p ∈ exSq.linkages t, (t, p) ∈ [(0, 0, 1, 1), (0, 1, 2, 0), (1, 0, 3, 0), (1, 1, 0, 0), (2, 0, 0, 1), (3, 0, 1, 0)] := by
    decide +kernel
  exact key t hlt _ hm

theorem exSt_start : Start (exExt exTerms none) exSq where
  fList := rfl
  const := by
    intro term ht p hp t t'
    simp only [exExt, exTerms, List.mem_cons, List.not_mem_nil, or_false] at ht
    rcases ht with rfl | rfl <;> simp only [List.mem_cons, List.not_mem_nil, or_false] at hp
    · subst hp; rfl
    · rcases hp with rfl | rfl <;> rfl
  leaf := by
    intro term ht p hp
    simp only [exExt, exTerms, List.mem_cons, List.not_mem_nil, or_false] at ht
    rcases ht with rfl | rfl <;> simp only [List.mem_cons, List.not_mem_nil, or_false] at hp
    · subst hp; exact ⟨rfl, by decide +kernel⟩
    · rcases hp with rfl | rfl <;> exact ⟨rfl, by decide +kernel⟩
  fits := by
    intro term ht t k l j hl hlf
    have hm := exSq_links hl
    simp only [exExt, exTerms, List.mem_cons, List.not_mem_nil, or_false, Prod.mk.injEq] at ht hm
    rcases hm with ⟨rfl, rfl, rfl, rfl⟩ | ⟨rfl, rfl, rfl, rfl⟩ | ⟨rfl, rfl, rfl, rfl⟩ | ⟨rfl, rfl, rfl, rfl⟩ | ⟨rfl, rfl, rfl, rfl⟩ |
      ⟨rfl, rfl, rfl, rfl⟩
    · cases hlf
    · rcases ht with rfl | rfl
      · rfl
      · exact ⟨by simp [Nd.Wf, TermOp.at], rfl⟩
    · rcases ht with rfl | rfl <;> exact ⟨by simp [Nd.Wf, TermOp.at], rfl⟩
    · cases hlf
    · cases hlf
    · cases hlf
  empty := by
    intro l hl
    rcases l with _ | _ | _ | _ | l
    · cases hl
    · cases hl
    · rfl
    · rfl
    · rfl
  marks := by
    intro t k hk hx
    obtain ⟨⟨l, j⟩, h⟩ := Option.ne_none_iff_exists'.1 hk
    have hm := exSq_links h
    simp only [List.mem_cons, List.not_mem_nil, or_false, Prod.mk.injEq] at hm
    rcases hm with ⟨rfl, rfl, rfl, rfl⟩ | ⟨rfl, rfl, rfl, rfl⟩ | ⟨rfl, rfl, rfl, rfl⟩ | ⟨rfl, rfl, rfl, rfl⟩ | ⟨rfl, rfl, rfl, rfl⟩ |
      ⟨rfl, rfl, rfl, rfl⟩
    · exact absurd rfl hx
    · exact absurd rfl hx
    · intro A _ _ _; exact exSq_canonical
    · intro A _ _ _; exact exSq_canonical
    · intro A _ q; cases q
    · intro A _ q; cases q

/-- The claim for the example: any sweeps. -/
example (cmds : List (Cmd ℚ)) : ∃ s', cmds.foldlM (Cmd.exec (hooks exCfg) 5) (exSt exTerms none) = .ok s' ∧ s'.root = 0 ∧
    (∀ call ∈ s'.ext.calls, call.Right exCfg) :=
  C28_sweeps_partial exCfg trivialSvd_shape trivialSvd_shape trivialSvd_iso trivialSvd_iso exSq_ttn exSq_rooted exSq_plain exSt_start rfl
    (by decide) cmds

/-- In one sweep the right-hand side is called for tensor 1, for the tensor on the link and for tensor 0. -/
example : (([Cmd.split (1/2) false].foldlM (Cmd.exec (hooks exCfg) 5) (exSt exTerms none)).toOption.map fun s =>
    s.ext.calls.map fun c => (c.tensor, c.value.data)) =
    some [(1, [-24/5, 1, -68/5, -8]), (5, [20/1021, 980/17357, -2600/17357, -130/1021]),
      (0, [190/17357, 215/17357, 1080/17357, 880/17357])] := by
  decide +kernel

/-- **C28, with an `f_list` the property is violated.** `remove_env` deletes the stored mean fields of the terms of `h_list` only. If the
same terms are given as `f_list` (they need not depend on time), the first call of the right-hand side in the first sweep uses a mean
field of arrays that are no longer there: its result is not the one that an empty cache gives. -/
theorem C28_f_list_violated : ∃ s', splitStep (hooks exCfg) 5 (1/2) false (exSt [] (some exTerms)) = .ok s' ∧
    ∃ call, s'.ext.calls[0]? = some call ∧ ¬ call.Right exCfg := by
  have key : ((splitStep (hooks exCfg) 5 (1/2) false (exSt [] (some exTerms))).toOption.bind fun s =>
      s.ext.calls[0]?.map fun c => (c.value.data, (sumTerms c.obj.heap.next c.cache c.tensor (c.value.shape.getD 0 0)
        { c.obj with env := [] }).toOption.map fun x => x.2.data)) = some (([-67/5, -48, -919/5, -501] : List ℚ), some ([-24/5, 1, -68/5, -8] : List ℚ)) := by
    decide +kernel
  cases e : splitStep (hooks exCfg) 5 (1/2) false (exSt [] (some exTerms)) with
  | error x => rw [e] at key; cases key
  | ok s =>
    rw [e] at key
    refine ⟨s, rfl, ?_⟩
    cases e2 : s.ext.calls[0]? with
    | none => simp [Except.toOption, e2] at key
    | some call =>
      refine ⟨call, rfl, fun hc => ?_⟩
      simp only [Except.toOption, Option.bind_some, e2, Option.map_some, Option.some.injEq, Prod.mk.injEq] at key
      obtain ⟨k1, k2⟩ := key
      obtain ⟨s', h⟩ := hc.fresh
      rw [h] at k2
      simp only [Option.map_some, Option.some.injEq] at k2
      rw [k1] at k2
      exact absurd k2 (by decide +kernel)

end SplitProp
