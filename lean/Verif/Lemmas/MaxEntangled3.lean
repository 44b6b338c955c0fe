import Verif.Lemmas.MaxEntangled2
import Verif.Props.C50

/-!
Lemmas for C108: the loop of `autocomplete(max_entangled=True)`.
-/

open Py
open scoped BigOperators

namespace ML

open Heap Davidson

variable {h0 h h' : Heap ℝ} {r : ℕ} {F : Forest} {dims : Dict (ℕ × ℕ × ℕ × ℕ) ℕ} {want : ℕ × ℕ → ℕ} {left right : ℕ → ℕ}

/-- Two heaps with the same objects but for arrays. -/
def SameShell (h h0 : Heap ℝ) : Prop := ∀ u, shell (h.node u) = shell (h0.node u)

theorem SameShell.access (hs : SameShell h h0) (u : ℕ) : h.access u = h0.access u := by
  have := congrArg Node.access (hs u)
  exact this

theorem SameShell.isLeaf (hs : SameShell h h0) (u : ℕ) : h.isLeaf u = h0.isLeaf u := by
  have := congrArg Node.isLeaf (hs u)
  exact this

theorem SameShell.axis (hs : SameShell h h0) (u : ℕ) : (h.node u).axis = (h0.node u).axis := by
  have := congrArg Node.axis (hs u)
  exact this

theorem SameShell.name (hs : SameShell h h0) (u : ℕ) : (h.node u).name = (h0.node u).name := by
  have := congrArg Node.name (hs u)
  exact this

theorem SameShell.children (hs : SameShell h h0) (u : ℕ) (b : Bool) : h.childrenDflt u b = h0.childrenDflt u b := by
  unfold childrenDflt Heap.children Heap.linkages
  simp only [hs.access, hs.isLeaf, hs.axis]

theorem mem_bottoms {t : ℕ} : t ∈ h0.bottoms r F ↔ t ∈ h0.tensors r F ∧ ∀ e ∈ h0.bonds r F, e.1 ≠ t := by
  unfold bottoms
  simp [List.mem_filter]

/-- The test of the code for a tensor with no tensor below it. -/
theorem isEmpty_iff (hb : Bare h0 r F dims want) {t : ℕ} (ht : t ∈ h0.tensors r F) :
    (h0.childrenDflt t false).isEmpty = true ↔ t ∈ h0.bottoms r F := by
  obtain ⟨h1, h2⟩ := mem_tensors.1 ht
  rw [List.isEmpty_iff, List.eq_nil_iff_forall_not_mem, mem_bottoms]
  constructor
  · refine fun hall => ⟨ht, fun e he q => ?_⟩
    obtain ⟨e1, e2⟩ := mem_bonds.1 he
    obtain ⟨x, k, y, l⟩ := e
    simp only at q e2
    subst q
    have hp := edges_props hb.links.wf hb.links.sym hb.tree hb.leaf
    have hlink := hp.1 _ e1
    simp only at hlink
    refine hall (k, y, l) ((mem_children hb.links.wf (by simp [h2])).2 ⟨hlink, fun hk => ?_, .inr e2⟩)
    rcases hb.axis ht with ⟨-, hax⟩ | ⟨p, i, k', he', hax⟩
    · rw [hax] at hk; cases hk
    · rw [hax] at hk
      cases hk
      obtain ⟨e1', -⟩ := mem_bonds.1 he'
      have hback := hb.links.sym _ _ _ _ (hp.1 _ e1')
      simp only at hback
      rw [hlink] at hback
      cases hback
      exact hp.2.2.2 _ _ _ _ e1 e1'
  · rintro ⟨-, hall⟩ ⟨k, y, l⟩ hx
    obtain ⟨q1, q2, q3⟩ := (mem_children hb.links.wf (by simp [h2])).1 hx
    have := hb.down ht q1 q2
    rcases q3 with q3 | q3
    · cases q3
    · exact hall _ (mem_bonds.2 ⟨this, q3⟩) rfl

/-- What hangs below a tensor with a pair of leaves. -/
theorem pair_children (hb : Bare h0 r F dims want) (hp : Pairs h0 r F want left right) {t : ℕ} (ht : t ∈ h0.bottoms r F) :
    ∃ j1 j2 p i, h0.childrenDflt t = [(1, left t, j1), (2, right t, j2)] ∧ (t, 1, left t, j1) ∈ F.edges r ∧ (t, 2, right t, j2) ∈ F.edges r ∧
      (p, i, t, 0) ∈ h0.bonds r F ∧ h0.acc t 0 = some (p, i) := by
  obtain ⟨ht1, ht2⟩ := mem_bottoms.1 ht
  obtain ⟨h1, h2⟩ := mem_tensors.1 ht1
  obtain ⟨f, f1, f2⟩ := hb.linkages h1
  obtain ⟨j1, e1⟩ := hp.left t ht
  obtain ⟨j2, e2⟩ := hp.right t ht
  have ho := hp.order t ht
  have hax := hp.axis t ht
  have q1 : f 1 = (left t, j1) := by
    have := f1 1 (by omega)
    rw [e1] at this
    exact (Option.some.inj this).symm
  have q2 : f 2 = (right t, j2) := by
    have := f1 2 (by omega)
    rw [e2] at this
    exact (Option.some.inj this).symm
  rcases hb.axis ht1 with ⟨rfl, -⟩ | ⟨p, i, k', he', hax'⟩
  · exact absurd ht hp.root
  rw [hax] at hax'
  cases hax'
  have hback := hb.links.sym _ _ _ _ ((edges_props hb.links.wf hb.links.sym hb.tree hb.leaf).1 _ (mem_bonds.1 he').1)
  refine ⟨j1, j2, p, i, ?_, hb.down ht1 e1 (by rw [hax]; simp), hb.down ht1 e2 (by rw [hax]; simp), he', hback⟩
  unfold childrenDflt Heap.children
  rw [hax, if_neg (by simp), f2, ho]
  simp [List.range_succ, q1, q2]

/-- The dimension that the code finds for the pair. -/
theorem primary_ok {t j1 j2 : ℕ} (d1 : Dict.get! dims (t, 1, left t, j1) = .ok (want (t, 1)))
    (d2 : Dict.get! dims (t, 2, right t, j2) = .ok (want (t, 1))) {x : ℕ × ℕ}
    (hx : primaryLeaf h dims t [(1, left t, j1), (2, right t, j2)] = .ok x) : x.2 = want (t, 1) := by
  unfold primaryLeaf at hx
  split at hx
  · cases hx
  · split at hx
    · unfold primaryLeaf at hx
      split at hx
      · cases hx
      · split at hx
        · cases hx
        · rw [d2, ok_bind] at hx
          cases hx
          rfl
    · rw [d1, ok_bind] at hx
      cases hx
      rfl

theorem pair_dims (hb : Bare h0 r F dims want) (hp : Pairs h0 r F want left right) {t j1 j2 p i : ℕ} (ht : t ∈ h0.bottoms r F)
    (e1 : (t, 1, left t, j1) ∈ F.edges r) (e2 : (t, 2, right t, j2) ∈ F.edges r) (e3 : (p, i, t, 0) ∈ h0.bonds r F) :
    Dict.get! dims (t, 1, left t, j1) = .ok (want (t, 1)) ∧ Dict.get! dims (t, 2, right t, j2) = .ok (want (t, 1)) ∧
      Dict.get! dims (p, i, t, 0) = .ok (want (t, 0)) := by
  unfold Dict.get!
  refine ⟨by rw [(hb.asked _ e1).1], by rw [(hb.asked _ e2).1, hp.same t ht], by rw [(hb.asked _ (mem_bonds.1 e3).1).1, hb.ends _ e3]⟩

variable {cfg : Davidson.Config} {lib : ∀ N, Lib N} {s : Obj ℝ ℝ} {rank : Nd ℝ → ℕ}

/-- The rows of the array of a tensor with a pair of leaves. -/
theorem pairArray_ok (h1 : ∀ N, OrthOk (lib N).orth) (h2 : ∀ N, EighOk (lib N).eigh) (hc : 0 < cfg.maxCycle) (hb : Bare h0 r F dims want)
    (hp : Pairs h0 r F want left right) (hs : SameShell h h0) {t : ℕ} (ht : t ∈ h0.bottoms r F) {A : Nd ℝ}
    (hA : pairArray cfg lib s h dims t = .ok A) :
    ∃ rest : List (Vec (want (t, 1) * want (t, 1))), A = pairTensor (want (t, 1)) (maxVec (want (t, 1)) :: rest) ∧ rest.length + 1 = want (t, 0) ∧
      ∀ nm, (h0.node (left t)).name = some nm → nm.getLast? ≠ some '\'' → ∃ a, localHamiltonian s (left t) = .ok a ∧
        pairRows cfg lib (want (t, 1)) (want (t, 0)) a = .ok (maxVec (want (t, 1)) :: rest) := by
  have ht1 := (mem_bottoms.1 ht).1
  obtain ⟨j1, j2, p, i, c1, e1, e2, e3, c2⟩ := pair_children hb hp ht
  obtain ⟨d1, d2, d3⟩ := pair_dims hb hp ht e1 e2 e3
  have hax : (h.node t).axis = some 0 := by rw [hs.axis]; exact hp.axis t ht
  have ho := hp.order t ht
  unfold pairArray at hA
  rw [hax] at hA
  simp only at hA
  rw [hs.children, c1, if_neg (by simp)] at hA
  obtain ⟨⟨leaf, n⟩, hx, hA⟩ := bind_eq_ok.mp hA
  have hn := primary_ok d1 d2 hx
  simp only at hn
  subst hn
  have hacc : (h.access t).get! 0 = .ok (p, i) := by
    unfold Dict.get!
    rw [hs.access, ← Heap.acc_def, c2]
  simp only at hA
  rw [hacc, ok_bind] at hA
  simp only at hA
  rw [d3, ok_bind] at hA
  obtain ⟨a, ha, hA⟩ := bind_eq_ok.mp hA
  obtain ⟨rows, hr, hA⟩ := bind_eq_ok.mp hA
  cases hA
  obtain ⟨g1, rest, rfl⟩ := pairRows_ok (h1 _) (h2 _) hc (hb.pos ht1 (by omega)) (hb.pos ht1 (by omega)) hr
  refine ⟨rest, rfl, by simpa using g1, fun nm n1 n2 => ⟨a, ?_, hr⟩⟩
  unfold primaryLeaf at hx
  rw [hs.name, n1] at hx
  simp only at hx
  rw [if_neg n2, d1, ok_bind] at hx
  cases hx
  exact ha

/-- What one step of the loop leaves. -/
structure Step (h0 h h' : Heap ℝ) (r : ℕ) (F : Forest) (want : ℕ × ℕ → ℕ) (t : ℕ) : Prop where
  next : h'.next = h.next
  other : ∀ u, u ≠ t → h'.node u = h.node u
  shell : shell (h'.node t) = shell (h0.node t)
  pair : t ∈ h0.bottoms r F → ∃ B, h'.array t = some B ∧ PairDone want t B
  rest : t ∉ h0.bottoms r F → ∃ B, h'.array t = some B ∧ Done h0 want t B

theorem completeMax_rest (hb : Bare h0 r F dims want) (hr : RankOk rank) (hs : SameShell h h0) {t : ℕ} (ht : t ∈ h0.tensors r F)
    (hnone : h0.array t = none) (e : h.node t = h0.node t) (hnb : t ∉ h0.bottoms r F) :
    ∃ h', completeMax cfg lib Real.sqrt rank s dims h t = .ok h' ∧ Step h0 h h' r F want t := by
  obtain ⟨h', A, q1, q2, q3, q4, q5, q6⟩ := hb.one_ok Real.sqrt_one Real.sqrt_zero hr.id ht hnone e
  refine ⟨h', ?_, q2, q3, q4, fun q => absurd q hnb, fun _ => ⟨A, q5, q6⟩⟩
  have ha : h.array t = none := by unfold array; rw [e]; exact hnone
  have hem : (h.childrenDflt t false).isEmpty = false := by
    rw [hs.children]
    cases hq : (h0.childrenDflt t false).isEmpty with
    | false => rfl
    | true => exact absurd ((isEmpty_iff hb ht).1 hq) hnb
  unfold completeOne at q1
  unfold completeMax
  rw [ha] at q1 ⊢
  simp only at q1 ⊢
  rw [hem, if_neg (by simp)]
  exact q1

theorem completeMax_pair (h1 : ∀ N, OrthOk (lib N).orth) (h2 : ∀ N, EighOk (lib N).eigh) (hc : 0 < cfg.maxCycle) (hb : Bare h0 r F dims want)
    (hp : Pairs h0 r F want left right) (hr : RankOk rank) (hs : SameShell h h0) {t : ℕ} (ht : t ∈ h0.bottoms r F)
    (hnone : h0.array t = none) (e : h.node t = h0.node t) (hk : completeMax cfg lib Real.sqrt rank s dims h t = .ok h') :
    Step h0 h h' r F want t := by
  have ht1 := (mem_bottoms.1 ht).1
  have ho := hp.order t ht
  have ha : h.array t = none := by unfold array; rw [e]; exact hnone
  unfold completeMax at hk
  rw [ha] at hk
  simp only at hk
  rw [hs.children, if_pos ((isEmpty_iff hb ht1).2 ht)] at hk
  obtain ⟨A, hA, hk⟩ := bind_eq_ok.mp hk
  obtain ⟨rest, rfl, hlen, -⟩ := pairArray_ok h1 h2 hc hb hp hs ht hA
  obtain ⟨B, ee, hf, f1, f2, f3, f4, f5, f6, f7, f8, f9, -⟩ := finish_eval hr h (t := t) (rest := rest) (hb.pos ht1 (by omega))
    (by rw [hs.axis]; exact hp.axis t ht)
  obtain ⟨rfl, hone⟩ := f9 _ hk
  rw [hlen] at f6 f8 hone
  refine ⟨f1, f2, by rw [f3, hs t], fun _ => ⟨B, f4, f5, f6, f7, fun z hz w hw => ?_⟩, fun q => absurd ht q⟩
  rw [f8 z hz w hw]
  split
  · rw [hone z hz]
  · rfl

/-- The search for a tensor with a pair of leaves finds enough vectors. -/
def Enough (cfg : Davidson.Config) (lib : ∀ N, Lib N) (s : Obj ℝ ℝ) (want : ℕ × ℕ → ℕ) (left : ℕ → ℕ) (t : ℕ) : Prop :=
  ∃ a A vecs, localHamiltonian s (left t) = .ok a ∧ localMatvec (want (t, 1)) a = .ok A ∧
    kernelSearch cfg (lib (want (t, 1) * want (t, 1))) (init cfg A [maxVec (want (t, 1))] (want (t, 0)) none) = .ok vecs ∧
    want (t, 0) ≤ vecs.length

theorem completeMax_ok (h1 : ∀ N, OrthOk (lib N).orth) (h2 : ∀ N, EighOk (lib N).eigh) (hc : 0 < cfg.maxCycle) (hb : Bare h0 r F dims want)
    (hp : Pairs h0 r F want left right) (hr : RankOk rank) (hs : SameShell h h0) {t : ℕ} (ht : t ∈ h0.bottoms r F)
    (hnone : h0.array t = none) (e : h.node t = h0.node t)
    (hname : ∃ nm, (h0.node (left t)).name = some nm ∧ nm.getLast? ≠ some '\'') (hen : Enough cfg lib s want left t) :
    ∃ h', completeMax cfg lib Real.sqrt rank s dims h t = .ok h' ∧ Step h0 h h' r F want t := by
  have ht1 := (mem_bottoms.1 ht).1
  have ho := hp.order t ht
  have hax := hp.axis t ht
  have hn : 0 < want (t, 1) := hb.pos ht1 (by omega)
  have hm : 0 < want (t, 0) := hb.pos ht1 (by omega)
  have ha : h.array t = none := by unfold array; rw [e]; exact hnone
  obtain ⟨j1, j2, p, i, c1, e1, e2, e3, c2⟩ := pair_children hb hp ht
  obtain ⟨d1, d2, d3⟩ := pair_dims hb hp ht e1 e2 e3
  obtain ⟨a, A, vecs, q1, q2, q3, q4⟩ := hen
  obtain ⟨vr, rfl⟩ := search_head (h1 _) (h2 _) (maxVec_dot hn) (by omega) hc q3
  obtain ⟨o1, -, -⟩ := C50_search_mode (h1 _) (h2 _) A [maxVec (want (t, 1))] (want (t, 0)) none (by simp only [List.length_singleton]; omega) (fun q hq => by cases hq) q3
  obtain ⟨nm, nm1, nm2⟩ := hname
  have hacc : (h.access t).get! 0 = .ok (p, i) := by
    unfold Dict.get!
    rw [hs.access, ← Heap.acc_def, c2]
  obtain ⟨k, hk⟩ : ∃ k, want (t, 0) = k + 1 := ⟨want (t, 0) - 1, by omega⟩
  have hlen : (vr.take k).length + 1 = want (t, 0) := by
    simp only [List.length_cons] at q4
    rw [List.length_take]; omega
  have hrows : pairRows cfg lib (want (t, 1)) (want (t, 0)) a = .ok (maxVec (want (t, 1)) :: vr.take k) := by
    unfold pairRows
    rw [q2, ok_bind, q3, ok_bind]
    unfold fitRows
    rw [if_pos q4, ok_bind, hk, List.take_succ_cons]
    simp only
    rw [if_pos (show allclose (maxVec (want (t, 1))) (maxVec (want (t, 1))) from fun i => by rw [sub_self, abs_zero]; positivity)]
    rfl
  have harr : pairArray cfg lib s h dims t = .ok (pairTensor (want (t, 1)) (maxVec (want (t, 1)) :: vr.take k)) := by
    unfold pairArray
    rw [hs.axis, hax]
    simp only
    rw [hs.children, c1, if_neg (by simp)]
    have hpl : primaryLeaf h dims t [(1, left t, j1), (2, right t, j2)] = .ok (left t, want (t, 1)) := by
      unfold primaryLeaf
      rw [hs.name, nm1]
      simp only
      rw [if_neg nm2, d1]
      rfl
    rw [hpl]
    simp only [pure_eq_ok, ok_bind]
    rw [hacc]
    simp only [ok_bind]
    rw [d3, ok_bind, q1, ok_bind, hrows, ok_bind]
  have key : ∃ h', completeMax cfg lib Real.sqrt rank s dims h t = .ok h' := by
    obtain ⟨B, ee, hf, f1, f2, f3, f4, f5, f6, f7, f8, f9, f10, -⟩ := finish_eval hr h (t := t) (rest := vr.take k) hn
      (by rw [hs.axis]; exact hax)
    refine ⟨hf, ?_⟩
    unfold completeMax
    rw [ha]
    simp only
    rw [hs.children, if_pos ((isEmpty_iff hb ht1).2 ht), harr, ok_bind]
    refine f10 fun z hz w hw => ?_
    have ot : Orthonormal (maxVec (want (t, 1)) :: vr.take k) := by
      have := o1
      rw [← List.take_succ_cons]
      exact ⟨fun x hx => this.1 x (List.mem_of_mem_take hx), this.2.sublist (List.take_sublist _ _)⟩
    exact ot.getD hz hw
  obtain ⟨h', hk'⟩ := key
  exact ⟨h', hk', completeMax_pair h1 h2 hc hb hp hr hs ht hnone e hk'⟩

/-- The network after the loop: `h'` has the arrays of `Step` for the tensors in `ts`. -/
structure LoopDone (h0 h h' : Heap ℝ) (r : ℕ) (F : Forest) (want : ℕ × ℕ → ℕ) (ts : List ℕ) : Prop where
  next : h'.next = h.next
  other : ∀ u, u ∉ ts → h'.node u = h.node u
  shell : SameShell h' h0
  pair : ∀ t ∈ ts, t ∈ h0.bottoms r F → ∃ B, h'.array t = some B ∧ PairDone want t B
  rest : ∀ t ∈ ts, t ∉ h0.bottoms r F → ∃ B, h'.array t = some B ∧ Done h0 want t B

theorem LoopDone.cons {h1 : Heap ℝ} {t : ℕ} {ts : List ℕ} (hs : SameShell h h0) (h1' : Step h0 h h1 r F want t) (hn : t ∉ ts)
    (hl : SameShell h1 h0 → LoopDone h0 h1 h' r F want ts) : LoopDone h0 h h' r F want (t :: ts) := by
  have hs1 : SameShell h1 h0 := fun u => by
    by_cases q : u = t
    · subst q; exact h1'.shell
    · rw [h1'.other u q, hs u]
  have hl := hl hs1
  have e := hl.other t hn
  refine ⟨by rw [hl.next, h1'.next], fun u hu => ?_, hl.shell, fun u hu hb => ?_, fun u hu hb => ?_⟩
  · simp only [List.mem_cons, not_or] at hu
    rw [hl.other u hu.2, h1'.other u hu.1]
  · rcases List.mem_cons.1 hu with rfl | hu
    · obtain ⟨B, b1, b2⟩ := h1'.pair hb
      exact ⟨B, by unfold array at b1 ⊢; rw [e]; exact b1, b2⟩
    · exact hl.pair u hu hb
  · rcases List.mem_cons.1 hu with rfl | hu
    · obtain ⟨B, b1, b2⟩ := h1'.rest hb
      exact ⟨B, by unfold array at b1 ⊢; rw [e]; exact b1, b2⟩
    · exact hl.rest u hu hb

theorem loop_cond (h1 : ∀ N, OrthOk (lib N).orth) (h2 : ∀ N, EighOk (lib N).eigh) (hc : 0 < cfg.maxCycle) (hb : Bare h0 r F dims want)
    (hp : Pairs h0 r F want left right) (hr : RankOk rank) (hnone : ∀ t ∈ h0.tensors r F, h0.array t = none) :
    ∀ (ts : List ℕ) (h : Heap ℝ), ts.Nodup → (∀ t ∈ ts, t ∈ h0.tensors r F) → SameShell h h0 → (∀ t ∈ ts, h.node t = h0.node t) →
      ∀ h', ts.foldlM (completeMax cfg lib Real.sqrt rank s dims) h = .ok h' → LoopDone h0 h h' r F want ts := by
  intro ts
  induction ts with
  | nil =>
    intro h _ _ hs _ h' hk
    cases hk
    exact ⟨rfl, fun _ _ => rfl, hs, fun t ht => (List.not_mem_nil ht).elim, fun t ht => (List.not_mem_nil ht).elim⟩
  | cons t ts ih =>
    intro h hnd hts hs he h' hk
    obtain ⟨n1, n2⟩ := List.nodup_cons.1 hnd
    rw [List.foldlM_cons] at hk
    obtain ⟨h1', hk1, hk2⟩ := bind_eq_ok.mp hk
    have ht := hts t (by simp)
    have hstep : Step h0 h h1' r F want t := by
      by_cases hbt : t ∈ h0.bottoms r F
      · exact completeMax_pair h1 h2 hc hb hp hr hs hbt (hnone t ht) (he t (by simp)) hk1
      · obtain ⟨h'', q1, q2⟩ := completeMax_rest (cfg := cfg) (lib := lib) (s := s) hb hr hs ht (hnone t ht) (he t (by simp)) hbt
        rw [q1] at hk1
        cases hk1
        exact q2
    exact LoopDone.cons hs hstep n1 fun hs1 => ih h1' n2 (fun u hu => hts u (by simp [hu])) hs1
      (fun u hu => by rw [hstep.other u (by rintro rfl; exact n1 hu)]; exact he u (by simp [hu])) h' hk2

theorem loop_exists (h1 : ∀ N, OrthOk (lib N).orth) (h2 : ∀ N, EighOk (lib N).eigh) (hc : 0 < cfg.maxCycle) (hb : Bare h0 r F dims want)
    (hp : Pairs h0 r F want left right) (hr : RankOk rank) (hnone : ∀ t ∈ h0.tensors r F, h0.array t = none)
    (hname : ∀ t ∈ h0.bottoms r F, ∃ nm, (h0.node (left t)).name = some nm ∧ nm.getLast? ≠ some '\'')
    (hen : ∀ t ∈ h0.bottoms r F, Enough cfg lib s want left t) :
    ∀ (ts : List ℕ) (h : Heap ℝ), ts.Nodup → (∀ t ∈ ts, t ∈ h0.tensors r F) → SameShell h h0 → (∀ t ∈ ts, h.node t = h0.node t) →
      ∃ h', ts.foldlM (completeMax cfg lib Real.sqrt rank s dims) h = .ok h' := by
  intro ts
  induction ts with
  | nil => exact fun h _ _ _ _ => ⟨h, rfl⟩
  | cons t ts ih =>
    intro h hnd hts hs he
    obtain ⟨n1, n2⟩ := List.nodup_cons.1 hnd
    have ht := hts t (by simp)
    have hstep : ∃ h1', completeMax cfg lib Real.sqrt rank s dims h t = .ok h1' ∧ Step h0 h h1' r F want t := by
      by_cases hbt : t ∈ h0.bottoms r F
      · exact completeMax_ok h1 h2 hc hb hp hr hs hbt (hnone t ht) (he t (by simp)) (hname t hbt) (hen t hbt)
      · exact completeMax_rest hb hr hs ht (hnone t ht) (he t (by simp)) hbt
    obtain ⟨h1', q1, q2⟩ := hstep
    have hs1 : SameShell h1' h0 := fun u => by
      by_cases q : u = t
      · subst q; exact q2.shell
      · rw [q2.other u q, hs u]
    obtain ⟨h', hk⟩ := ih h1' n2 (fun u hu => hts u (by simp [hu])) hs1
      fun u hu => by rw [q2.other u (by rintro rfl; exact n1 hu)]; exact he u (by simp [hu])
    exact ⟨h', by rw [List.foldlM_cons, q1, ok_bind, hk]⟩

end ML
