import Verif.Lemmas.Sweep2

/-!
C26: the one-site sweep `split_step`.

`Hooks.Good` (in `Verif.Spec.Sweep`) is what is assumed of the propagation of one tensor: it returns normally and replaces
the array of the tensor. A tensor that has a normalization axis (is not the root) makes `_split_prop` raise a
`RuntimeError`, so a sweep that returns normally has only propagated roots.
-/

open Py

namespace Sweep

variable {K E R : Type} [CommRing R] {I J : E → Heap R → ℕ → Prop}

/-- The end of a sweep that returned to the first root. -/
theorem Inv.final {h0 : Heap R} {r0 : ℕ} {F : Forest} (ht : h0.IsTTN r0 F) {s : State K E R} (iv : Inv I h0 r0 s)
    (hs : s.root = r0) : s.heap.IsTTN r0 F ∧ s.heap.Rooted r0 F ∧ s.heap.PlainNames (s.heap.tensors r0 F) := by
  obtain ⟨F', h1, h2, h3⟩ := iv.ttn
  subst hs
  have hc : IsTree s.heap s.root none F := by
    refine ht.tree.congr ht.links.wf h1.links.wf iv.acc fun c hc => iv.leaf c ?_
    rcases List.mem_cons.1 hc with rfl | q
    · exact ht.lt
    · rw [← Heap.edges_targets F s.root] at q
      obtain ⟨e, he, rfl⟩ := List.mem_map.1 q
      exact (ht.links.lt (ht.isLink_edge he).1).2
  rw [hc.unique h1.tree]
  exact ⟨h1, h2, h3⟩

theorem Recorded.mono {h h' : Heap R} (hn : h.next ≤ h'.next) (ha : ∀ c k, h'.acc c k = h.acc c k)
    (hl : ∀ t, h'.linkages t = h.linkages t) {es : List (Event K)} {sites : List (Site × K)}
    (hr : Recorded h' es sites) : Recorded h es sites := by
  refine List.Forall₂.imp (fun e x q => ⟨?_, q.2⟩) hr
  obtain ⟨q, -⟩ := q
  obtain ⟨x, t⟩ := x
  cases x with
  | tensor t => exact ⟨q.1, q.2.trans (hl t)⟩
  | bond a i b j => exact ⟨hn.trans q.1, q.2⟩
  | pair a i b j => exact ⟨hn.trans q.1, fun x => by rw [q.2 x]; simp only [ha]⟩

/-- The state after `_form_env`. -/
theorem formEnv_ok {H : Hooks K E R} (hH : H.GoodS I J) {s : State K E R} {F : Forest} (ht : s.heap.IsTTN s.root F)
    (hr : s.heap.Rooted s.root F) (hp : s.heap.PlainNames (s.heap.tensors s.root F)) (hJ : J s.ext s.heap s.root) :
    ∃ x h, formEnv H s = .ok { s with ext := x, heap := h } ∧ Inv I s.heap s.root ({ s with ext := x, heap := h } : State K E R) ∧
      h.IsTTN s.root F ∧ h.Rooted s.root F ∧ (∀ c, h.isLeaf c = s.heap.isLeaf c) ∧
      ∀ c, h.childrenDflt c false = s.heap.childrenDflt c false := by
  obtain ⟨x, h, e, g, hI⟩ := hH.formEnv s.ext s.heap s.root F ht hr hJ
  obtain ⟨A, hA⟩ := ht.full s.root (Heap.mem_tensors.2 ⟨.inl rfl, ht.leaf⟩)
  have gc : s.heap.GoodChange h s.root := ⟨g.access, g.next, g.node, fun c _ => g.array c, fun A' hA' => by
    rw [hA.array] at hA'; cases hA'
    exact ⟨A, by rw [g.array]; exact hA.array, hA.wf, rfl⟩⟩
  have hl : ∀ c, h.isLeaf c = s.heap.isLeaf c := fun c => (g.node c).1
  have ht' := ttn_change ht gc
  have hr' := rooted_change hr gc
  refine ⟨x, h, ?_, ⟨⟨F, ht', hr', plain_change hl (fun c => (g.node c).2.1) hp⟩, fun c k => ?_, fun c _ => hl c, g.next.symm.le,
    .refl, hI⟩, ht', hr', hl, fun c => ?_⟩
  · unfold formEnv
    rw [e]; rfl
  · show h.acc c k = _
    rw [Heap.acc_def, g.access, ← Heap.acc_def]
  · unfold Heap.childrenDflt Heap.children Heap.linkages
    rw [g.access, (g.node c).2.2.1, hl]
    simp only [hl]

theorem splitStep_ok [Neg K] {H : Hooks K E R} (hH : H.GoodS I J) {s : State K E R} {F : Forest}
    (ht : s.heap.IsTTN s.root F) (hr : s.heap.Rooted s.root F) (hp : s.heap.PlainNames (s.heap.tensors s.root F))
    (hJ : J s.ext s.heap s.root) {fuel : ℕ} (hfu : F.depth < fuel) (tau : K) (backward : Bool) :
    ∃ s', splitStep H fuel tau backward s = .ok s' ∧ s'.root = s.root ∧
      Ran I s.heap s.root s s'
        (let l := siteF (fun t => !(s.heap.isLeaf t)) tau F s.root ++ [(.tensor s.root, tau)]
         if backward then mirror l else l) := by
  obtain ⟨x, h, ex, iv, ht', hr', hl', -⟩ := formEnv_ok hH ht hr hp hJ
  have hh := fun i id j (q : (i, id, j) ∈ F.heads) => ht.tree.acc_of_mem_heads ht.links.wf q
  have hd := Heap.decorated_tree ht'.tree false hfu
  simp only [Bool.false_or, hl'] at hd
  cases backward with
  | false =>
    obtain ⟨s1, e1, e2, e3⟩ := fwd_ok hH ht.links tau fuel F s.root ht.tree.rep hh ht.leaf iv rfl
    obtain ⟨s2, f1, f2, f3⟩ := prop_ok hH ht.links e3.1 tau true
    refine ⟨s2, ?_, f2.trans e2, ?_⟩
    · unfold splitStep
      rw [ex]
      simp only [ok_bind]
      rw [hr'.1, hd]
      simp only [ok_bind, Bool.false_eq_true, if_false]
      rw [e1]
      exact f1
    · have := e3.trans f3
      rw [e2] at this
      exact this
  | true =>
    obtain ⟨s1, f1, f2, f3⟩ := prop_ok hH ht.links iv tau true
    obtain ⟨s2, e1, e2, e3⟩ := bwd_ok hH ht.links tau fuel F s.root ht.tree.rep hh ht.leaf f3.1 f2
    refine ⟨s2, ?_, e2, ?_⟩
    · unfold splitStep
      rw [ex]
      simp only [ok_bind]
      rw [hr'.1, hd]
      simp only [ok_bind, if_true]
      rw [f1]
      exact e1
    · have : Ran I s.heap s.root s s2 _ := f3.trans e3
      simpa [mirror, Site.flip] using this

/-- The two sweeps of `snd_order_step`. -/
theorem sndOrder_ok [Field K] {H : Hooks K E R} (hH : H.GoodS I J) {s : State K E R} {F : Forest}
    (hs : s.heap.IsTTN s.root F) (hsr : s.heap.Rooted s.root F) (hp : s.heap.PlainNames (s.heap.tensors s.root F))
    (hJ : J s.ext s.heap s.root) {fuel : ℕ} (hfu : F.depth < fuel) (tau : K) :
    ∃ s', sndOrderStep (splitStep H fuel) tau s = .ok s' ∧ s'.root = s.root ∧
      Ran I s.heap s.root s s' (let l := siteF (fun t => !(s.heap.isLeaf t)) (tau / 2) F s.root ++ [(.tensor s.root, tau / 2)]
        l ++ mirror l) := by
  obtain ⟨s1, e1, e2, iv, es1, e3, e4⟩ := splitStep_ok hH hs hsr hp hJ hfu (tau / 2) false
  obtain ⟨f1, f2, f3⟩ := iv.final hs e2
  obtain ⟨s2, g1, g2, jv, es2, g3, g4⟩ := splitStep_ok hH (s := s1) (e2 ▸ f1) (e2 ▸ f2) (e2 ▸ f3) (hH.again _ _ _ iv.inv) hfu (tau / 2) true
  have hl : siteF (fun t => !(s1.heap.isLeaf t)) (tau / 2) F s1.root =
      siteF (fun t => !(s.heap.isLeaf t)) (tau / 2) F s.root := by
    rw [e2]
    have key : ∀ (G : Forest) a, (∀ c ∈ G.ids, s1.heap.isLeaf c = s.heap.isLeaf c) →
        siteF (fun t => !(s1.heap.isLeaf t)) (tau / 2) G a = siteF (fun t => !(s.heap.isLeaf t)) (tau / 2) G a := by
      intro G
      induction G with
      | nil => intros; rfl
      | cons i j id sub rest ih1 ih2 =>
        intro a hc
        simp only [siteF]
        have h1 := hc id (by simp [Forest.ids])
        simp only [h1]
        rw [ih1 id fun c q => hc c (by simp [Forest.ids, q]),
          ih2 a fun c q => hc c (by simp [Forest.ids, q])]
    refine key F _ fun c hc => iv.leaf c ?_
    rw [← Heap.edges_targets F s.root] at hc
    obtain ⟨e, he, rfl⟩ := List.mem_map.1 hc
    exact (hs.links.lt (hs.isLink_edge he).1).2
  simp only [if_true, hl] at g4
  rw [e2] at g4
  refine ⟨s2, ?_, g2.trans e2, ?_, es1 ++ es2, by rw [g3, e3, List.append_assoc],
    List.rel_append e4 (g4.mono iv.mono iv.acc (iv.linkages hs.links))⟩
  · unfold sndOrderStep
    rw [e1]
    exact g1
  · refine ⟨jv.ttn, fun c k => (jv.acc c k).trans (iv.acc c k), fun c hc => ?_, iv.mono.trans jv.mono, ?_, jv.inv⟩
    · have := iv.mono
      exact (jv.leaf c (by omega)).trans (iv.leaf c hc)
    · rw [g2, e2]; exact .refl

/-- What one sweep propagates: every tensor that is not a leaf once for `tau`, every link between two of them once
for `-tau` (`sites` is in the order of the sweep; the directions of the links do not matter here). -/
def OneSite [Neg K] (h : Heap R) (r : ℕ) (F : Forest) (tau : K) (sites : List (Site × K)) : Prop :=
  ∃ dir : ℕ × ℕ × ℕ × ℕ → Bool, sites.Perm
    ((h.tensors r F).map (fun t => (Site.tensor t, tau)) ++ (h.bonds r F).map fun e =>
      (if dir e then Site.bond e.1 e.2.1 e.2.2.1 e.2.2.2 else Site.bond e.2.2.1 e.2.2.2 e.1 e.2.1, -tau))

theorem siteF_oneSite [Neg K] {h : Heap R} {r : ℕ} {F : Forest} (ht : h.IsTTN r F) (tau : K) :
    (siteF (fun t => !(h.isLeaf t)) tau F r ++ [(Site.tensor r, tau)]).Perm
      ((h.tensors r F).map (fun t => (Site.tensor t, tau)) ++
        (h.bonds r F).map fun (e : ℕ × ℕ × ℕ × ℕ) => (Site.bond e.2.2.1 e.2.2.2 e.1 e.2.1, -tau)) := by
  have h1 := siteF_perm tau F r ht.tree.leafEnd
  unfold Heap.tensors Heap.bonds
  simp only [List.filter_cons, ht.leaf, Bool.not_false, if_true, List.map_cons, List.cons_append]
  exact (List.perm_append_singleton _ _).trans (h1.cons _)

/-- **C26.** On the root of a tree tensor network, `split_step` in either direction returns normally. It has propagated
every tensor that is not a leaf exactly once for `tau`, every link between two of them exactly once for `-tau`, and
nothing else. The root is where it was, all links are as they were, and the network is again a tree tensor network whose
only root is that one. (No name of a tensor contains `+`, see C10.) -/
theorem C26_split_step [Neg K] {H : Hooks K E R} (hH : H.Good) {s : State K E R} {F : Forest}
    (ht : s.heap.IsTTN s.root F) (hr : s.heap.Rooted s.root F) (hp : s.heap.PlainNames (s.heap.tensors s.root F))
    {fuel : ℕ} (hfu : F.depth < fuel) (tau : K) (backward : Bool) :
    ∃ s' es sites, splitStep H fuel tau backward s = .ok s' ∧ s'.root = s.root ∧
      s'.log = s.log ++ es ∧ Recorded s.heap es sites ∧ OneSite s.heap s.root F tau sites ∧
      (∀ t k, s'.heap.acc t k = s.heap.acc t k) ∧ s'.heap.IsTTN s.root F ∧ s'.heap.Rooted s.root F := by
  obtain ⟨s', e1, e2, iv, es, e3, e4⟩ := splitStep_ok hH.goodI.toGoodS ht hr hp trivial hfu tau backward
  obtain ⟨f1, f2, -⟩ := iv.final ht e2
  refine ⟨s', es, _, e1, e2, e3, e4, ?_, iv.acc, f1, f2⟩
  have h1 := siteF_oneSite ht tau
  cases backward with
  | false => exact ⟨fun _ => false, by simpa using h1⟩
  | true =>
    refine ⟨fun _ => true, ?_⟩
    simp only [if_true]
    refine (List.reverse_perm _).trans ((h1.map _).trans (List.Perm.of_eq ?_))
    simp only [List.map_append, List.map_map]
    rfl

/-- **C26.** The forward and the backward sweep are mirror images: on two states of the same network (whatever the arrays),
the backward one propagates the same for the same times in the opposite order, crossing each link in the opposite
direction. -/
theorem C26_mirror [Neg K] {H : Hooks K E R} (hH : H.Good) {s t : State K E R} {F : Forest}
    (hs : s.heap.IsTTN s.root F) (hsr : s.heap.Rooted s.root F) (hsp : s.heap.PlainNames (s.heap.tensors s.root F))
    (htt : t.heap.IsTTN s.root F) (htr : t.heap.Rooted s.root F) (htp : t.heap.PlainNames (t.heap.tensors s.root F)) (hroot : t.root = s.root) (hleaf : ∀ c, t.heap.isLeaf c = s.heap.isLeaf c)
    {fuel : ℕ} (hfu : F.depth < fuel) (tau : K) :
    ∃ s' t' es et sites, splitStep H fuel tau false s = .ok s' ∧ splitStep H fuel tau true t = .ok t' ∧
      s'.log = s.log ++ es ∧ t'.log = t.log ++ et ∧ Recorded s.heap es sites ∧
      Recorded t.heap et ((sites.map fun x => (x.1.flip, x.2)).reverse) := by
  obtain ⟨s', e1, e2, -, es, e3, e4⟩ := splitStep_ok hH.goodI.toGoodS hs hsr hsp trivial hfu tau false
  obtain ⟨t', f1, f2, -, et, f3, f4⟩ := splitStep_ok hH.goodI.toGoodS (s := t) (hroot ▸ htt) (hroot ▸ htr) (hroot ▸ htp) trivial hfu tau true
  refine ⟨s', t', es, et, _, e1, f1, e3, f3, e4, ?_⟩
  simp only [if_true, hroot, hleaf] at f4
  exact f4

/-- **C26.** `snd_order_step(split_step)` propagates every tensor twice for half the time and every link twice for minus
half the time, and the sequence is its own mirror image. -/
theorem C26_snd_order [Field K] {H : Hooks K E R} (hH : H.Good) {s : State K E R} {F : Forest}
    (hs : s.heap.IsTTN s.root F) (hsr : s.heap.Rooted s.root F) (hp : s.heap.PlainNames (s.heap.tensors s.root F))
    {fuel : ℕ} (hfu : F.depth < fuel) (tau : K) :
    ∃ s' es sites, sndOrderStep (splitStep H fuel) tau s = .ok s' ∧ s'.root = s.root ∧ s'.log = s.log ++ es ∧
      OneSite s.heap s.root F (tau / 2) sites ∧
      Recorded s.heap es (sites ++ (sites.map fun x => (x.1.flip, x.2)).reverse) ∧
      s'.heap.IsTTN s.root F ∧ s'.heap.Rooted s.root F := by
  obtain ⟨s', e1, e2, iv, es, e3, e4⟩ := sndOrder_ok hH.goodI.toGoodS hs hsr hp trivial hfu tau
  obtain ⟨f1, f2, -⟩ := iv.final hs e2
  exact ⟨s', es, _, e1, e2, e3, ⟨fun _ => false, by simpa using siteF_oneSite hs (tau / 2)⟩, e4, f1, f2⟩

/-! Instance: the network `exTwo` of C02; the propagation doubles the array. -/

/-- Multiply the array by `2`. -/
def exHooks (K : Type) : Hooks K ℕ ℤ where
  evolve x h t _ _ := match h.array t with
    | some A => .ok (x + 1, h.setArray t (some ⟨A.shape, A.data.map (2 * ·)⟩))
    | none => .error .typeError
  formEnv x h _ := .ok (x, h)
  removeEnv x _ _ := x
  svd := Heap.trivialSvd
  svdU := Heap.trivialSvd

theorem exHooks_good (K : Type) : (exHooks K).Good where
  evolve := by
    intro x h t tau c A hx hA hw
    refine ⟨x + 1, h.setArray t (some ⟨A.shape, A.data.map (2 * ·)⟩), by simp only [exHooks, hA], ?_, rfl, ?_, ?_, ?_⟩
    · intro c; simp only [Heap.access, Heap.setArray, Heap.upd]; split <;> simp_all
    · intro c; simp only [Heap.setArray, Heap.upd]; split <;> simp_all
    · intro c hc; simp only [Heap.array, Heap.setArray, Heap.upd]; rw [if_neg hc]
    · intro B hB
      rw [hA] at hB; cases hB
      refine ⟨⟨A.shape, A.data.map (2 * ·)⟩, by simp [Heap.array, Heap.setArray, Heap.upd], ?_, rfl⟩
      simpa [Nd.Wf] using hw
  formEnv x h _ _ _ _ := ⟨x, h, rfl, by simp, rfl, by simp, by simp⟩
  svd := Heap.trivialSvd_shape
  svdU := Heap.trivialSvd_shape

def exState (K : Type) : State K ℕ ℤ := ⟨Heap.exTwo, 0, 0, []⟩

example (backward : Bool) : ∃ s' es sites, splitStep (exHooks ℤ) 5 (3 : ℤ) backward (exState ℤ) = .ok s' ∧ s'.root = 0 ∧
    s'.log = [] ++ es ∧ Recorded Heap.exTwo es sites ∧ OneSite Heap.exTwo 0 Heap.exTwoForest 3 sites ∧
    (∀ t k, s'.heap.acc t k = Heap.exTwo.acc t k) ∧ s'.heap.IsTTN 0 Heap.exTwoForest ∧
    s'.heap.Rooted 0 Heap.exTwoForest :=
  C26_split_step (exHooks_good ℤ) (s := exState ℤ) Heap.exTwo_ttn Heap.exTwo_rooted Heap.exTwo_plain (by decide) 3 backward

/-- Its log: tensor 1, the link, tensor 0. -/
example : ((splitStep (exHooks ℤ) 5 (3 : ℤ) false (exState ℤ)).toOption.map fun s => s.log.map fun e => (e.tensor, e.tau)) =
    some [(1, 3), (5, -3), (0, 3)] := by decide +kernel

end Sweep
