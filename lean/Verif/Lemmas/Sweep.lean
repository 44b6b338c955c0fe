import Verif.Spec.Sweep
import Verif.Lemmas.Moves2
import Verif.Lemmas.TreeNet
import Verif.Lemmas.Env4
import Verif.Lemmas.MidNet
import Verif.Props.C10

/-! Helper lemmas for the sweeps: single propagations and moves. -/

open Py

theorem Forest.ext_of_rep {R : Type} {h : Heap R} {F F' : Forest} (e : F.heads = F'.heads) (r : F.RepIn h)
    (r' : F'.RepIn h) : F = F' := by
  induction F generalizing F' with
  | nil => cases F' with
    | nil => rfl
    | cons => simp [Forest.heads] at e
  | cons i j id sub rest ih1 ih2 =>
    cases F' with
    | nil => simp [Forest.heads] at e
    | cons i' j' id' sub' rest' =>
      simp only [Forest.heads, List.cons.injEq, Prod.mk.injEq] at e
      obtain ⟨⟨rfl, rfl, rfl⟩, e⟩ := e
      obtain ⟨a1, a2, a3⟩ := r
      obtain ⟨b1, b2, b3⟩ := r'
      rw [ih1 (a1.symm.trans b1) a2 b2, ih2 e a3 b3]

theorem IsTree.unique {R : Type} {h : Heap R} {a : ℕ} {axis : Option ℕ} {F F' : Forest} (ht : IsTree h a axis F)
    (ht' : IsTree h a axis F') : F = F' :=
  Forest.ext_of_rep (ht.heads.symm.trans ht'.heads) ht.rep ht'.rep

namespace Sweep

variable {K E R : Type} [CommRing R]

/-- What is needed of the hooks so that the sweeps over one tensor at a time return normally and keep the assertion `I` about `self`, the
network and the root; `J` is what is needed before `_form_env`. -/
structure Hooks.GoodS (H : Hooks K E R) (I J : E → Heap R → ℕ → Prop) : Prop where
  evolve : ∀ x h t F tau c, h.IsTTN t F → h.Rooted t F → I x h t →
    ∃ x' h', H.evolve x h t tau c = .ok (x', h') ∧ h.GoodChange h' t ∧ I x' h' t
  formEnv : ∀ x h r F, h.IsTTN r F → h.Rooted r F → J x h r →
    ∃ x' h', H.formEnv x h r = .ok (x', h') ∧ OnlyCaches h h' ∧ I x' h' r
  again : ∀ x h r, I x h r → J x h r
  split1 : ∀ (x : E) (h h1 : Heap R) r F i fin j mid F1, h.IsTTN r F → h.Rooted r F → h.acc r i = some (fin, j) → h.isLeaf fin = false →
    I x h r → h.MidSplit H.svd h1 r i fin j mid → h.MidTree h1 r i fin j mid F F1 → h1.Rooted mid F1 →
    (∃ nr, h.split H.svd r (.one i) none none (some r) nr = .ok (h1, mid, r)) → h.PlainNames (h.tensors r F) →
    I (H.removeEnv x h [r, fin]) h1 mid
  split2 : ∀ (x : E) (h h1 h2 h3 : Heap R) r F i fin j mid F1 F3 op, h.IsTTN r F → h.Rooted r F → h.acc r i = some (fin, j) →
    h.isLeaf fin = false → h.MidSplit H.svd h1 r i fin j mid → h.MidTree h1 r i fin j mid F F1 → h1.Rooted mid F1 →
    h1.GoodChange h2 mid → I x h2 mid → h1.next ≤ h3.next → h.MoveSpec H.svd op h3 r i fin j mid → h3.IsTTN fin F3 → h3.Rooted fin F3 →
    (∃ nr, h2.unite fin j (some fin) nr = .ok (h3, fin)) → (∃ x0, I x0 h r) →
    I (H.removeEnv x h3 [r, mid, fin]) h3 fin
  svd : Heap.SvdShape H.svd

/-- And the same for the sweeps over pairs of tensors. -/
structure Hooks.GoodI (H : Hooks K E R) (I J : E → Heap R → ℕ → Prop) : Prop extends H.GoodS I J where
  unite1 : ∀ (x : E) (h h1 : Heap R) r Fr t F i fin j mid F1 (A B : Nd R), h.IsTTN r Fr → h.Rooted r Fr → h.IsTTN t F → (r = t ∨ r = fin) →
    h.Full t A → h.Full fin B → h.acc t i = some (fin, j) → h.isLeaf fin = false → I x h r → h.MidUnite h1 t i fin j mid A.ndim B.ndim →
    h.MidTree h1 t i fin j mid F F1 → h1.Rooted mid F1 → I (H.removeEnv x h [t, fin]) h1 mid
  unite2 : ∀ (x : E) (h h1 h2 h3 : Heap R) r Fr t F i fin j mid F1 F3 op (A B : Nd R), h.IsTTN r Fr → h.Rooted r Fr → h.IsTTN t F →
    (r = t ∨ r = fin) → h.Full t A → h.Full fin B → h.acc t i = some (fin, j) → h.isLeaf fin = false → h.MidUnite h1 t i fin j mid A.ndim B.ndim →
    h.MidTree h1 t i fin j mid F F1 → h1.Rooted mid F1 → h1.GoodChange h2 mid → I x h2 mid → h1.next ≤ h3.next →
    h.MoveSpec H.svdU op h3 t i fin j mid → h3.IsTTN fin F3 → h3.Rooted fin F3 →
    (Heap.SvdExact H.svdU → ∀ C, h2.array mid = some C → ∀ σ : Heap.Assign,
      (∀ p ∈ Heap.uniteLabels t i A.ndim fin j B.ndim, σ p < h.hdim p) →
      h3.pairSum (t, i, fin, j) σ = C.get ((Heap.uniteLabels t i A.ndim fin j B.ndim).map σ)) →
    (∃ x0, I x0 h r) → I (H.removeEnv x h3 [t, mid, fin]) h3 fin
  svdU : Heap.SvdShape H.svdU

/-- With nothing to keep, the assumptions of `Hooks.Good` are enough. -/
theorem Hooks.Good.goodI {H : Hooks K E R} (hH : H.Good) : H.GoodI (fun _ _ _ => True) fun _ _ _ => True where
  evolve x h t F tau c ht hr _ := by
    obtain ⟨A, hA⟩ := ht.full t (Heap.mem_tensors.2 ⟨.inl rfl, ht.leaf⟩)
    obtain ⟨x', h', e, g⟩ := hH.evolve x h t tau c A hr.1 hA.array hA.wf
    exact ⟨x', h', e, g, trivial⟩
  formEnv x h r F ht hr _ := by
    obtain ⟨x', h', e, g⟩ := hH.formEnv x h r F ht hr
    exact ⟨x', h', e, g, trivial⟩
  again _ _ _ _ := trivial
  split1 := by intros; trivial
  split2 := by intros; trivial
  unite1 := by intros; trivial
  unite2 := by intros; trivial
  svd := hH.svd
  svdU := hH.svdU

variable {I J : E → Heap R → ℕ → Prop}

/-- The network `h0` up to arrays and the place of the root; and `I`. -/
structure Inv (I : E → Heap R → ℕ → Prop) (h0 : Heap R) (r0 : ℕ) (s : State K E R) : Prop where
  ttn : ∃ F, s.heap.IsTTN s.root F ∧ s.heap.Rooted s.root F ∧ s.heap.PlainNames (s.heap.tensors s.root F)
  acc : ∀ c k, s.heap.acc c k = h0.acc c k
  leaf : ∀ c, c < h0.next → s.heap.isLeaf c = h0.isLeaf c
  mono : h0.next ≤ s.heap.next
  lnk : Linked h0 r0 s.root
  inv : I s.ext s.heap s.root

/-- From `s` to `s'`, exactly `sites` were propagated. -/
def Ran (I : E → Heap R → ℕ → Prop) (h0 : Heap R) (r0 : ℕ) (s s' : State K E R) (sites : List (Site × K)) : Prop :=
  Inv I h0 r0 s' ∧ ∃ es, s'.log = s.log ++ es ∧ Recorded h0 es sites

theorem Ran.trans {h0 : Heap R} {r0 : ℕ} {s s' s'' : State K E R} {l l' : List (Site × K)} (a : Ran I h0 r0 s s' l)
    (b : Ran I h0 r0 s' s'' l') : Ran I h0 r0 s s'' (l ++ l') := by
  obtain ⟨-, es, e1, e2⟩ := a
  obtain ⟨i, es', e3, e4⟩ := b
  exact ⟨i, es ++ es', by rw [e3, e1, List.append_assoc], List.rel_append e2 e4⟩

theorem Ran.refl {h0 : Heap R} {r0 : ℕ} {s : State K E R} (i : Inv I h0 r0 s) : Ran I h0 r0 s s [] :=
  ⟨i, [], by simp, .nil⟩

theorem Inv.linkages {h0 : Heap R} {r0 : ℕ} {s : State K E R} (hi : h0.LinkInv) (i : Inv I h0 r0 s) (t : ℕ) :
    s.heap.linkages t = h0.linkages t := by
  obtain ⟨F, h1, -⟩ := i.ttn
  exact Heap.linkages_congr h1.links.wf hi.wf (i.acc t)

theorem rooted_change {h h' : Heap R} {m r : ℕ} {F : Forest} (h2 : h.Rooted r F) (g : h.GoodChange h' m) : h'.Rooted r F := by
  have hb : h'.bonds r F = h.bonds r F := by unfold Heap.bonds Heap.isLeaf; simp only [(g.node _).1]
  refine ⟨by rw [(g.node _).2.2.1]; exact h2.1, ?_⟩
  rw [hb]
  intro e he
  rw [(g.node _).2.2.1]; exact h2.2 e he

theorem ttn_change {h h' : Heap R} {m r : ℕ} {F : Forest} (h1 : h.IsTTN r F) (g : h.GoodChange h' m) : h'.IsTTN r F := by
  refine h1.congr g.access g.next (fun c => (g.node c).1) (fun c => (g.node c).2.1) ?_
  intro c A hA hw
  by_cases hc : c = m
  · subst hc; exact g.array A hA
  · exact ⟨A, by rw [g.other c hc]; exact hA, hw, rfl⟩

theorem plain_change {h h' : Heap R} {r : ℕ} {F : Forest} (hl : ∀ c, (h'.node c).isLeaf = (h.node c).isLeaf)
    (hn : ∀ c, (h'.node c).name = (h.node c).name) (hp : h.PlainNames (h.tensors r F)) : h'.PlainNames (h'.tensors r F) := by
  have ht : h'.tensors r F = h.tensors r F := by unfold Heap.tensors Heap.isLeaf; simp only [hl]
  intro t hT nm
  rw [hn]
  exact hp t (ht ▸ hT) nm

/-- A change of the array of the root. -/
theorem Inv.change {h0 : Heap R} {r0 : ℕ} {s : State K E R} (i : Inv I h0 r0 s) {h' : Heap R}
    (g : s.heap.GoodChange h' s.root) (x : E) (l : List (Event K)) (hI : I x h' s.root) : Inv I h0 r0 ⟨h', s.root, x, l⟩ := by
  obtain ⟨F, h1, h2, h3⟩ := i.ttn
  have hl : ∀ c, h'.isLeaf c = s.heap.isLeaf c := fun c => (g.node c).1
  have hacc : ∀ c k, h'.acc c k = s.heap.acc c k := fun c k => by rw [Heap.acc_def, g.access, ← Heap.acc_def]
  exact ⟨⟨F, ttn_change h1 g, rooted_change h2 g, plain_change hl (fun c => (g.node c).2.1) h3⟩,
    fun c k => (hacc c k).trans (i.acc c k),
    fun c hc => (hl c).trans (i.leaf c hc), by rw [g.next]; exact i.mono, i.lnk, hI⟩

theorem splitProp_ok {H : Hooks K E R} (hH : H.GoodS I J) {s : State K E R} {t : ℕ} {F : Forest} {tau : K} {c : Bool}
    (ht : s.heap.IsTTN t F) (hr : s.heap.Rooted t F) (hI : I s.ext s.heap t) :
    ∃ x h', splitProp H tau c s t = .ok ⟨h', t, x, s.log ++ [⟨t, s.heap.linkages t, tau⟩]⟩ ∧ s.heap.GoodChange h' t ∧
      I x h' t := by
  obtain ⟨x, h', e, g⟩ := hH.evolve s.ext s.heap t F tau c ht hr hI
  refine ⟨x, h', ?_, g⟩
  unfold splitProp
  rw [if_neg (by simp [hr.1])]
  simp only [e]
  rfl

theorem prop_ok {H : Hooks K E R} (hH : H.GoodS I J) {h0 : Heap R} {r0 : ℕ} (hi : h0.LinkInv) {s : State K E R}
    (i : Inv I h0 r0 s) (tau : K) (c : Bool) :
    ∃ s', splitProp H tau c s s.root = .ok s' ∧ s'.root = s.root ∧ Ran I h0 r0 s s' [(.tensor s.root, tau)] := by
  obtain ⟨F, h1, h2, -⟩ := i.ttn
  obtain ⟨x, h', e, g, hI⟩ := splitProp_ok hH (tau := tau) (c := c) h1 h2 i.inv
  exact ⟨_, e, rfl, i.change g _ _ hI, _, rfl, .cons ⟨⟨rfl, i.linkages hi _⟩, rfl⟩ .nil⟩

/-- Only a root is propagated. -/
theorem splitProp_error {H : Hooks K E R} {s : State K E R} {t : ℕ} {tau : K} {c : Bool}
    (hx : (s.heap.node t).axis ≠ none) : splitProp H tau c s t = .error .runtimeError := by
  unfold splitProp
  rw [if_pos hx]
  rfl

/-- The propagators used as operators. -/
def opOf (H : Hooks K E R) (o : Option (K × Bool)) : Option (Op K E R) := o.map fun p => splitProp H p.1 p.2

theorem applyOp_ok {H : Hooks K E R} (hH : H.GoodS I J) (o : Option (K × Bool)) {s : State K E R} {t : ℕ} {F : Forest}
    (ht : s.heap.IsTTN t F) (hr : s.heap.Rooted t F) (hI : I s.ext s.heap t) :
    ∃ s', applyOp (opOf H o) s t = .ok s' ∧ s.heap.GoodChange s'.heap t ∧ I s'.ext s'.heap t ∧
      s'.log = s.log ++ o.elim [] fun p => [⟨t, s.heap.linkages t, p.1⟩] := by
  cases o with
  | none =>
    obtain ⟨A, hA⟩ := ht.full t (Heap.mem_tensors.2 ⟨.inl rfl, ht.leaf⟩)
    exact ⟨s, rfl, .refl fun B hB => by rw [hA.array] at hB; cases hB; exact hA.wf, hI, by simp⟩
  | some p =>
    obtain ⟨x, h', e, g, q⟩ := splitProp_ok hH (tau := p.1) (c := p.2) ht hr hI
    exact ⟨_, e, g, q, rfl⟩

/-- The state after a move, from what the move does to the network. -/
theorem Inv.moved {h0 : Heap R} {r0 : ℕ} (hi : h0.LinkInv) {s : State K E R} (i : Inv I h0 r0 s) {a fin j mid : ℕ} {h' : Heap R}
    {svd : Heap.Svd R} {op : Option (Heap.Operator R)} (m : Heap.MoveSpec svd op s.heap h' s.root a fin j mid)
    (hb : h0.acc s.root a = some (fin, j)) (hl : h0.isLeaf fin = false) (x : E) (l : List (Event K))
    (hI : ∀ F', h'.IsTTN fin F' → h'.Rooted fin F' → I x h' fin) :
    Inv I h0 r0 ⟨h', fin, x, l⟩ := by
  obtain ⟨F, h1, h2, h3⟩ := i.ttn
  have hlt := hi.lt hb
  have hb' : s.heap.acc s.root a = some (fin, j) := by rw [i.acc]; exact hb
  have hl' : s.heap.isLeaf fin = false := by rw [i.leaf _ hlt.2]; exact hl
  obtain ⟨F', mv⟩ := h1.moved m hb' hl'
  have hmono := m.mono
  have hfresh := m.fresh
  have := i.mono
  have hrt := mv.rooted h1 m hb' hl' h2
  refine ⟨⟨F', mv.ttn, hrt, mv.plain h1 m h3⟩, fun c k => (m.acc c k).trans (i.acc c k), ?_, ?_,
    i.lnk.tail ⟨a, j, hb⟩, hI F' mv.ttn hrt⟩
  · intro c hc
    rw [(m.other c (by omega)).2.1]
    exact i.leaf c hc
  · show h0.next ≤ h'.next
    omega

/-- The tensor on a link is the only root. -/
theorem rooted_midSplit {svd : Heap.Svd R} {h h1 : Heap R} {r i fin j mid : ℕ} {F F1 : Forest} (ht : h.IsTTN r F) (hr : h.Rooted r F)
    (hb : h.acc r i = some (fin, j)) (hl : h.isLeaf fin = false)
    (m : h.MidSplit svd h1 r i fin j mid) (mt : h.MidTree h1 r i fin j mid F F1) : h1.Rooted mid F1 := by
  have hmem := ht.head_of_acc hb
  have hfr : fin ≠ r := by
    rintro rfl
    exact (List.nodup_cons.1 ht.tree.nodup).1 (Forest.mem_heads_ids hmem)
  have hax : ∀ c, c ≠ r → c ≠ mid → (h1.node c).axis = (h.node c).axis := fun c q1 q2 =>
    (Heap.core_eq (m.other c q1 q2)).2.1
  have hmid : ∀ u ∈ r :: F.ids, u ≠ mid := fun u hu => by
    have := ht.ids_lt hu
    have := m.fresh
    omega
  have hfin : fin ∈ r :: F.ids := by simp [Forest.mem_heads_ids hmem]
  refine ⟨m.axis, fun e he => ?_⟩
  obtain ⟨he, hel⟩ := Heap.mem_bonds.1 he
  obtain ⟨e1, e2, e3, e4⟩ := e
  simp only at hel ⊢
  rcases mt.target _ he with q | q | ⟨e', q1, q2, q3⟩
  · simp only [Prod.mk.injEq] at q
    obtain ⟨rfl, rfl⟩ := q
    exact m.axisSelf
  · simp only [Prod.mk.injEq] at q
    obtain ⟨rfl, rfl⟩ := q
    rw [hax _ hfr (hmid _ hfin)]
    have := hr.2 (r, i, e3, e4) (Heap.mem_bonds.2 ⟨?_, hl⟩)
    · exact this
    · rw [(Forest.edges_rem (Forest.exists_has hmem).choose_spec ht.heads_sorted r).mem_iff]; simp
  · obtain ⟨d1, d2, d3, d4⟩ := e'
    simp only [Prod.mk.injEq] at q2
    obtain ⟨rfl, rfl⟩ := q2
    have h3 : d3 ∈ F.ids := by
      rw [← Heap.edges_targets F r]
      exact List.mem_map.2 ⟨_, q1, rfl⟩
    have h3r : d3 ≠ r := by
      rintro rfl
      exact (List.nodup_cons.1 ht.tree.nodup).1 h3
    have h3m := hmid d3 (by simp [h3])
    rw [hax _ h3r h3m]
    refine hr.2 (d1, d2, d3, d4) (Heap.mem_bonds.2 ⟨q1, ?_⟩)
    rw [← hel]
    exact (Heap.core_eq (m.other d3 h3r h3m)).2.2.2.2.2.2.symm

/-- The links of a tensor all of whose axes are linked. -/
theorem linkages_full {h : Heap R} (hw : h.Wf) {t n : ℕ} {f : ℕ → ℕ × ℕ} (hf : ∀ k, k < n → h.acc t k = some (f k))
    (hn : ∀ k, ¬ k < n → h.acc t k = none) : h.linkages t = (List.range n).map fun k => (k, f k) := by
  refine Heap.sorted_ext (Heap.pairwise_linkages hw t) ?_ ?_
  · rw [List.pairwise_map]
    exact List.pairwise_lt_range
  · rintro ⟨k, u, l⟩
    rw [Heap.mem_linkages hw, List.mem_map]
    constructor
    · intro e
      by_cases hk : k < n
      · rw [hf k hk] at e
        exact ⟨k, List.mem_range.2 hk, by rw [Option.some.inj e]⟩
      · rw [hn k hk] at e; cases e
    · rintro ⟨k', hk, e⟩
      simp only [Prod.mk.injEq] at e
      obtain ⟨rfl, e⟩ := e
      rw [hf _ (List.mem_range.1 hk), e]

/-- `move` without `unite_first`, from the root. -/
theorem move_ok {H : Hooks K E R} (hH : H.GoodS I J) {h0 : Heap R} {r0 : ℕ} (hi : h0.LinkInv) {s : State K E R}
    (iv : Inv I h0 r0 s) {a fin j : ℕ} (hb0 : h0.acc s.root a = some (fin, j)) (hl0 : h0.isLeaf fin = false)
    (o : Option (K × Bool)) (fuel : ℕ) :
    ∃ s', move H fuel s s.root a (opOf H o) = .ok s' ∧ s'.root = fin ∧
      Ran I h0 r0 s s' (o.elim [] fun p => [(.bond s.root a fin j, p.1)]) := by
  obtain ⟨F, ht, hr, hp⟩ := iv.ttn
  have hlt := hi.lt hb0
  have hb : s.heap.acc s.root a = some (fin, j) := by rw [iv.acc]; exact hb0
  have hl : s.heap.isLeaf fin = false := by rw [iv.leaf _ hlt.2]; exact hl0
  have hn := ht.isNet
  have hrT : s.root ∈ s.heap.tensors s.root F := Heap.mem_tensors.2 ⟨.inl rfl, ht.leaf⟩
  have hfT : fin ∈ s.heap.tensors s.root F := by
    refine Heap.mem_tensors.2 ⟨(ht.mem_linked fin).2 ?_, hl⟩
    exact Relation.ReflTransGen.single ⟨a, j, hb⟩
  obtain ⟨A, hA⟩ := hn.full s.root hrT
  obtain ⟨B, hB⟩ := hn.full fin hfT
  obtain ⟨n1, hn1⟩ := hn.names s.root hrT
  obtain ⟨n2, hn2⟩ := hn.names fin hfT
  have hp1 := hp _ hrT n1 hn1
  obtain ⟨s1, s2⟩ := hn.simple s.root hrT a fin j hb hfT
  obtain ⟨h1, mid, e1, m1, hu⟩ := Heap.splitUnite_steps hH.svd hn.links hA hB hb s1.symm
    (fun k l e => (hn.simple s.root hrT k s.root l e hrT).1 rfl) (fun k l e => (hn.simple fin hfT k fin l e hfT).1 rfl)
    (fun k l e => s2 k l e) hr.1
    (by
      rcases hn.mem_bond hrT hfT hb with q | q
      · exact hn.dims _ q
      · exact (hn.dims _ q).symm) hn1 hp1 hn2 ((s.heap.node s.root).normalized && (s.heap.node fin).normalized)
  obtain ⟨F1, mt⟩ := m1.tree ht hb hl
  have hr1 := rooted_midSplit ht hr hb hl m1 mt
  have hI1 := hH.split1 s.ext s.heap h1 s.root F a fin j mid F1 ht hr hb hl iv.inv m1 mt hr1 ⟨_, e1⟩ hp
  obtain ⟨st, o1, o2, oI, o3⟩ := applyOp_ok hH o (s := { removeEnv H s [s.root, fin] with heap := h1 }) (t := mid)
    mt.ttn hr1 hI1
  obtain ⟨h3, u1, u0, u2⟩ := hu st.heap o2
  have hsu : splitUnite H.svd (removeEnv H s [s.root, fin]) s.root a (opOf H o) = .ok ({ st with heap := h3 }, mid, fin) := by
    unfold splitUnite
    have hb' : Dict.get? ((removeEnv H s [s.root, fin]).heap.access s.root) a = some (fin, j) := hb
    simp only [Dict.get!, hb', ok_bind]
    have e1' : (removeEnv H s [s.root, fin]).heap.split H.svd s.root (.one a) none none (some s.root)
        (((removeEnv H s [s.root, fin]).heap.node s.root).normalized &&
          ((removeEnv H s [s.root, fin]).heap.node fin).normalized) = .ok (h1, mid, s.root) := e1
    rw [e1']
    simp only [ok_bind]
    rw [o1]
    simp only [ok_bind]
    have u1' : st.heap.unite fin j (some fin) (((removeEnv H s [s.root, fin]).heap.node s.root).normalized &&
          ((removeEnv H s [s.root, fin]).heap.node fin).normalized) = .ok (h3, fin) := u1
    rw [u1']
    rfl
  refine ⟨removeEnv H { { st with heap := h3 } with root := fin } [s.root, mid, fin], ?_, rfl, ?_, ?_⟩
  · unfold move
    have hb' : Dict.get? (s.heap.access s.root) a = some (fin, j) := hb
    simp only [Dict.get!, hb', ok_bind]
    rw [if_neg (by simp), hsu]
    rfl
  · cases o with
    | none =>
      have he : st = { removeEnv H s [s.root, fin] with heap := h1 } := (Except.ok.inj o1).symm
      have mv := u2 none fun _ => by rw [he]
      exact iv.moved hi mv hb0 hl0 _ _ fun F' t' r' => hH.split2 _ _ _ _ _ _ _ _ _ _ _ _ F' _ ht hr hb hl m1 mt hr1 o2 oI u0 mv t' r' ⟨_, u1⟩ ⟨_, iv.inv⟩
    | some p =>
      have mv := u2 (some fun _ _ => .error .runtimeError) (by simp)
      exact iv.moved hi mv hb0 hl0 _ _ fun F' t' r' => hH.split2 _ _ _ _ _ _ _ _ _ _ _ _ F' _ ht hr hb hl m1 mt hr1 o2 oI u0 mv t' r' ⟨_, u1⟩ ⟨_, iv.inv⟩
  · refine ⟨_, o3, ?_⟩
    cases o with
    | none => exact .nil
    | some p =>
      refine .cons ⟨⟨?_, ?_⟩, rfl⟩ .nil
      · have := m1.fresh; have := iv.mono; show h0.next ≤ mid; omega
      · refine linkages_full m1.links.wf (n := 2) (f := fun k => if k = 0 then (s.root, a) else (fin, j)) ?_ ?_
        · intro k hk
          rw [m1.accMid]
          rcases (by omega : k = 0 ∨ k = 1) with rfl | rfl <;> simp
        · intro k hk
          rw [m1.accMid, if_neg (by omega), if_neg (by omega)]

/-- Seen from a tensor next to the root. -/
theorem reroot_next {h : Heap R} {r : ℕ} {F : Forest} (ht : h.IsTTN r F) {i fin j : ℕ} (hb : h.acc r i = some (fin, j))
    (hl : h.isLeaf fin = false) : ∃ F', h.IsTTN fin F' ∧ ∀ e ∈ h.bonds fin F', e = (fin, j, r, i) ∨ e ∈ h.bonds r F := by
  have hmem : (i, fin, j) ∈ F.heads := by
    rw [← ht.tree.heads, Heap.mem_children ht.links.wf (by simp [ht.leaf])]
    exact ⟨hb, by simp, .inl rfl⟩
  have hfT : fin ∈ h.tensors r F := Heap.mem_tensors.2 ⟨.inr (Forest.mem_heads_ids hmem), hl⟩
  obtain ⟨F1, t1, p1⟩ := ht.reroot hfT
  obtain ⟨sub, hf⟩ := Forest.exists_has hmem
  have t2 := ht.tree.reroot hf ht.links.wf ht.links.sym hl
  have he : F1 = sub.ins j i r (F.rem i) := t1.tree.unique t2
  refine ⟨F1, t1, fun e q => ?_⟩
  subst he
  obtain ⟨q1, q2⟩ := Heap.mem_bonds.1 q
  rw [(Forest.edges_ins j i r (F.rem i) sub fin).mem_iff] at q1
  simp only [List.cons_append, List.mem_cons, List.mem_append] at q1
  rcases q1 with rfl | q1 | q1
  · exact .inl rfl
  · refine .inr (Heap.mem_bonds.2 ⟨?_, q2⟩)
    rw [(Forest.edges_rem hf ht.heads_sorted r).mem_iff]; simp [q1]
  · refine .inr (Heap.mem_bonds.2 ⟨?_, q2⟩)
    rw [(Forest.edges_rem hf ht.heads_sorted r).mem_iff]; simp [q1]

/-- `move` with `unite_first`, across a link at the root (from either end). -/
theorem unite_ok {H : Hooks K E R} (hH : H.GoodI I J) {h0 : Heap R} {r0 : ℕ} {F0 : Forest} (h00 : h0.IsTTN r0 F0)
    {s : State K E R} (iv : Inv I h0 r0 s) {t a fin j : ℕ} (hb0 : h0.acc t a = some (fin, j)) (ht0 : h0.isLeaf t = false)
    (hl0 : h0.isLeaf fin = false) (hroot : s.root = t ∨ s.root = fin)
    (o : Option (K × Bool)) {fuel : ℕ} (hfu : F0.ids.length < fuel) :
    ∃ s', move H fuel s t a (opOf H o) true = .ok s' ∧ s'.root = fin ∧
      Ran I h0 r0 s s' (o.elim [] fun p => [(.pair t a fin j, p.1)]) := by
  have hi := h00.links
  obtain ⟨Fr, ht1, hr, hp⟩ := iv.ttn
  have hlt := hi.lt hb0
  have hb : s.heap.acc t a = some (fin, j) := by rw [iv.acc]; exact hb0
  have hl : s.heap.isLeaf fin = false := by rw [iv.leaf _ hlt.2]; exact hl0
  have hlt' : s.heap.isLeaf t = false := by rw [iv.leaf _ hlt.1]; exact ht0
  have hax : (s.heap.node t).axis = none ∨ (s.heap.node fin).axis = none := by
    rcases hroot with e | e
    · exact .inl (e ▸ hr.1)
    · exact .inr (e ▸ hr.1)
  -- the tree from `t`, and the axes of the other tensors
  obtain ⟨F, ht, hax'⟩ : ∃ F, s.heap.IsTTN t F ∧ ∀ e ∈ s.heap.bonds t F, e.2.2.1 ≠ fin →
      (s.heap.node e.2.2.1).axis = some e.2.2.2 := by
    rcases hroot with e | e
    · subst e; exact ⟨Fr, ht1, fun e he _ => hr.2 e he⟩
    · subst e
      obtain ⟨F', q1, q2⟩ := reroot_next ht1 (ht1.links.sym _ _ _ _ hb) hlt'
      refine ⟨F', q1, fun e he hne => ?_⟩
      rcases q2 e he with rfl | q
      · exact absurd rfl hne
      · exact hr.2 e q
  have hlnk : Linked h0 r0 t := by
    rcases hroot with e | e
    · exact e ▸ iv.lnk
    · exact (e ▸ iv.lnk : Linked h0 r0 fin).tail ⟨j, a, hi.sym _ _ _ _ hb0⟩
  have hLinked : ∀ x y, Linked s.heap x y ↔ Linked h0 x y := by
    intro x y
    unfold Linked
    simp only [iv.acc]
  have hlen : F.ids.length = F0.ids.length := by
    obtain ⟨F0', q1, q2⟩ := h00.reroot (t := t) (Heap.mem_tensors.2 ⟨(h00.mem_linked t).2 hlnk, ht0⟩)
    have hp : (t :: F.ids).Perm (t :: F0'.ids) := by
      refine (List.perm_ext_iff_of_nodup ht.tree.nodup q1.tree.nodup).2 fun x => ?_
      rw [List.mem_cons, List.mem_cons, ht.mem_linked x, q1.mem_linked x, hLinked]
    have e1 := hp.length_eq
    have e2 := q2.length_eq
    simp only [List.length_cons] at e1 e2
    omega
  have hn := ht.isNet
  have hrT : t ∈ s.heap.tensors t F := Heap.mem_tensors.2 ⟨.inl rfl, ht.leaf⟩
  have hfT : fin ∈ s.heap.tensors t F := by
    refine Heap.mem_tensors.2 ⟨(ht.mem_linked fin).2 ?_, hl⟩
    exact Relation.ReflTransGen.single ⟨a, j, hb⟩
  obtain ⟨A, hA⟩ := hn.full t hrT
  obtain ⟨B, hB⟩ := hn.full fin hfT
  obtain ⟨n1, hn1⟩ := hn.names t hrT
  obtain ⟨n2, hn2⟩ := hn.names fin hfT
  have hpT : s.heap.PlainNames (s.heap.tensors t F) := by
    have hlk : Linked s.heap s.root t := by
      rcases hroot with e | e
      · rw [e]; exact .refl
      · rw [e]; exact .single ⟨j, a, ht1.links.sym _ _ _ _ hb⟩
    have hlk' : Linked s.heap t s.root := by
      rcases hroot with e | e
      · rw [e]; exact .refl
      · rw [e]; exact .single ⟨a, j, hb⟩
    intro u hu nm
    obtain ⟨u1, u2⟩ := Heap.mem_tensors.1 hu
    exact hp u (Heap.mem_tensors.2 ⟨(ht1.mem_linked u).2 (hlk.trans ((ht.mem_linked u).1 u1)), u2⟩) nm
  have hp1 := hpT _ hrT n1 hn1
  have hp2 := hpT _ hfT n2 hn2
  obtain ⟨s1, s2⟩ := hn.simple t hrT a fin j hb hfT
  obtain ⟨h1, mid, e1, m1, hu⟩ := Heap.uniteSplit_steps hH.svdU hn.links hA hB hb s1.symm
    (fun k l e => (hn.simple t hrT k t l e hrT).1 rfl) (fun k l e => (hn.simple fin hfT k fin l e hfT).1 rfl)
    (fun k l e => s2 k l e) hax
    (by
      rcases hn.mem_bond hrT hfT hb with q | q
      · exact hn.dims _ q
      · exact (hn.dims _ q).symm) hn1 hp1 hn2 hp2 ((s.heap.node t).normalized && (s.heap.node fin).normalized)
  obtain ⟨M, hM, hMn⟩ := m1.fullMid
  obtain ⟨F1, mt⟩ := m1.tree ht hA hB hb hl
  have hr1 : h1.Rooted mid F1 := by
    have hmid : ∀ u ∈ t :: F.ids, u ≠ mid := fun u hu => by
      have := ht.ids_lt hu
      have := m1.fresh
      omega
    refine ⟨m1.axis, fun e he => ?_⟩
    obtain ⟨he, hel⟩ := Heap.mem_bonds.1 he
    have hback := m1.links.sym _ _ _ _ (mt.ttn.isLink_edge he).1
    have ne1 : e.2.2.1 ≠ t := by intro q; rw [q, (m1.accNone _).1] at hback; cases hback
    have ne2 : e.2.2.1 ≠ fin := by intro q; rw [q, (m1.accNone _).2] at hback; cases hback
    obtain ⟨e1, e2, e3, e4⟩ := e
    simp only at hel ne1 ne2 ⊢
    rcases mt.target _ he with q | q | ⟨e', q1, q2, q3⟩
    · exact absurd (congrArg Prod.fst q) ne1
    · exact absurd (congrArg Prod.fst q) ne2
    · obtain ⟨d1, d2, d3, d4⟩ := e'
      simp only [Prod.mk.injEq] at q2
      obtain ⟨rfl, rfl⟩ := q2
      have h3 : d3 ∈ F.ids := by
        rw [← Heap.edges_targets F t]
        exact List.mem_map.2 ⟨_, q1, rfl⟩
      have h3m := hmid d3 (by simp [h3])
      have hc := m1.other d3 h3m
      rw [show (h1.node d3).axis = (s.heap.node d3).axis from (Heap.core_eq hc).2.1]
      refine hax' (d1, d2, d3, d4) (Heap.mem_bonds.2 ⟨q1, ?_⟩) ne2
      rw [← hel]
      exact (Heap.core_eq hc).2.2.2.2.2.2.symm
  have hI1 := hH.unite1 s.ext s.heap h1 s.root Fr t F a fin j mid F1 A B ht1 hr ht hroot hA hB hb hl iv.inv m1 mt hr1
  obtain ⟨st, o1, o2, oI, o3⟩ := applyOp_ok hH.toGoodS o (s := { removeEnv H s [t, fin] with heap := h1 }) (t := mid)
    mt.ttn hr1 hI1
  obtain ⟨h3, u1, u0, u2, u3⟩ := hu st.heap o2
  obtain ⟨op, m⟩ : ∃ op, Heap.MoveSpec H.svdU op s.heap h3 t a fin j mid := by
    cases o with
    | none =>
      have he : st = { removeEnv H s [t, fin] with heap := h1 } := (Except.ok.inj o1).symm
      exact ⟨none, u2 none fun _ => by rw [he]⟩
    | some p => exact ⟨_, u2 (some fun _ _ => .error .runtimeError) (by simp)⟩
  obtain ⟨F', mv⟩ := ht.moved m hb hl
  have hdep : F.depth < fuel := by have := F.depth_le; omega
  have v1 := Heap.linkageVisitor_tree ht.tree true hdep
  have v2 := Heap.linkageVisitor_tree mv.oldTree true hdep
  have hsu : uniteSplit fuel H.svdU (removeEnv H s [t, fin]) t a (opOf H o) = .ok ({ st with heap := h3 }, mid, fin) := by
    unfold uniteSplit
    have v1' : (removeEnv H s [t, fin]).heap.linkageVisitor fuel t none true false = _ := v1
    rw [v1']
    simp only [ok_bind]
    have hb' : Dict.get? ((removeEnv H s [t, fin]).heap.access t) a = some (fin, j) := hb
    simp only [Dict.get!, hb', ok_bind]
    have e1' : (removeEnv H s [t, fin]).heap.unite t a none
        (((removeEnv H s [t, fin]).heap.node t).normalized &&
          ((removeEnv H s [t, fin]).heap.node fin).normalized) = .ok (h1, mid) := e1
    rw [e1']
    simp only [ok_bind]
    rw [o1]
    simp only [ok_bind]
    have u1' : st.heap.split H.svdU mid (.many ((List.range (((removeEnv H s [t, fin]).heap.order fin) - 1)).map
          fun k => a + k)) (some (j, a)) (some fin) (some t) (((removeEnv H s [t, fin]).heap.node t).normalized &&
          ((removeEnv H s [t, fin]).heap.node fin).normalized) = .ok (h3, fin, t) := u1
    rw [u1']
    simp only [ok_bind]
    rw [v2]
    simp [pure, Except.pure]
  refine ⟨removeEnv H { { st with heap := h3 } with root := fin } [t, mid, fin], ?_, rfl, ?_, ?_⟩
  · unfold move
    have hb' : Dict.get? (s.heap.access t) a = some (fin, j) := hb
    simp only [Dict.get!, hb', ok_bind]
    rw [if_pos trivial, hsu]
    rfl
  · have hmono := m.mono
    have hfresh := m.fresh
    have hm0 := iv.mono
    have hr3 : h3.Rooted fin F' := by
      refine ⟨m.axisFin, fun e he => ?_⟩
      rcases mv.other ht hb hl he with rfl | ⟨q1, q2, q3⟩
      · exact m.axisSelf
      · have hT := (hn.isLink e q1).2.2
        have q4 : e.2.2.1 ≠ mid := by intro q; exact hn.mid_not_mem m (q ▸ hT)
        show (h3.node _).axis = _
        rw [(m.otherAxis _ q2 q3 q4).1]
        exact hax' e q1 q3
    refine ⟨⟨F', mv.ttn, hr3, mv.plain ht m hpT⟩, fun c k => (m.acc c k).trans (iv.acc c k), fun c hc => ?_, ?_,
      hlnk.tail ⟨a, j, hb0⟩, hH.unite2 _ _ _ _ _ _ _ _ _ _ _ _ _ _ F' _ A B ht1 hr ht hroot hA hB hb hl m1 mt hr1 o2 oI u0 m mv.ttn hr3
      u3 ⟨_, iv.inv⟩⟩
    · show h3.isLeaf c = _
      rw [(m.other c (by omega)).2.1]
      exact iv.leaf c hc
    · show h0.next ≤ h3.next
      omega
  · refine ⟨_, o3, ?_⟩
    cases o with
    | none => exact .nil
    | some p =>
      refine .cons ⟨⟨?_, ?_⟩, rfl⟩ .nil
      · have := m1.fresh; have := iv.mono; show h0.next ≤ mid; omega
      · have hin : a < A.ndim := (hA.acc a).1 (by rw [hb]; simp)
        have hjn : j < B.ndim := (hB.acc j).1 (by rw [hn.links.sym _ _ _ _ hb]; simp)
        rintro ⟨u, l⟩
        show (u, l) ∈ (h1.linkages mid).map Prod.snd ↔ _
        rw [List.mem_map]
        constructor
        · rintro ⟨⟨k, u', l'⟩, q1, q2⟩
          simp only [Prod.mk.injEq] at q2
          obtain ⟨rfl, rfl⟩ := q2
          rw [Heap.mem_linkages m1.links.wf] at q1
          have hk : k < M.ndim := (hM.acc k).1 (by rw [q1]; simp)
          rw [hMn] at hk
          have q3 := m1.accMid k _ (List.getElem?_eq_getElem hk)
          have q4 := List.getElem_mem hk
          generalize (Heap.uniteLabels t a A.ndim fin j B.ndim)[k] = pp at q3 q4
          obtain ⟨x, y⟩ := pp
          rw [q1, iv.acc] at q3
          rw [Heap.mem_uniteLabels hin hjn] at q4
          rcases q4 with ⟨rfl, -, q5⟩ | ⟨rfl, -, q5⟩
          · exact .inl ⟨y, q5, q3.symm⟩
          · exact .inr ⟨y, q5, q3.symm⟩
        · have key : ∀ x y, s.heap.acc x y = some (u, l) → (x, y) ∈ Heap.uniteLabels t a A.ndim fin j B.ndim →
              ∃ p ∈ h1.linkages mid, p.2 = (u, l) := by
            intro x y q1 q2
            obtain ⟨k, hk, q3⟩ := List.getElem_of_mem q2
            refine ⟨(k, u, l), ?_, rfl⟩
            rw [Heap.mem_linkages m1.links.wf, m1.accMid k (x, y) (by rw [List.getElem?_eq_getElem hk, q3])]
            exact q1
          rintro (⟨k, q1, q2⟩ | ⟨k, q1, q2⟩)
          · rw [← iv.acc] at q2
            exact key _ _ q2 ((Heap.mem_uniteLabels hin hjn).2 (.inl ⟨rfl, (hA.acc k).1 (by rw [q2]; simp), q1⟩))
          · rw [← iv.acc] at q2
            exact key _ _ q2 ((Heap.mem_uniteLabels hin hjn).2 (.inr ⟨rfl, (hB.acc k).1 (by rw [q2]; simp), q1⟩))

end Sweep
