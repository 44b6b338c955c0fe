import Verif.Lemmas.Conserve4

/-! Helper lemmas for C131: sweeps in which no propagation changes a tensor. -/

open scoped BigOperators
open Py

namespace SplitProp

open Heap ML

variable {K T R : Type} [Zero T] [Field R] [StarRing R]

/-- Vectors given to `updater` never have `n` entries. -/
def Plan.Never (n : ℕ) : Plan T R → Prop
  | .stop => True
  | .eval _ _ next => ∀ d, Never n (next d)
  | .update y next => (n ≠ 0 → y.length ≠ n) ∧ Never n next
  | .reform next => Never n next

theorem same_empty {A B : Nd R} (hA : A.Wf) (hB : B.Wf) (hs : B.shape = A.shape) (h0 : A.shape.prod = 0) : B = A := by
  have a : A.data = [] := List.length_eq_zero_iff.1 (by have : A.data.length = A.shape.prod := hA; omega)
  have b : B.data = [] := List.length_eq_zero_iff.1 (by have : B.data.length = B.shape.prod := hB; rw [hs] at this; omega)
  cases A; cases B; simp_all

/-- Such a propagation changes no array. -/
theorem run_idle {N : ℕ} (cf : Config K T R) {t : ℕ} {F : Forest} (cache : Bool) (p : Plan T R) : ∀ (x : Ext T R) (h : Heap R) (A : Nd R), h.IsTTN t F →
    h.Rooted t F → Fine (Call.Right cf) N x h t → h.array t = some A → p.Never A.shape.prod →
    ∃ x' h', run cf t cache p (x, h) = .ok (x', h') ∧ h.GoodChange h' t ∧ Fine (Call.Right cf) N x' h' t ∧ h'.array t = some A ∧ x'.hList = x.hList := by
  induction p with
  | stop =>
    intro x h A ht hr f hA _
    obtain ⟨A', hA'⟩ := ht.full t (mem_tensors.2 ⟨.inl rfl, ht.leaf⟩)
    exact ⟨x, h, rfl, .refl fun B hB => by rw [hA'.array] at hB; cases hB; exact hA'.wf, f, hA, rfl⟩
  | eval time y next ih =>
    intro x h A ht hr f hA0 hp
    obtain ⟨A', hA⟩ := ht.full t (mem_tensors.2 ⟨.inl rfl, ht.leaf⟩)
    obtain rfl : A = A' := Option.some.inj (hA0.symm.trans hA.array)
    by_cases hy : y.length = A.shape.prod
    case neg =>
      unfold run
      rw [hA.array]
      simp only
      rw [if_neg hy]
      exact ⟨x, h, rfl, .refl fun B hB => by rw [hA.array] at hB; cases hB; exact hA.wf, f, hA0, rfl⟩
    case pos =>
      obtain ⟨x3, h3, d, G, q1, g, f3, a3, l3, -⟩ := eval_step cf cache ht hr f hA time hy next
      obtain ⟨x', h', e2, e3, e4, e5, e6⟩ := ih d x3 h3 A (Sweep.ttn_change ht g) (Sweep.rooted_change hr g) f3 a3 (hp d)
      exact ⟨x', h', q1.trans e2, GoodChange.trans g e3, e4, e5, e6.trans l3⟩
  | update y next ih =>
    intro x h A ht hr f hA0 hp
    obtain ⟨A', hA⟩ := ht.full t (mem_tensors.2 ⟨.inl rfl, ht.leaf⟩)
    obtain rfl : A = A' := Option.some.inj (hA0.symm.trans hA.array)
    unfold run
    rw [hA.array]
    simp only
    split
    case isFalse => exact ⟨x, h, rfl, .refl fun B hB => by rw [hA.array] at hB; cases hB; exact hA.wf, f, hA0, rfl⟩
    case isTrue hy =>
      have h0 : A.shape.prod = 0 := by
        by_contra q
        exact hp.1 q hy
      have hYw : (⟨A.shape, y⟩ : Nd R).Wf := by unfold Nd.Wf; exact hy
      have g1 := goodChange_setArray hA.array hYw rfl
      obtain ⟨h2, o, n1, n2⟩ := normalize_root (h := h.setArray t (some ⟨A.shape, y⟩)) (t := t) (A := ⟨A.shape, y⟩)
        (by rw [Heap.array_setArray, if_pos rfl]) hYw (Sweep.rooted_change hr g1).1 cf.sqrt (!cf.imaginary)
      have g := GoodChange.trans g1 n2
      obtain ⟨A2, a1, a2, a3⟩ := g.array A hA0
      obtain rfl := same_empty hA.wf a2 a3 h0
      rw [n1]
      simp only [ok_bind]
      obtain ⟨x', h', e2, e3, e4, e5, e6⟩ := ih x h2 A2 (Sweep.ttn_change ht g) (Sweep.rooted_change hr g)
        (f.change ht hr g rfl rfl f.calls fun k v q => .inl q) a1 hp.2
      exact ⟨x', h', e2, GoodChange.trans g e3, e4, e5, e6⟩
  | reform next ih =>
    intro x h A ht hr f hA hp
    unfold run
    rw [if_pos (by rw [f.fList]; rfl)]
    exact ih x h A ht hr f hA hp

/-- The leaves and the amplitudes are those of the start. -/
structure Same (h0 : Heap R) (r0 : ℕ) (F0 : Forest) (h : Heap R) (r : ℕ) (F : Forest) : Prop where
  leaves : (h.leafList r F).Perm (h0.leafList r0 F0)
  amp : ∀ x : ℕ → ℕ, (∀ p ∈ h0.leafList r0 F0, x p.1 < p.2) → h.treeAmp r F x = h0.treeAmp r0 F0 x

theorem Same.next {h0 : Heap R} {r0 : ℕ} {F0 : Forest} {h h' : Heap R} {r r' : ℕ} {F F' : Forest}
    (st : Same h0 r0 F0 h r F) (hl : (h'.leafList r' F').Perm (h.leafList r F))
    (ha : ∀ x : ℕ → ℕ, (∀ p ∈ h.leafList r F, x p.1 < p.2) → h'.treeAmp r' F' x = h.treeAmp r F x) : Same h0 r0 F0 h' r' F' :=
  ⟨hl.trans st.leaves, fun x hx => (ha x fun p hp => hx p (st.leaves.mem_iff.1 hp)).trans (st.amp x hx)⟩

/-- What the sweeps keep. -/
def Still (h0 : Heap R) (r0 : ℕ) (F0 : Forest) (h : Heap R) (r : ℕ) : Prop := ∀ F, h.IsTTN r F → Same h0 r0 F0 h r F

/-- The state seen from a neighbour. -/
theorem seen_next {h : Heap R} {r t i fin j : ℕ} {Fr F : Forest} (htr : h.IsTTN r Fr) (ht : h.IsTTN t F) (hroot : r = t ∨ r = fin)
    (hb : h.acc t i = some (fin, j)) : (h.leafList t F).Perm (h.leafList r Fr) ∧
      ∀ x : ℕ → ℕ, (∀ p ∈ h.leafList r Fr, x p.1 < p.2) → h.treeAmp t F x = h.treeAmp r Fr x := by
  rcases hroot with e | e
  · subst e
    obtain rfl := htr.tree.unique ht.tree
    exact ⟨.refl _, fun _ _ => rfl⟩
  · subst e
    have hbs := ht.links.sym _ _ _ _ hb
    have htT : t ∈ h.tensors r Fr := by
      refine mem_tensors.2 ⟨(htr.mem_linked t).2 ?_, ht.leaf⟩
      exact Relation.ReflTransGen.single ⟨j, i, hbs⟩
    obtain ⟨F2, f1, f2⟩ := htr.reroot htT
    obtain rfl := f1.tree.unique ht.tree
    exact ⟨leafList_perm htr f1 f2, fun x _ => treeAmp_reroot htr f1 f2 x⟩

theorem evolve_still {N : ℕ} (cf : Config K T R) (hs : ∀ t0 y tau, (cf.solver t0 y tau).Never y.length)
    {h0 : Heap R} {r0 : ℕ} {F0 : Forest} {x : Ext T R} {h : Heap R} {t : ℕ} {F : Forest} (tau : K) (cache : Bool) (ht : h.IsTTN t F) (hr : h.Rooted t F)
    (f : Fine (Call.Right cf) N x h t) :
    ∃ x' h', evolve cf x h t tau cache = .ok (x', h') ∧ h.GoodChange h' t ∧ Fine (Call.Right cf) N x' h' t ∧ (∀ u, h'.array u = h.array u) ∧
      (Still h0 r0 F0 h t → Still h0 r0 F0 h' t) := by
  obtain ⟨A, hA⟩ := ht.full t (mem_tensors.2 ⟨.inl rfl, ht.leaf⟩)
  have hn : A.data.length = A.shape.prod := hA.wf
  obtain ⟨x', h', e1, e2, e3, e4, e5⟩ := run_idle cf cache (cf.solver (x.time.getD 0) A.data tau) x h A ht hr f hA.array (hn ▸ hs _ _ _)
  have harr : ∀ u, h'.array u = h.array u := fun u => by
    by_cases q : u = t
    · rw [q, e4, hA.array]
    · exact e2.other u q
  refine ⟨x', h', ?_, e2, e3, harr, fun k F' ht' => ?_⟩
  · unfold evolve; rw [hA.array]; exact e1
  · obtain rfl := (Sweep.ttn_change ht e2).tree.unique ht'.tree
    refine (k F ht).next (by rw [leafList_change e2 hA.array]) fun y _ => ?_
    exact treeAmp_congr harr (fun u k => GoodChange.acc e2 u k) (fun u => GoodChange.isLeaf e2 u) t F y

/-- Sweeps in which the tensors are not updated keep the state. -/
theorem goodI_still (N : ℕ) (cf : Config K T R) (hsv : SvdShape cf.svd) (hiso : SvdIso cf.svd) (hex : SvdExact cf.svd)
    (hsvU : SvdShape cf.svdU) (hisoU : SvdIso cf.svdU) (hexU : SvdExact cf.svdU) (hs : ∀ t0 y tau, (cf.solver t0 y tau).Never y.length)
    (h0 : Heap R) (r0 : ℕ) (F0 : Forest) :
    (hooks cf).GoodI (fun x h r => Fine (Call.Right cf) N x h r ∧ Still h0 r0 F0 h r)
      fun x h r => Good (Call.Right cf) N x h r ∧ Still h0 r0 F0 h r where
  evolve x h t F tau cache ht hr f := by
    obtain ⟨x', h', e1, e2, e3, -, e5⟩ := evolve_still (h0 := h0) (r0 := r0) (F0 := F0) cf hs tau cache ht hr f.1
    exact ⟨x', h', e1, e2, e3, e5 f.2⟩
  formEnv x h r F ht hr f := by
    obtain ⟨x', h', e1, e2, e3⟩ := formEnv_fine cf ht hr f.1
    refine ⟨x', h', e1, e2, e3, fun F' ht' => ?_⟩
    have hacc : ∀ u k, h'.acc u k = h.acc u k := fun u k => by rw [Heap.acc_def, Heap.acc_def, e2.access]
    have hlf : ∀ u, h'.isLeaf u = h.isLeaf u := fun u => (e2.node u).1
    have ht2 : h.IsTTN r F' := by
      have : IsTree h r none F' := ht'.tree.congr ht'.links.wf ht.links.wf (fun u k => (hacc u k).symm) fun c _ => (hlf c).symm
      rw [← ht.tree.unique this]; exact ht
    refine (f.2 F' ht2).next ?_ fun x _ => treeAmp_congr e2.array hacc hlf r F' x
    unfold Heap.leafList Heap.hdim
    simp only [hlf, e2.array]
    exact .refl _
  again x h r f := ⟨f.1.toGood, f.2⟩
  split1 x h hh1 r F i fin j mid F1 ht hr hb hl f m mt hr1 e hp := by
    refine ⟨f.1.mid ht (.inl rfl) ht hb hl (MidSplit.midOk hiso ht hb hl m) mt, fun F' ht' => ?_⟩
    obtain rfl := mt.ttn.tree.unique ht'.tree
    obtain ⟨nr, e⟩ := e
    obtain ⟨p1, p2⟩ := split_state hsv hex ht hr hb hl hp m mt.ttn e
    exact (f.2 F ht).next p1 p2
  split2 x h hh1 hh2 hh3 r F i fin j mid F1 F3 op ht hr hb hl m mt hr1 g f hn mv t3 r3 e x0 := by
    refine ⟨.back ht hb hl (MidSplit.midOk hiso ht hb hl m) mt g f.1 hn hiso mv t3, fun F' ht' => ?_⟩
    obtain rfl := t3.tree.unique ht'.tree
    obtain ⟨nr, e⟩ := e
    have t2 := Sweep.ttn_change mt.ttn g
    have hfl : hh2.isLeaf fin = false := by
      rw [GoodChange.isLeaf g]
      have hfm : fin ≠ mid := by have := (ht.links.lt hb).2; have := m.fresh; omega
      have hfin : fin ≠ r := by
        rintro rfl
        exact (ht.isNet.simple fin (mem_tensors.2 ⟨.inl rfl, ht.leaf⟩) i fin j hb (mem_tensors.2 ⟨.inl rfl, ht.leaf⟩)).1 rfl
      exact (core_eq (m.other fin hfin hfm)).2.2.2.2.2.2.trans hl
    obtain ⟨p1, p2⟩ := unite_state t2 (by rw [(g.node mid).2.2.1]; exact m.axis) (k := 1) (j := j) (fin := fin)
      (by rw [GoodChange.acc g, m.accMid]; rfl) hfl t3 e
    exact (f.2 F1 t2).next p1 p2
  svd := hsv
  unite1 x h hh1 r Fr t F i fin j mid F1 A B htr hrr ht hroot hA hB hb hl f m mt hr1 := by
    refine ⟨f.1.mid htr hroot ht hb hl (MidUnite.midOk ht hA hB hb hl m) mt, fun F' ht' => ?_⟩
    obtain rfl := mt.ttn.tree.unique ht'.tree
    obtain ⟨s2, s3⟩ := seen_next htr ht hroot hb
    obtain ⟨p1, p2⟩ := m.state ht mt.ttn hA hB hb hl
    refine (f.2 Fr htr).next (p1.trans s2) fun x hx => ?_
    rw [p2 x fun p hp => hx p (s2.mem_iff.1 hp), s3 x hx]
  unite2 x h hh1 hh2 hh3 r Fr t F i fin j mid F1 F3 op A B htr hrr ht hroot hA hB hb hl m mt hr1 g f hn mv t3 r3 hs3 x0 := by
    refine ⟨.back ht hb hl (MidUnite.midOk ht hA hB hb hl m) mt g f.1 hn hisoU mv t3, fun F' ht' => ?_⟩
    obtain rfl := t3.tree.unique ht'.tree
    have t2 := Sweep.ttn_change mt.ttn g
    obtain ⟨p1, p2⟩ := m.split_state hexU ht mt.ttn hA hB hb hl g mv t3 hs3
    exact (f.2 F1 t2).next p1 p2
  svdU := hsvU

end SplitProp
