import Verif.Lemmas.Conserve2
import Verif.Lemmas.SplitProp2

/-! Helper lemmas for C127: norm and energy in a sweep over one tensor at a time. -/

open scoped BigOperators
open Py

namespace SplitProp

open Heap ML

variable {K T R : Type} [Zero T] [Field R] [StarRing R]

/-- The root is canonical, the leaves are those of the start object `s0`, and so are the norm and the energy. -/
structure Held (s0 : Obj T R) (F0 : Forest) (E : R) (h : Heap R) (r : ℕ) (F : Forest) : Prop where
  canon : h.CanonicalTree r F
  leaves : (h.leafList r F).Perm (s0.heap.leafList s0.root F0)
  norm : dot s0 F0 (h.treeAmp r F) (h.treeAmp r F) = 1
  energy : element s0 F0 (h.treeAmp r F) (h.treeAmp r F) = E

/-- What the sweeps keep. -/
structure Keep (s0 : Obj T R) (F0 : Forest) (E : R) (x : Ext T R) (h : Heap R) (r : ℕ) : Prop where
  hList : x.hList = s0.hList
  state : ∀ F, h.IsTTN r F → Held s0 F0 E h r F

/-- Only the amplitudes matter. -/
theorem Held.next {s0 : Obj T R} {F0 : Forest} {E : R} (ht0 : s0.heap.IsTTN s0.root F0) {h h' : Heap R} {r r' : ℕ} {F F' : Forest}
    (st : Held s0 F0 E h r F) (hc : h'.CanonicalTree r' F') (hl : (h'.leafList r' F').Perm (h.leafList r F))
    (ha : ∀ x : ℕ → ℕ, (∀ p ∈ h.leafList r F, x p.1 < p.2) → h'.treeAmp r' F' x = h.treeAmp r F x) : Held s0 F0 E h' r' F' := by
  have hx : ∀ x : ℕ → ℕ, (∀ p ∈ s0.heap.leafList s0.root F0, x p.1 < p.2) → h'.treeAmp r' F' x = h.treeAmp r F x :=
    fun x hx => ha x fun p hp => hx p (st.leaves.mem_iff.1 hp)
  refine ⟨hc, hl.trans st.leaves, ?_, ?_⟩
  · rw [dot_congr2 (leafList_nodup ht0) hx hx]; exact st.norm
  · rw [element_congr2 (leafList_nodup ht0) hx hx]; exact st.energy

/-- The network seen from the middle is canonical. -/
theorem canon_mid {csvd : Svd R} (hiso : SvdIso csvd) {h h1 : Heap R} {r i fin j mid : ℕ} {F F1 : Forest} (ht : h.IsTTN r F)
    (hb : h.acc r i = some (fin, j)) (hl : h.isLeaf fin = false) (hc : h.CanonicalTree r F) (m : h.MidSplit csvd h1 r i fin j mid)
    (mt : h.MidTree h1 r i fin j mid F F1) : h1.CanonicalTree mid F1 := by
  have hfr := m.fresh
  have keep : ∀ c k, c ≠ r → c ≠ mid → h.Canonical c k → h1.Canonical c k := by
    rintro c k q1 q2 ⟨A, a1, a2⟩
    exact ⟨A, ((core_eq (m.other c q1 q2)).2.2.1).trans a1, a2⟩
  have hfin : fin ≠ r := by
    rintro rfl
    exact (ht.isNet.simple fin (mem_tensors.2 ⟨.inl rfl, ht.leaf⟩) i fin j hb (mem_tensors.2 ⟨.inl rfl, ht.leaf⟩)).1 rfl
  have hfm : fin ≠ mid := by have := (ht.links.lt hb).2; omega
  intro e he
  obtain ⟨he1, he2⟩ := List.mem_filter.1 he
  rcases mt.target e he1 with q | q | ⟨e', q1, q2, q3⟩
  · rw [q]; exact m.canonical hiso
  · rw [q]
    refine keep _ _ hfin hfm ?_
    have : (r, i, fin, j) ∈ h.bonds r F := List.mem_filter.2 ⟨ht.edge_of_acc hb, by simp [hl]⟩
    exact hc _ this
  · have hne : e.2.2.1 ≠ r := by
      rw [← q2]; intro q
      have := (List.nodup_cons.1 ht.tree.nodup).1
      exact this (q ▸ (TreeSum.edges_mem q1).2)
    have hnm : e.2.2.1 ≠ mid := by
      have := ht.ids_lt (List.mem_cons_of_mem _ (TreeSum.edges_mem q1).2)
      rw [q2] at this; omega
    refine keep _ _ hne hnm ?_
    have hlf : h.isLeaf e'.2.2.1 = false := by
      rw [q2]
      refine (core_eq (m.other _ hne hnm)).2.2.2.2.2.2.symm.trans ?_
      simpa [Heap.isLeaf] using he2
    have := hc e' (List.mem_filter.2 ⟨q1, by simp [hlf]⟩)
    rw [q2] at this; exact this

/-- The other tensors stay canonical. -/
theorem canon_change {h h' : Heap R} {r : ℕ} {F : Forest} (ht : h.IsTTN r F) (hc : h.CanonicalTree r F) (g : h.GoodChange h' r) :
    h'.CanonicalTree r F := by
  intro e he
  have he' : e ∈ h.bonds r F := by
    obtain ⟨he1, he2⟩ := List.mem_filter.1 he
    exact List.mem_filter.2 ⟨he1, by rw [GoodChange.isLeaf g] at he2; exact he2⟩
  obtain ⟨A, a1, a2⟩ := hc e he'
  refine ⟨A, ?_, a2⟩
  rw [g.other _ ?_]; exact a1
  intro q
  exact (List.nodup_cons.1 ht.tree.nodup).1 (q ▸ (TreeSum.edges_mem (List.mem_filter.1 he').1).2)

theorem amp_self {h : Heap R} {r : ℕ} {A : Nd R} (hA : h.array r = some A) (F : Forest) (x : ℕ → ℕ) :
    (h.setArray r (some A)).treeAmp r F x = h.treeAmp r F x := by
  have hl : ∀ c, (h.setArray r (some A)).isLeaf c = h.isLeaf c := fun c => by
    unfold Heap.isLeaf; rw [node_setArray]; split <;> rfl
  refine treeAmp_congr (h := h) (h' := h.setArray r (some A)) (fun u => ?_) (fun u k => Heap.acc_setArray ..) hl r F x
  rw [Heap.array_setArray]
  split
  · rename_i q; rw [q, hA]
  · rfl

theorem evolve_keep {N : ℕ} (cf : Config K T R) (hs : Conservative cf.solver) {coef : R} (h00 : coef ≠ 0)
    (hcoef : ∀ time : Option T, time.isNone = cf.imaginary → cf.coef time = coef)
    (he : coef * star (cf.initEnergy.getD 0) = -(star coef * cf.initEnergy.getD 0)) (h1 : cf.sqrt 1 = 1)
    {s0 : Obj T R} {F0 : Forest} {E : R} (hf0 : s0.fList = none) (hg : Generates s0 F0 coef)
    {x : Ext T R} {h : Heap R} {t : ℕ} {F : Forest} (tau : K) (cache : Bool) (ht : h.IsTTN t F) (hr : h.Rooted t F)
    (f : Fine (Call.Right cf) N x h t) (k : Keep s0 F0 E x h t) :
    ∃ x' h', evolve cf x h t tau cache = .ok (x', h') ∧ h.GoodChange h' t ∧ Fine (Call.Right cf) N x' h' t ∧ Keep s0 F0 E x' h' t := by
  obtain ⟨A, hA⟩ := ht.full t (mem_tensors.2 ⟨.inl rfl, ht.leaf⟩)
  have st := k.state F ht
  set s : Obj T R := x.obj h t with hsdef
  have hts : s.heap.IsTTN s.root F := ht
  have ha0 : s0.allTerms none = s0.hList := by unfold Obj.allTerms; simp [hf0]
  have ha : s.allTerms none = x.hList := f.allTerms h t
  have hall : s.allTerms none = s0.allTerms none := by rw [ha, ha0, k.hList]
  have hop : ∀ term ∈ s0.allTerms none, ∀ l, opOn s.now term l = opOn s0.now term l := fun term hterm l =>
    opOn_const (f.const term (by rw [k.hList, ← ha0]; exact hterm)) _ _ l
  have hE : ∀ φ χ, element s F φ χ = element s0 F0 φ χ := fun φ χ => element_same (leafList_nodup ht) st.leaves hall hop φ χ
  have hD : ∀ φ χ, dot s F φ χ = dot s0 F0 φ χ := fun φ χ => dot_same (leafList_nodup ht) st.leaves φ χ
  have hgs : Generates s F coef := by
    intro u v hu hv
    rw [hEntry_same st.leaves hall hop, hEntry_same st.leaves hall hop]
    exact hg u v (fun p hp => hu p (st.leaves.mem_iff.2 hp)) fun p hp => hv p (st.leaves.mem_iff.2 hp)
  set n := A.shape.prod with hn
  set W := wMat s F A.shape coef (cf.initEnergy.getD 0) with hW
  have hleaf : ∀ e ∈ F.edges s.root, s.heap.isLeaf e.2.2.1 = true → s.heap.array e.2.2.1 = none := fun e _ q => f.empty _ q
  have hnorm : ∀ Y : Nd R, Y.Wf → Y.shape = A.shape → dot s0 F0 (variation s F t (some Y)) (variation s F t (some Y)) = normSq n Y.data :=
    fun Y y1 y2 => (hD _ _).symm.trans (dot_coord hts st.canon hleaf hA y1 y2)
  have hener : ∀ Y : Nd R, Y.shape = A.shape → element s0 F0 (variation s F t (some Y)) (variation s F t (some Y)) =
      coef * form n W Y.data + cf.initEnergy.getD 0 * normSq n Y.data := fun Y y2 => by
    rw [← hE]
    refine (element_coord hts hA y2 y2).trans ?_
    exact form_wMat s F A.shape h00 n Y.data
  have hself : variation s F t (some A) = h.treeAmp t F := funext fun w => amp_self hA.array F w
  have n1 : normSq n A.data = 1 := by rw [← hnorm A hA.wf rfl, hself]; exact st.norm
  have e1 : coef * form n W A.data + cf.initEnergy.getD 0 * 1 = E := by
    rw [← n1, ← hener A rfl, hself]; exact st.energy
  have hupd := hs n W (fun a _ b _ => wMat_skew hts h00 hgs he A.shape a b) (x.time.getD 0) A.data tau hA.wf
  obtain ⟨x', h', A', r1, r2, r3, r4, r5, r6, r7⟩ := run_conserve (N := N) cf cache (x0 := x) ht hA f.fList f.const h00 hcoef h1
    (cf.solver (x.time.getD 0) A.data tau) (w := form n W A.data)
    (fun y hy => ⟨(hupd y hy).1, (hupd y hy).2.1.trans n1, (hupd y hy).2.2⟩) x h A ht hr f
    (.refl fun B hB => by rw [hA.array] at hB; cases hB; exact hA.wf) rfl hA.array n1 rfl
  obtain ⟨A1, a1, a2, a3⟩ := r2.array A hA.array
  obtain rfl : A' = A1 := Option.some.inj (r5.symm.trans a1)
  have hself' : h'.treeAmp t F = variation s F t (some A') := funext fun w =>
    (amp_self r5 F w).symm.trans (variation_same r2 A' F w)
  refine ⟨x', h', ?_, r2, r3, r4.trans k.hList, fun F' ht' => ?_⟩
  · unfold evolve
    rw [hA.array]
    exact r1
  · obtain rfl := (Sweep.ttn_change ht r2).tree.unique ht'.tree
    refine ⟨canon_change ht st.canon r2, by rw [leafList_change r2 hA.array]; exact st.leaves, ?_, ?_⟩
    · rw [hself', hnorm A' a2 a3]; exact r6
    · rw [hself', hener A' a3, r6, r7]; exact e1

/-- The sweeps keep the norm and the energy. -/
theorem goodS (N : ℕ) (cf : Config K T R) (hsv : SvdShape cf.svd) (hiso : SvdIso cf.svd) (hex : SvdExact cf.svd) (hs : Conservative cf.solver)
    {coef : R} (h00 : coef ≠ 0) (hcoef : ∀ time : Option T, time.isNone = cf.imaginary → cf.coef time = coef)
    (he : coef * star (cf.initEnergy.getD 0) = -(star coef * cf.initEnergy.getD 0)) (h1 : cf.sqrt 1 = 1)
    {s0 : Obj T R} {F0 : Forest} {E : R} (ht0 : s0.heap.IsTTN s0.root F0) (hf0 : s0.fList = none) (hg : Generates s0 F0 coef) :
    (hooks cf).GoodS (fun x h r => Fine (Call.Right cf) N x h r ∧ Keep s0 F0 E x h r)
      fun x h r => Good (Call.Right cf) N x h r ∧ Keep s0 F0 E x h r where
  evolve x h t F tau cache ht hr f := evolve_keep cf hs h00 hcoef he h1 hf0 hg tau cache ht hr f.1 f.2
  formEnv x h r F ht hr f := by
    obtain ⟨x', h', e1, e2, e3⟩ := formEnv_fine cf ht hr f.1
    refine ⟨x', h', e1, e2, e3, ?_, fun F' ht' => ?_⟩
    · unfold formEnv at e1
      obtain ⟨s1, -, e4⟩ := bind_eq_ok.1 e1
      simp only [pure, Except.pure, Except.ok.injEq, Prod.mk.injEq] at e4
      rw [← e4.1]; exact f.2.hList
    · have hacc : ∀ u k, h'.acc u k = h.acc u k := fun u k => by rw [Heap.acc_def, Heap.acc_def, e2.access]
      have hlf : ∀ u, h'.isLeaf u = h.isLeaf u := fun u => (e2.node u).1
      have ht2 : h.IsTTN r F' := by
        have : IsTree h r none F' := ht'.tree.congr ht'.links.wf ht.links.wf (fun u k => (hacc u k).symm) fun c _ => (hlf c).symm
        rw [← ht.tree.unique this]; exact ht
      have st := f.2.state F' ht2
      refine st.next ht0 (fun e he => ?_) ?_ fun x _ => treeAmp_congr e2.array hacc hlf r F' x
      · obtain ⟨q1, q2⟩ := List.mem_filter.1 he
        obtain ⟨A, a1, a2⟩ := st.canon e (List.mem_filter.2 ⟨q1, by rw [hlf] at q2; exact q2⟩)
        exact ⟨A, by rw [e2.array]; exact a1, a2⟩
      · unfold Heap.leafList Heap.hdim
        simp only [hlf, e2.array]
        exact .refl _
  again x h r f := ⟨f.1.toGood, f.2⟩
  split1 x h hh1 r F i fin j mid F1 ht hr hb hl f m mt hr1 e hp := by
    refine ⟨f.1.mid ht (.inl rfl) ht hb hl (MidSplit.midOk hiso ht hb hl m) mt, f.2.hList, fun F' ht' => ?_⟩
    obtain rfl := mt.ttn.tree.unique ht'.tree
    obtain ⟨nr, e⟩ := e
    have st := f.2.state F ht
    obtain ⟨p1, p2⟩ := split_state hsv hex ht hr hb hl hp m mt.ttn e
    exact st.next ht0 (canon_mid hiso ht hb hl st.canon m mt) p1 p2
  split2 x h hh1 hh2 hh3 r F i fin j mid F1 F3 op ht hr hb hl m mt hr1 g f hn mv t3 r3 e x0 := by
    refine ⟨.back ht hb hl (MidSplit.midOk hiso ht hb hl m) mt g f.1 hn hiso mv t3, f.2.hList, fun F' ht' => ?_⟩
    obtain rfl := t3.tree.unique ht'.tree
    obtain ⟨nr, e⟩ := e
    obtain ⟨x0, f0⟩ := x0
    have t2 := Sweep.ttn_change mt.ttn g
    have st := f.2.state F1 t2
    obtain ⟨F'', mm⟩ := ht.moved mv hb hl
    obtain rfl := t3.tree.unique mm.ttn.tree
    have hfl : hh2.isLeaf fin = false := by
      rw [GoodChange.isLeaf g]
      have hfm : fin ≠ mid := by have := (ht.links.lt hb).2; have := m.fresh; omega
      have hfin : fin ≠ r := by
        rintro rfl
        exact (ht.isNet.simple fin (mem_tensors.2 ⟨.inl rfl, ht.leaf⟩) i fin j hb (mem_tensors.2 ⟨.inl rfl, ht.leaf⟩)).1 rfl
      exact (core_eq (m.other fin hfin hfm)).2.2.2.2.2.2.trans hl
    obtain ⟨p1, p2⟩ := unite_state t2 (by rw [(g.node mid).2.2.1]; exact m.axis) (k := 1) (j := j) (fin := fin)
      (by rw [GoodChange.acc g, m.accMid]; rfl) hfl t3 e
    exact st.next ht0 (mm.canonical ht mv hb hl hiso (f0.2.state F ht).canon) p1 p2
  svd := hsv

end SplitProp
