import Verif.Lemmas.Keep
import Verif.Lemmas.Sweep
import Verif.Lemmas.Normalize

/-!
The projector-splitting integrator: the cache stays right.
-/

open scoped BigOperators
open Py

namespace SplitProp

open Heap ML

variable {K T R : Type} [Zero T] [Field R] [StarRing R]

/-- What a sweep keeps, apart from the cache. There are no time-dependent terms; the operators of the terms belong to leaves and
fit; no leaf carries an operator; the normalization marks are right; and all calls of the right-hand side so far were right (`P`). -/
structure Good (P : Call T R → Prop) (N : ℕ) (x : Ext T R) (h : Heap R) (r : ℕ) : Prop where
  bound : N ≤ h.next
  fList : x.fList = none
  const : ∀ term ∈ x.hList, ∀ p ∈ term, ∀ t t' : T, p.2.at t = p.2.at t'
  leaf : ∀ term ∈ x.hList, ∀ p ∈ term, h.isLeaf p.1 = true ∧ p.1 < N
  fits : ∀ term ∈ x.hList, ∀ t k l j, h.acc t k = some (l, j) → h.isLeaf l = true →
    OpFits (opOn 0 term l) (h.hdim (t, k)) (h.hdim (t, k))
  empty : ∀ l, h.isLeaf l = true → h.array l = none
  marks : ∀ t k, h.acc t k ≠ none → (h.node t).axis ≠ none → h.MarkOk t
  calls : ∀ c ∈ x.calls, P c

/-- And the cache: the mean fields stored for links away from the root are right, and there are none for objects that do not exist. -/
structure Fine (P : Call T R → Prop) (N : ℕ) (x : Ext T R) (h : Heap R) (r : ℕ) : Prop extends Good P N x h r where
  env : ∀ F, h.IsTTN r F → AwayRight (x.obj h r) F
  fresh : ∀ k v, x.env.get? k = some v → k.2.1 < h.next

theorem opOn_const {term : Term T R} (hc : ∀ p ∈ term, ∀ t t' : T, p.2.at t = p.2.at t') (t t' : T) (l : ℕ) :
    opOn t term l = opOn t' term l := by
  unfold opOn
  generalize (none : Option (Nd R)) = acc
  induction term generalizing acc with
  | nil => rfl
  | cons p term ih =>
    simp only [List.foldl_cons]
    rw [hc p (by simp) t t']
    exact ih (fun q hq => hc q (by simp [hq])) _

/-- A stored mean field outside the set `S` of changed objects stays right. -/
theorem fieldIs_keep {s s' : Obj T R} {F F' : Forest} {r r' : ℕ} (ht : s.heap.IsTTN r F) (hkt : s'.heap.IsTTN r' F') {term : Term T R}
    (hop : ∀ l, opOn s'.now term l = opOn s.now term l) {S : ℕ → Prop}
    (K1 : ∀ d ∈ F'.edges r', ¬ S d.1 → d ∈ F.edges r) (K4 : ∀ d ∈ F.edges r, ¬ S d.1 → d ∈ F'.edges r')
    (K2 : ∀ d ∈ F.edges r, ¬ S d.1 → ¬ S d.2.2.1) (Kl : ∀ u, ¬ S u → s'.heap.isLeaf u = s.heap.isLeaf u)
    (Ka : ∀ u ∈ F.ids, ¬ S u → s.heap.isLeaf u = false → s'.heap.array u = s.heap.array u) {a i c j : ℕ}
    (he : (a, i, c, j) ∈ F.edges r) (he' : (a, i, c, j) ∈ F'.edges r') (hc : ¬ S c) (hd : s'.heap.hdim (a, i) = s.heap.hdim (a, i))
    {v : Option (Nd R)} (hv : FieldIs (s.withTerm term) a i v) : FieldIs (s'.withTerm term) a i v := by
  obtain ⟨E, e1, e2⟩ := hv
  have l1 : s.heap.isLeaf a = false := (mem_tensors.1 (edges_src_mem ht he)).2
  have l2 : s'.heap.isLeaf a = false := (mem_tensors.1 (edges_src_mem hkt he')).2
  refine ⟨E, field_keep (S := S) (ML.IsTTN.withTerm ht term) (ML.IsTTN.withTerm hkt term) K1 K4 K2 ?_ ?_ he he' hc e1, ?_⟩
  · intro u hu
    rw [withTerm_isLeaf, withTerm_isLeaf, Kl u hu]
  · intro u hu hS
    cases hl : s.heap.isLeaf u with
    | true => rw [withTerm_leaf hl, withTerm_leaf (by rw [Kl u hS]; exact hl), hop]
    | false => rw [withTerm_array hl, withTerm_array (by rw [Kl u hS]; exact hl), Ka u hu hS hl]
  · rw [withTerm_hdim term l2, hd]
    rw [withTerm_hdim term l1] at e2
    exact e2

theorem Good.allTerms {P : Call T R → Prop} {N : ℕ} {x : Ext T R} {h : Heap R} {r : ℕ} (g : Good P N x h r) (h' : Heap R) (r' : ℕ) :
    (x.obj h' r').allTerms none = x.hList := by
  unfold Obj.allTerms Ext.obj
  simp only [g.fList]

omit [StarRing R] in
theorem Good.fuel {h : Heap R} {r : ℕ} {F : Forest} (ht : h.IsTTN r F) : F.ids.length < h.next := by
  have hs : (r :: F.ids) ⊆ List.range h.next := fun u hu => List.mem_range.2 (ht.ids_lt hu)
  have := (List.subperm_of_subset ht.tree.nodup hs).length_le
  simpa using this

theorem Good.ready {P : Call T R → Prop} {N : ℕ} {x : Ext T R} {h : Heap R} {r : ℕ} (g : Good P N x h r) {F : Forest} (ht : h.IsTTN r F) (hr : h.Rooted r F) (time : Option T)
    (env : Dict (ℕ × ℕ × ℕ) (Option (Nd R))) : Ready { x.obj h r with time := time, env := env } F where
  ttn := ht
  rooted := hr
  marks e he := by
    refine g.marks e.2.2.1 e.2.2.2 ?_ ?_
    · rw [(ht.isLink_edge (mem_bonds.1 he).1).2]; simp
    · have := hr.2 e he
      show (h.node e.2.2.1).axis ≠ none
      rw [this]; simp
  leaf term hterm p hp := (g.leaf term (by
    have := g.allTerms h r
    unfold Obj.allTerms Ext.obj at this
    unfold Obj.allTerms Ext.obj at hterm
    rw [← this]; exact hterm) p hp).1
  fits term hterm p hp := by
    have hterm' : term ∈ x.hList := by
      have := g.allTerms h r
      unfold Obj.allTerms Ext.obj at this
      unfold Obj.allTerms Ext.obj at hterm
      rw [← this]; exact hterm
    obtain ⟨e, he, rfl⟩ := List.mem_map.1 hp
    obtain ⟨e1, e2⟩ := List.mem_filter.1 he
    have := g.fits term hterm' e.1 e.2.1 e.2.2.1 e.2.2.2 (ht.isLink_edge e1).1 e2
    rw [opOn_const (g.const term hterm') _ 0]
    exact this

/-! ### Changes of the array of the root -/

omit [StarRing R] in
theorem GoodChange.trans {h h' h'' : Heap R} {m : ℕ} (a : h.GoodChange h' m) (b : h'.GoodChange h'' m) : h.GoodChange h'' m where
  access c := (b.access c).trans (a.access c)
  next := b.next.trans a.next
  node c := by
    obtain ⟨a1, a2, a3, a4⟩ := a.node c
    obtain ⟨b1, b2, b3, b4⟩ := b.node c
    exact ⟨b1.trans a1, b2.trans a2, b3.trans a3, b4.trans a4⟩
  other c hc := (b.other c hc).trans (a.other c hc)
  array A hA := by
    obtain ⟨B, b1, -, b3⟩ := a.array A hA
    obtain ⟨C, c1, c2, c3⟩ := b.array B b1
    exact ⟨C, c1, c2, c3.trans b3⟩

omit [StarRing R] in
theorem goodChange_setArray {h : Heap R} {t : ℕ} {A B : Nd R} (hA : h.array t = some A) (hw : B.Wf) (hs : B.shape = A.shape) :
    h.GoodChange (h.setArray t (some B)) t where
  access c := by unfold Heap.access Heap.setArray Heap.upd; simp only; split <;> rfl
  next := rfl
  node c := by unfold Heap.setArray Heap.upd; simp only; split <;> exact ⟨rfl, rfl, rfl, rfl⟩
  other c hc := by rw [array_setArray, if_neg hc]
  array A' hA' := by
    rw [hA] at hA'; cases hA'
    exact ⟨B, by rw [array_setArray, if_pos rfl], hw, hs⟩

omit [StarRing R] in
theorem GoodChange.acc {h h' : Heap R} {m : ℕ} (g : h.GoodChange h' m) (c k : ℕ) : h'.acc c k = h.acc c k := by
  simp only [Heap.acc_def, g.access]

omit [StarRing R] in
theorem GoodChange.isLeaf {h h' : Heap R} {m : ℕ} (g : h.GoodChange h' m) (c : ℕ) : h'.isLeaf c = h.isLeaf c := (g.node c).1

omit [StarRing R] in
theorem GoodChange.hdim {h h' : Heap R} {m : ℕ} (g : h.GoodChange h' m) {A : Nd R} (hA : h.array m = some A) (c k : ℕ) :
    h'.hdim (c, k) = h.hdim (c, k) := by
  by_cases q : c = m
  · subst q
    obtain ⟨B, b1, -, b3⟩ := g.array A hA
    unfold Heap.hdim
    simp only [b1, hA, b3]
  · unfold Heap.hdim
    simp only [g.other c q]

theorem markOk_congr {h h' : Heap R} {t : ℕ} (h1 : (h'.node t).normalized = (h.node t).normalized) (h2 : h'.isLeaf t = h.isLeaf t)
    (h3 : h'.array t = h.array t) (h4 : (h'.node t).axis = (h.node t).axis) (hm : h.MarkOk t) : h'.MarkOk t := by
  intro A n l a
  have := hm A (by rw [← h1]; exact n) (by rw [← h2]; exact l) (by rw [← h3]; exact a)
  rw [h4]
  cases hx : (h.node t).axis with
  | none => rw [hx] at this; exact this
  | some k =>
    rw [hx] at this
    obtain ⟨A', a1, a2, a3⟩ := this
    exact ⟨A', by rw [h3]; exact a1, a2, a3⟩

/-- Mean fields at links away from the root do not depend on the array of the root. -/
theorem field_change {s s' : Obj T R} {t : ℕ} {F : Forest} (ht : s.heap.IsTTN t F) (g : s.heap.GoodChange s'.heap t) {term : Term T R}
    (hop : ∀ l, opOn s'.now term l = opOn s.now term l) {e : ℕ × ℕ × ℕ × ℕ} (he : e ∈ F.edges t) {v : Option (Nd R)}
    (hv : FieldIs (s.withTerm term) e.1 e.2.1 v) : FieldIs (s'.withTerm term) e.1 e.2.1 v := by
  obtain ⟨A, hA⟩ := ht.full t (mem_tensors.2 ⟨.inl rfl, ht.leaf⟩)
  obtain ⟨a, i, c, j⟩ := e
  have htgt : ∀ d ∈ F.edges t, d.2.2.1 ≠ t := fun d hd q => (List.nodup_cons.1 ht.tree.nodup).1 (q ▸ (TreeSum.edges_mem hd).2)
  exact fieldIs_keep (S := (· = t)) ht (Sweep.ttn_change ht g) hop (fun d hd _ => hd) (fun d hd _ => hd) (fun d hd _ => htgt d hd)
    (fun u _ => GoodChange.isLeaf g u) (fun u _ hu _ => g.other u hu) he he (htgt _ he) (GoodChange.hdim g hA.array a i) hv

/-- The invariant when the array of the root changes. -/
theorem Good.change {P : Call T R → Prop} {N : ℕ} {x x' : Ext T R} {h h' : Heap R} {t : ℕ} (f : Good P N x h t) {F : Forest} (ht : h.IsTTN t F) (hr : h.Rooted t F)
    (g : h.GoodChange h' t) (h1 : x'.hList = x.hList) (h2 : x'.fList = x.fList) (h3 : ∀ c ∈ x'.calls, P c) : Good P N x' h' t where
  bound := by rw [g.next]; exact f.bound
  fList := h2.trans f.fList
  const := by rw [h1]; exact f.const
  leaf := by
    rw [h1]
    intro term hterm p hp
    rw [GoodChange.isLeaf g]
    exact f.leaf term hterm p hp
  fits := by
    rw [h1]
    intro term hterm u k l j hu hl
    obtain ⟨A, hA⟩ := ht.full t (mem_tensors.2 ⟨.inl rfl, ht.leaf⟩)
    rw [GoodChange.hdim g hA.array]
    rw [GoodChange.acc g] at hu
    rw [GoodChange.isLeaf g] at hl
    exact f.fits term hterm u k l j hu hl
  empty := by
    intro l hl
    rw [GoodChange.isLeaf g] at hl
    rw [g.other l (by rintro rfl; rw [ht.leaf] at hl; cases hl)]
    exact f.empty l hl
  marks := by
    intro u k hu hx
    obtain ⟨g1, g2, g3, g4⟩ := g.node u
    rw [g3] at hx
    rw [GoodChange.acc g] at hu
    have hut : u ≠ t := by rintro rfl; exact hx hr.1
    exact markOk_congr g4 g1 (g.other u hut) g3 (f.marks u k hu hx)
  calls := h3

theorem Fine.change {P : Call T R → Prop} {N : ℕ} {x x' : Ext T R} {h h' : Heap R} {t : ℕ} (f : Fine P N x h t) {F : Forest} (ht : h.IsTTN t F) (hr : h.Rooted t F)
    (g : h.GoodChange h' t) (h1 : x'.hList = x.hList) (h2 : x'.fList = x.fList) (h3 : ∀ c ∈ x'.calls, P c)
    (h4 : ∀ k v, x'.env.get? k = some v → x.env.get? k = some v ∨ ∃ n term i, k = (n, t, i) ∧ x.hList[n]? = some term ∧
      FieldIs ((x'.obj h' t).withTerm term) t i v) : Fine P N x' h' t where
  toGood := f.toGood.change ht hr g h1 h2 h3
  env F' ht' := by
    obtain rfl : F = F' := (Sweep.ttn_change ht g).tree.unique ht'.tree
    intro n term hn e he v hv
    rw [(f.toGood.change (x' := x') ht hr g h1 h2 h3).allTerms, h1] at hn
    rcases h4 _ v hv with q | ⟨m, term', i, q1, q2, q3⟩
    · refine field_change (s := x.obj h t) (s' := x'.obj h' t) ht g ?_ he (f.env F ht n term (by rw [f.allTerms]; exact hn) e he v q)
      exact opOn_const (f.const term (List.mem_of_getElem? hn)) _ _
    · simp only [Prod.mk.injEq] at q1
      obtain ⟨rfl, q4, q5⟩ := q1
      obtain rfl : term = term' := Option.some.inj (hn.symm.trans q2)
      rw [q4, q5]; exact q3
  fresh k v hv := by
    rw [g.next]
    rcases h4 _ v hv with q | ⟨m, term', i, rfl, q2, q3⟩
    · exact f.fresh k v q
    · exact ht.lt

/-- `normalize` on a root. -/
theorem normalize_root {h : Heap R} {t : ℕ} {A : Nd R} (hA : h.array t = some A) (hw : A.Wf) (hx : (h.node t).axis = none) (sqrt : R → R)
    (forced : Bool) : ∃ h' o, h.normalize sqrt t forced = .ok (h', o) ∧ h.GoodChange h' t := by
  unfold Heap.normalize
  rw [hA]
  simp only
  split
  · exact ⟨h, none, rfl, .refl fun B hB => by rw [hA] at hB; cases hB; exact hw⟩
  · rw [hx]
    simp only
    unfold localNorm0
    rw [Tensor.partialTrace_none_spec A A.conj rfl]
    refine ⟨_, _, rfl, ?_, rfl, ?_, ?_, ?_⟩
    · intro c
      unfold Heap.access Heap.setArray Heap.setAux Heap.upd
      simp only
      split <;> rfl
    · intro c
      unfold Heap.setArray Heap.setAux Heap.upd
      simp only
      split <;> exact ⟨rfl, rfl, rfl, rfl⟩
    · intro c hc
      unfold Heap.array Heap.setArray Heap.setAux Heap.upd
      simp only [if_neg hc]
    · intro A' hA'
      rw [hA] at hA'; cases hA'
      refine ⟨⟨A.shape, _⟩, (array_setArray _ _ _ _).trans (if_pos rfl), ?_, rfl⟩
      unfold Nd.Wf at hw ⊢; simpa using hw

omit [Zero T] [Field R] [StarRing R] in
/-- After a pass over the terms the network is as before. -/
theorem Clean.array {s0 s : Obj T R} {F : Forest} (c : Clean s0 F s) (he : ∀ l, s0.heap.isLeaf l = true → s0.heap.array l = none) (u : ℕ) :
    s.heap.array u = s0.heap.array u := by
  have e2 : Sim2 s.heap s0.heap := ⟨c.next, c.same⟩
  cases hl : s.heap.isLeaf u with
  | false => exact e2.array hl
  | true =>
    have h0 := he u (by rw [← e2.isLeaf]; exact hl)
    rw [h0, c.others u hl h0]

theorem Clean.onlyCaches {s0 s : Obj T R} {F : Forest} (c : Clean s0 F s) (he : ∀ l, s0.heap.isLeaf l = true → s0.heap.array l = none) :
    Sweep.OnlyCaches s0.heap s.heap := by
  have e2 : Sim2 s.heap s0.heap := ⟨c.next, c.same⟩
  exact ⟨e2.access, c.next, fun u => ⟨e2.isLeaf u, e2.name u, e2.axis u, e2.normalized u⟩, Clean.array c he⟩

omit [StarRing R] in
/-- What `diff` returns. -/
theorem finish_ok (coef : R) (e : Option R) (y : List R) (v : Nd R) (hv : v.data.length = y.length) : (finish coef e y v).length = y.length ∧
    (coef ≠ 0 → ∀ k < y.length, coef * (finish coef e y v).getD k 0 = v.data.getD k 0 - e.getD 0 * y.getD k 0) := by
  unfold finish
  cases e with
  | none =>
    refine ⟨by simpa using hv, fun hc k hk => ?_⟩
    have hk' : k < v.data.length := by omega
    simp only [List.getD_eq_getElem?_getD, List.getElem?_map, List.getElem?_eq_getElem hk', Option.map_some, Option.getD_some, Option.getD_none]
    field_simp
    ring
  | some e =>
    refine ⟨by simp [hv], fun hc k hk => ?_⟩
    have hk' : k < v.data.length := by omega
    simp only [List.getD_eq_getElem?_getD, List.getElem?_map, List.getElem?_zipWith, List.getElem?_eq_getElem hk', List.getElem?_eq_getElem hk,
      Option.map_some, Option.getD_some]
    field_simp

/-- A call of `diff` with an argument of the right size. -/
theorem eval_step {N : ℕ} (cf : Config K T R) {t : ℕ} {F : Forest} (cache : Bool) {x : Ext T R} {h : Heap R} (ht : h.IsTTN t F)
    (hr : h.Rooted t F) (f : Fine (Call.Right cf) N x h t) {A : Nd R} (hA : h.Full t A) (time : T) {y : List R}
    (hy : y.length = A.shape.prod) (next : List R → Plan T R) :
    ∃ x3 h3 d G, run cf t cache (.eval time y next) (x, h) = run cf t cache (next d) (x3, h3) ∧ h.GoodChange h3 t ∧
      Fine (Call.Right cf) N x3 h3 t ∧ h3.array t = some A ∧ x3.hList = x.hList ∧
      IsGradient { x.obj (h.setArray t (some ⟨A.shape, y⟩)) t with time := if cf.imaginary then none else some time } F t ⟨A.shape, y⟩
        x.hList G ∧ G.Wf ∧ G.shape = A.shape ∧ d.length = y.length ∧
      (cf.coef (if cf.imaginary then none else some time) ≠ 0 → ∀ k < y.length,
        cf.coef (if cf.imaginary then none else some time) * d.getD k 0 = G.data.getD k 0 - cf.initEnergy.getD 0 * y.getD k 0) := by
  set Y : Nd R := ⟨A.shape, y⟩ with hY
  have hYw : Y.Wf := by unfold Nd.Wf; exact hy
  have g1 := goodChange_setArray hA.array hYw (B := Y) rfl
  set h1 := h.setArray t (some Y) with hh1
  have ht1 := Sweep.ttn_change ht g1
  have hr1 := Sweep.rooted_change hr g1
  have f1 : Fine (Call.Right cf) N x h1 t := f.change ht hr g1 rfl rfl f.calls fun k v q => .inl q
  set s0 : Obj T R := { x.obj h1 t with
    time := if cf.imaginary then none else some time } with hs0
  have hall : s0.allTerms none = x.hList := f1.allTerms h1 t
  have hY1 : h1.array t = some Y := by rw [hh1, array_setArray, if_pos rfl]
  obtain ⟨Y', hY'⟩ := ht1.full t (mem_tensors.2 ⟨.inl rfl, ht1.leaf⟩)
  obtain rfl : Y = Y' := Option.some.inj (hY1.symm.trans hY'.array)
  have hfuel := Good.fuel ht1
  have hready : ∀ env, Ready { s0 with env := env } F := fun env => f1.ready ht1 hr1 _ env
  have haway : AwayRight s0 F := by
    intro n term hn e he v hv
    rw [hall] at hn
    refine field_change (s := x.obj h1 t) (s' := s0) ht1 (.refl fun B hB => ?_) (opOn_const (f.const term (List.mem_of_getElem? hn)) _ _)
      he (f1.env F ht1 n term (by rw [f1.allTerms]; exact hn) e he v hv)
    have : some Y = some B := hY1.symm.trans hB
    cases this; exact hYw
  obtain ⟨s', G, r1, r2, r3, r4, r5, r6, r7⟩ := sumTerms_ok (s0 := s0) (hready x.env) haway hY' hfuel cache
  have hfresh : ∃ s', sumTerms h1.next cache t A.shape.prod { s0 with env := [] } = .ok (s', ⟨[A.shape.prod], G.data⟩) := by
    obtain ⟨s'', G', q1, -, -, q4, q5, q6, -⟩ := sumTerms_ok (s0 := { s0 with env := [] }) (hready []) (by
      intro n term hn e he v hv; cases hv) hY' hfuel cache
    have : G' = G := gradient_unique (s := s0) (F := F) (t := t) (A := Y) (l := s0.allTerms none) q6 r6 q4 r4 q5 r5
    subst this
    exact ⟨s'', q1⟩
  have hGy : G.data.length = y.length := by
    have : G.data.length = G.shape.prod := r4
    rw [this, r5]; exact hy.symm
  set d := finish (cf.coef s0.time) cf.initEnergy y ⟨[A.shape.prod], G.data⟩ with hd
  have hfin := finish_ok (cf.coef s0.time) cf.initEnergy y ⟨[A.shape.prod], G.data⟩ hGy
  have hright : Call.Right cf ⟨s0, t, cache, ⟨[A.shape.prod], G.data⟩, d⟩ := by
    refine ⟨rfl, ?_, ⟨F, ht1, haway, Y, G, hY1, r6, r4, r5, rfl, hfin.1, hfin.2⟩, hfresh⟩
    show (if cf.imaginary then none else some time : Option T).isNone = cf.imaginary
    cases cf.imaginary <;> rfl
  have e1 : sumTerms h.next cache t y.length s0 = .ok (s', ⟨[A.shape.prod], G.data⟩) := by
    rw [hy]; exact r1
  have o := Clean.onlyCaches r2 f1.empty
  have hA3 : s'.heap.array t = some Y := by rw [o.array]; exact hY1
  -- the network after the call
  have g2 : h1.GoodChange s'.heap t := ⟨o.access, o.next, o.node, fun u _ => o.array u, fun B hB => by
    have : some Y = some B := hY1.symm.trans hB
    cases this
    exact ⟨Y, hA3, hYw, rfl⟩⟩
  have g3 : s'.heap.GoodChange (s'.heap.setArray t (some A)) t := goodChange_setArray hA3 hA.wf rfl
  have g13 := GoodChange.trans g2 g3
  have g := GoodChange.trans g1 g13
  set h3 := s'.heap.setArray t (some A) with hh3
  have f3 : Fine (Call.Right cf) N { x.take s' with calls := x.calls ++ [⟨s0, t, cache, ⟨[A.shape.prod], G.data⟩, d⟩] } h3 t := by
    refine f.change ht hr g rfl rfl ?_ ?_
    · intro d hd
      rcases List.mem_append.1 hd with q | q
      · exact f.calls d q
      · rw [List.mem_singleton.1 q]; exact hright
    · intro k v hv
      rcases r7 k v hv with q | ⟨n, term, i, q1, q2, q3⟩
      · exact .inl q
      · rw [hall] at q2
        by_cases hi : h1.acc t i = none
        · exfalso
          obtain ⟨E, ⟨c', j', w1, -⟩, -⟩ := q3
          rw [withTerm_acc] at w1
          have : h1.acc t i = some (c', j') := w1
          rw [hi] at this; cases this
        · obtain ⟨⟨c', j'⟩, hcj⟩ := Option.ne_none_iff_exists'.1 hi
          refine .inr ⟨n, term, i, q1, q2, ?_⟩
          exact field_change (s := s0) (s' := Ext.obj { x.take s' with
            calls := x.calls ++ [⟨s0, t, cache, ⟨[A.shape.prod], G.data⟩, d⟩] } h3 t) (e := (t, i, c', j')) ht1 g13 (opOn_const (f.const term (List.mem_of_getElem? q2)) _ _)
            (ht1.edge_of_acc hcj) q3
  refine ⟨_, h3, d, G, ?_, g, f3, by rw [hh3, array_setArray, if_pos rfl], rfl, hall ▸ r6, r4, r5, hfin.1, hfin.2⟩
  conv_lhs => unfold run
  rw [hA.array]
  simp only
  rw [if_pos hy, e1]
  simp only [ok_bind]
  rw [r3]

/-- The calls that the solver makes. -/
theorem run_ok {N : ℕ} (cf : Config K T R) {t : ℕ} {F : Forest} (cache : Bool) (p : Plan T R) : ∀ (x : Ext T R) (h : Heap R), h.IsTTN t F →
    h.Rooted t F → Fine (Call.Right cf) N x h t → ∃ x' h', run cf t cache p (x, h) = .ok (x', h') ∧ h.GoodChange h' t ∧ Fine (Call.Right cf) N x' h' t := by
  induction p with
  | stop =>
    intro x h ht hr f
    obtain ⟨A, hA⟩ := ht.full t (mem_tensors.2 ⟨.inl rfl, ht.leaf⟩)
    exact ⟨x, h, rfl, .refl fun B hB => by rw [hA.array] at hB; cases hB; exact hA.wf, f⟩
  | eval time y next ih =>
    intro x h ht hr f
    obtain ⟨A, hA⟩ := ht.full t (mem_tensors.2 ⟨.inl rfl, ht.leaf⟩)
    by_cases hy : y.length = A.shape.prod
    case neg =>
      unfold run
      rw [hA.array]
      simp only
      rw [if_neg hy]
      exact ⟨x, h, rfl, .refl fun B hB => by rw [hA.array] at hB; cases hB; exact hA.wf, f⟩
    case pos =>
      obtain ⟨x3, h3, d, G, q1, g, f3, -⟩ := eval_step cf cache ht hr f hA time hy next
      obtain ⟨x', h', e2, e3, e4⟩ := ih d x3 h3 (Sweep.ttn_change ht g) (Sweep.rooted_change hr g) f3
      exact ⟨x', h', q1.trans e2, GoodChange.trans g e3, e4⟩
  | update y next ih =>
    intro x h ht hr f
    obtain ⟨A, hA⟩ := ht.full t (mem_tensors.2 ⟨.inl rfl, ht.leaf⟩)
    unfold run
    rw [hA.array]
    simp only
    split
    case isFalse => exact ⟨x, h, rfl, .refl fun B hB => by rw [hA.array] at hB; cases hB; exact hA.wf, f⟩
    case isTrue hy =>
      have hYw : (⟨A.shape, y⟩ : Nd R).Wf := by unfold Nd.Wf; exact hy
      have g1 := goodChange_setArray hA.array hYw rfl
      obtain ⟨h2, o, n1, n2⟩ := normalize_root (h := h.setArray t (some ⟨A.shape, y⟩)) (t := t) (A := ⟨A.shape, y⟩)
        (by rw [array_setArray, if_pos rfl]) hYw (Sweep.rooted_change hr g1).1 cf.sqrt (!cf.imaginary)
      have g := GoodChange.trans g1 n2
      rw [n1]
      simp only [ok_bind]
      obtain ⟨x', h', e2, e3, e4⟩ := ih x h2 (Sweep.ttn_change ht g) (Sweep.rooted_change hr g)
        (f.change ht hr g rfl rfl f.calls fun k v q => .inl q)
      exact ⟨x', h', e2, GoodChange.trans g e3, e4⟩
  | reform next ih =>
    intro x h ht hr f
    unfold run
    rw [f.fList]
    simp only [Option.isNone_none, if_true]
    exact ih x h ht hr f

end SplitProp
