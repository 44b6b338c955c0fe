import Verif.Lemmas.SplitProp

/-!
The projector-splitting integrator: what moving the root does to the cache.
-/

open scoped BigOperators
open Py

namespace SplitProp

open Heap ML

section
variable {κ ν : Type} [DecidableEq κ]

theorem get?_filter (d : Dict κ ν) (k k' : κ) :
    Dict.get? (d.filter fun p => decide (p.1 ≠ k)) k' = if k' = k then none else Dict.get? d k' := by
  induction d with
  | nil => simp
  | cons p d ih =>
    obtain ⟨a, v⟩ := p
    by_cases ha : a = k
    · subst ha
      rw [List.filter_cons_of_neg (by simp), ih]
      by_cases hk : k' = a
      · simp [hk]
      · rw [if_neg hk, if_neg hk]
        simp only [Dict.get?]
        rw [if_neg (fun q => hk q.symm)]
    · rw [List.filter_cons_of_pos (by simpa using ha)]
      simp only [Dict.get?]
      by_cases hk : k' = k
      · subst hk
        rw [if_neg ha, ih, if_pos rfl, if_pos rfl]
      · rw [ih, if_neg hk, if_neg hk]

/-- The function only removes entries. -/
def Shrinks (f : Dict κ ν → Dict κ ν) : Prop := ∀ d k v, Dict.get? (f d) k = some v → Dict.get? d k = some v

theorem foldl_shrinks {α : Type} (f : Dict κ ν → α → Dict κ ν) (hf : ∀ x, Shrinks fun d => f d x) (l : List α) :
    Shrinks fun d => l.foldl f d := by
  induction l with
  | nil => intro d k v h; exact h
  | cons x l ih => intro d k v h; exact hf x d k v (ih (f d x) k v h)

theorem foldl_kills {α : Type} (f : Dict κ ν → α → Dict κ ν) (hf : ∀ x, Shrinks fun d => f d x) {l : List α} {x : α} (hx : x ∈ l)
    {k : κ} (hk : ∀ d, Dict.get? (f d x) k = none) (d : Dict κ ν) : Dict.get? (l.foldl f d) k = none := by
  induction l generalizing d with
  | nil => cases hx
  | cons y l ih =>
    rcases List.mem_cons.1 hx with rfl | q
    · cases e : Dict.get? ((x :: l).foldl f d) k with
      | none => rfl
      | some v =>
        have := foldl_shrinks f hf l (f d x) k v e
        rw [hk] at this; cases this
    · exact ih q (f d y)

end

variable {K T R : Type} [Zero T] [Field R] [StarRing R]

omit [Zero T] [Field R] [StarRing R] in
theorem removeEnv_sub {x : Ext T R} {h : Heap R} {ts : List ℕ} {k : ℕ × ℕ × ℕ} {v : Option (Nd R)}
    (hv : (removeEnv x h ts).env.get? k = some v) : x.env.get? k = some v := by
  refine foldl_shrinks _ (fun n => foldl_shrinks _ (fun t => foldl_shrinks _ (fun l d k v hd => ?_) _) _) _ x.env k v hv
  rw [get?_filter] at hd
  split at hd
  · cases hd
  · exact hd

omit [Zero T] [Field R] [StarRing R] in
theorem removeEnv_gone {x : Ext T R} {h : Heap R} (hw : h.Wf) {ts : List ℕ} {n t i : ℕ} (hn : n < x.hList.length) (ht : t ∈ ts)
    (hi : h.acc t i ≠ none) : (removeEnv x h ts).env.get? (n, t, i) = none := by
  have s1 : ∀ n t, ∀ l : ℕ × ℕ × ℕ, Shrinks fun d : Dict (ℕ × ℕ × ℕ) (Option (Nd R)) => d.filter fun p => decide (p.1 ≠ (n, t, l.1)) := by
    intro n t l d k v hd
    beta_reduce at hd
    rw [get?_filter] at hd
    split at hd
    · cases hd
    · exact hd
  have s2 := fun n t => foldl_shrinks _ (s1 n t) (h.linkages t)
  have s3 := fun n => foldl_shrinks _ (s2 n) ts
  obtain ⟨⟨c, j⟩, hcj⟩ := Option.ne_none_iff_exists'.1 hi
  refine foldl_kills _ s3 (List.mem_range.2 hn) (fun d => ?_) x.env
  refine foldl_kills _ (s2 n) ht (fun d => ?_) d
  refine foldl_kills _ (s1 n t) ((mem_linkages hw (i := i) (t := c) (j := j)).2 hcj) (fun d => ?_) d
  rw [get?_filter, if_pos rfl]

omit [StarRing R] in
/-- The links that start at neither end of the link do not depend on which end the root is. -/
theorem edges_reroot {h : Heap R} {t : ℕ} {F : Forest} (ht : h.IsTTN t F) {i fin j : ℕ} (hb : h.acc t i = some (fin, j))
    (hl : h.isLeaf fin = false) {Fr : Forest} (hr : IsTree h fin none Fr) {e : ℕ × ℕ × ℕ × ℕ} (h1 : e.1 ≠ t) (h2 : e.1 ≠ fin) :
    e ∈ F.edges t ↔ e ∈ Fr.edges fin := by
  obtain ⟨sub, hf⟩ := Forest.exists_has (ht.head_of_acc hb)
  obtain rfl := hr.unique (ht.tree.reroot hf ht.links.wf ht.links.sym hl)
  rw [(Forest.edges_ins j i t (F.rem i) sub fin).mem_iff, (Forest.edges_rem hf ht.heads_sorted t).mem_iff]
  simp only [List.cons_append, List.mem_cons, List.mem_append]
  constructor
  · rintro (rfl | q | q)
    · exact absurd rfl h1
    · exact .inr (.inr q)
    · exact .inr (.inl q)
  · rintro (rfl | q | q)
    · exact absurd rfl h2
    · exact .inr (.inr q)
    · exact .inr (.inl q)

/-- What the two ways of moving the root have in common when the new tensor `mid` is the root. -/
structure MidOk (h h1 : Heap R) (t fin mid : ℕ) : Prop where
  fresh : h.next = mid
  lt : mid < h1.next
  leaf : ∀ c, c ≠ mid → h1.isLeaf c = h.isLeaf c
  leafMid : h1.isLeaf mid = false
  linked : ∀ c k, c ≠ mid → h1.acc c k ≠ none → h.acc c k ≠ none
  linkedBack : ∀ c k, c ≠ t → c ≠ fin → c ≠ mid → h.acc c k ≠ none → h1.acc c k ≠ none
  core : ∀ c, c ≠ t → c ≠ fin → c ≠ mid → (h1.node c).core = (h.node c).core
  fwd : ∀ u k l j, h1.acc u k = some (l, j) → h1.isLeaf l = true → ∃ u' k', h.acc u' k' = some (l, j) ∧ h1.hdim (u, k) = h.hdim (u', k')
  back : ∀ u k l j, h.acc u k = some (l, j) → h.isLeaf l = true → ∃ u' k', h1.acc u' k' = some (l, j) ∧ h1.hdim (u', k') = h.hdim (u, k)
  marks : (∀ u k, h.acc u k ≠ none → (h.node u).axis ≠ none → h.MarkOk u) → ∀ u k, h1.acc u k ≠ none → (h1.node u).axis ≠ none → h1.MarkOk u

omit [StarRing R] in
theorem hdim_congr {h h' : Heap R} {u : ℕ} (e : h'.array u = h.array u) (k : ℕ) : h'.hdim (u, k) = h.hdim (u, k) := by
  unfold Heap.hdim; simp only [e]

theorem markOk_core {h h' : Heap R} {u : ℕ} (e : (h'.node u).core = (h.node u).core) (hm : h.MarkOk u) : h'.MarkOk u := by
  obtain ⟨e1, e2, e3, e4, e5, e6, e7⟩ := core_eq e
  exact markOk_congr e6 e7 e3 e2 hm

theorem MidSplit.midOk {csvd : Svd R} (hiso : SvdIso csvd) {h h1 : Heap R} {t i fin j mid : ℕ} {F : Forest} (ht : h.IsTTN t F)
    (hb : h.acc t i = some (fin, j)) (hl : h.isLeaf fin = false) (m : h.MidSplit csvd h1 t i fin j mid) : MidOk h h1 t fin mid := by
  have hbs := ht.links.sym _ _ _ _ hb
  obtain ⟨b1, b2⟩ := ht.links.lt hb
  have htm : t ≠ mid := by have := m.fresh; omega
  have hfm : fin ≠ mid := by have := m.fresh; omega
  obtain ⟨M, hM⟩ := m.fullMid
  have htf : t ≠ fin := by
    rintro rfl
    exact (List.nodup_cons.1 ht.tree.nodup).1 (Forest.mem_heads_ids (ht.head_of_acc hb))
  have hleaf : ∀ c, c ≠ mid → h1.isLeaf c = h.isLeaf c := by
    intro c hc
    by_cases q : c = t
    · subst q; exact m.self.2.1
    · exact (core_eq (m.other c q hc)).2.2.2.2.2.2
  have harr : ∀ c, c ≠ t → c ≠ mid → h1.array c = h.array c := fun c q1 q2 => (core_eq (m.other c q1 q2)).2.2.1
  refine ⟨m.fresh, m.lt, hleaf, hM.leaf, ?_, ?_, fun c q1 _ q3 => m.other c q1 q3, ?_, ?_, ?_⟩
  · intro c k hc hk
    by_cases q : c = t
    · subst q
      rw [m.accSelf] at hk
      split at hk
      · next e => rw [e, hb]; simp
      · exact hk
    by_cases q2 : c = fin
    · subst q2
      rw [m.accFin] at hk
      split at hk
      · next e => rw [e, hbs]; simp
      · exact hk
    rw [← m.accOther c k q q2 hc]; exact hk
  · intro c k q1 q2 q3 hk
    rw [m.accOther c k q1 q2 q3]; exact hk
  · intro u k l l' hu hll
    have hlm : l ≠ mid := by rintro rfl; rw [hM.leaf] at hll; cases hll
    have hlt : l ≠ t := by rintro rfl; rw [hleaf _ htm, ht.leaf] at hll; cases hll
    have hlf : l ≠ fin := by rintro rfl; rw [hleaf _ hfm, hl] at hll; cases hll
    by_cases q3 : u = mid
    · subst q3
      rw [m.accMid] at hu
      split at hu
      · exact absurd (congrArg Prod.fst (Option.some.inj hu)).symm hlt
      · split at hu
        · exact absurd (congrArg Prod.fst (Option.some.inj hu)).symm hlf
        · cases hu
    by_cases q : u = t
    · subst q
      rw [m.accSelf] at hu
      split at hu
      · exact absurd (congrArg Prod.fst (Option.some.inj hu)).symm hlm
      · next e => exact ⟨u, k, hu, m.dimsSelf k e⟩
    by_cases q2 : u = fin
    · subst q2
      rw [m.accFin] at hu
      split at hu
      · exact absurd (congrArg Prod.fst (Option.some.inj hu)).symm hlm
      · exact ⟨u, k, hu, m.dimsFin k⟩
    rw [m.accOther u k q q2 q3] at hu
    exact ⟨u, k, hu, hdim_congr (harr u q q3) k⟩
  · intro u k l l' hu hll
    have hlt : l ≠ t := by rintro rfl; rw [ht.leaf] at hll; cases hll
    have hlf : l ≠ fin := by rintro rfl; rw [hl] at hll; cases hll
    have q3 : u ≠ mid := by have := (ht.links.lt hu).1; have := m.fresh; omega
    by_cases q : u = t
    · subst q
      have e : k ≠ i := by rintro rfl; rw [hb] at hu; exact hlf (congrArg Prod.fst (Option.some.inj hu)).symm
      exact ⟨u, k, by rw [m.accSelf, if_neg e]; exact hu, m.dimsSelf k e⟩
    by_cases q2 : u = fin
    · subst q2
      have e : k ≠ j := by rintro rfl; rw [hbs] at hu; exact hlt (congrArg Prod.fst (Option.some.inj hu)).symm
      exact ⟨u, k, by rw [m.accFin, if_neg e]; exact hu, m.dimsFin k⟩
    exact ⟨u, k, by rw [m.accOther u k q q2 q3]; exact hu, hdim_congr (harr u q q3) k⟩
  · intro hm u k hu hx
    by_cases q3 : u = mid
    · subst q3; exact absurd m.axis hx
    by_cases q : u = t
    · subst q
      intro A _ _ _
      rw [m.axisSelf]
      exact m.canonical hiso
    have hc := m.other u q q3
    refine markOk_core hc (hm u k ?_ ?_)
    · by_cases q2 : u = fin
      · subst q2
        rw [m.accFin] at hu
        split at hu
        · next e => rw [e, hbs]; simp
        · exact hu
      · rw [← m.accOther u k q q2 q3]; exact hu
    · rw [← (core_eq hc).2.1]; exact hx

theorem MidUnite.midOk {h h1 : Heap R} {t i fin j mid : ℕ} {F : Forest} (ht : h.IsTTN t F) {A B : Nd R} (hA : h.Full t A)
    (hB : h.Full fin B) (hb : h.acc t i = some (fin, j)) (hl : h.isLeaf fin = false) (m : h.MidUnite h1 t i fin j mid A.ndim B.ndim) :
    MidOk h h1 t fin mid := by
  have hbs := ht.links.sym _ _ _ _ hb
  have hin : i < A.ndim := (hA.acc i).1 (by rw [hb]; simp)
  have hjn : j < B.ndim := (hB.acc j).1 (by rw [hbs]; simp)
  obtain ⟨b1, b2⟩ := ht.links.lt hb
  have htm : t ≠ mid := by have := m.fresh; omega
  have hfm : fin ≠ mid := by have := m.fresh; omega
  obtain ⟨M, hM, hMn⟩ := m.fullMid
  have hleaf : ∀ c, c ≠ mid → h1.isLeaf c = h.isLeaf c := fun c hc => (core_eq (m.other c hc)).2.2.2.2.2.2
  have harr : ∀ c, c ≠ mid → h1.array c = h.array c := fun c hc => (core_eq (m.other c hc)).2.2.1
  -- what was linked to one of the two is linked to `mid`
  have hmv : ∀ c k l, c ≠ t → c ≠ fin → h.acc c k = some (t, l) ∨ h.acc c k = some (fin, l) → ∃ n, h1.acc c k = some (mid, n) := by
    intro c k l q1 q2 hc
    have : ∃ p ∈ uniteLabels t i A.ndim fin j B.ndim, h.acc p.1 p.2 = some (c, k) := by
      rcases hc with hc | hc
      · have e := ht.links.sym _ _ _ _ hc
        refine ⟨(t, l), (mem_uniteLabels hin hjn).2 (.inl ⟨rfl, (hA.acc l).1 (by rw [e]; simp), ?_⟩), e⟩
        rintro rfl
        rw [hb] at e
        exact q2 (congrArg Prod.fst (Option.some.inj e)).symm
      · have e := ht.links.sym _ _ _ _ hc
        refine ⟨(fin, l), (mem_uniteLabels hin hjn).2 (.inr ⟨rfl, (hB.acc l).1 (by rw [e]; simp), ?_⟩), e⟩
        rintro rfl
        rw [hbs] at e
        exact q1 (congrArg Prod.fst (Option.some.inj e)).symm
    obtain ⟨p, p1, p2⟩ := this
    obtain ⟨n, hn⟩ := List.getElem?_of_mem p1
    exact ⟨n, m.links.sym _ _ _ _ ((m.accMid n p hn).trans p2)⟩
  refine ⟨m.fresh, m.lt, hleaf, hM.leaf, ?_, ?_, fun c _ _ q3 => m.other c q3, ?_, ?_, ?_⟩
  · intro c k hc hk
    by_cases q : c = t
    · subst q; exact absurd (m.accNone k).1 hk
    by_cases q2 : c = fin
    · subst q2; exact absurd (m.accNone k).2 hk
    intro e
    rw [m.accOther c k q q2 hc (by rw [e]; simp)] at hk
    exact hk e
  · intro c k q1 q2 q3 hk
    by_cases q : ∀ l, h.acc c k ≠ some (t, l) ∧ h.acc c k ≠ some (fin, l)
    · rw [m.accOther c k q1 q2 q3 q]; exact hk
    · push Not at q
      obtain ⟨l, q⟩ := q
      obtain ⟨n, hn⟩ := hmv c k l q1 q2 (by by_cases w : h.acc c k = some (t, l); exacts [.inl w, .inr (q w)])
      rw [hn]; simp
  · intro u k l l' hu hll
    have hlm : l ≠ mid := by rintro rfl; rw [hM.leaf] at hll; cases hll
    by_cases q3 : u = mid
    · subst q3
      have hk : k < (uniteLabels t i A.ndim fin j B.ndim).length := by
        rw [← hMn]; exact (hM.acc k).1 (by rw [hu]; simp)
      have hp := List.getElem?_eq_getElem hk
      exact ⟨_, _, (m.accMid k _ hp).symm.trans hu, m.dimsMid k _ hp⟩
    by_cases q : u = t
    · subst q; rw [(m.accNone k).1] at hu; cases hu
    by_cases q2 : u = fin
    · subst q2; rw [(m.accNone k).2] at hu; cases hu
    by_cases w : ∀ l, h.acc u k ≠ some (t, l) ∧ h.acc u k ≠ some (fin, l)
    · rw [m.accOther u k q q2 q3 w] at hu
      exact ⟨u, k, hu, hdim_congr (harr u q3) k⟩
    · push Not at w
      obtain ⟨l2, w⟩ := w
      obtain ⟨n, hn⟩ := hmv u k l2 q q2 (by by_cases w' : h.acc u k = some (t, l2); exacts [.inl w', .inr (w w')])
      rw [hn] at hu
      exact absurd (congrArg Prod.fst (Option.some.inj hu)).symm hlm
  · intro u k l l' hu hll
    have hlt : l ≠ t := by rintro rfl; rw [ht.leaf] at hll; cases hll
    have hlf : l ≠ fin := by rintro rfl; rw [hl] at hll; cases hll
    have q3 : u ≠ mid := by have := (ht.links.lt hu).1; have := m.fresh; omega
    have key : ∀ p ∈ uniteLabels t i A.ndim fin j B.ndim, p = (u, k) → ∃ u' k', h1.acc u' k' = some (l, l') ∧ h1.hdim (u', k') = h.hdim (u, k) := by
      rintro p hp rfl
      obtain ⟨n, hn⟩ := List.getElem?_of_mem hp
      exact ⟨mid, n, (m.accMid n _ hn).trans hu, m.dimsMid n _ hn⟩
    by_cases q : u = t
    · subst q
      have e : k ≠ i := by rintro rfl; rw [hb] at hu; exact hlf (congrArg Prod.fst (Option.some.inj hu)).symm
      exact key _ ((mem_uniteLabels hin hjn).2 (.inl ⟨rfl, (hA.acc k).1 (by rw [hu]; simp), e⟩)) rfl
    by_cases q2 : u = fin
    · subst q2
      have e : k ≠ j := by rintro rfl; rw [hbs] at hu; exact hlt (congrArg Prod.fst (Option.some.inj hu)).symm
      exact key _ ((mem_uniteLabels hin hjn).2 (.inr ⟨rfl, (hB.acc k).1 (by rw [hu]; simp), e⟩)) rfl
    refine ⟨u, k, ?_, hdim_congr (harr u q3) k⟩
    rw [m.accOther u k q q2 q3 (fun l2 => ⟨fun e => ?_, fun e => ?_⟩)]
    · exact hu
    · rw [hu] at e; exact hlt (congrArg Prod.fst (Option.some.inj e))
    · rw [hu] at e; exact hlf (congrArg Prod.fst (Option.some.inj e))
  · intro hm u k hu hx
    by_cases q3 : u = mid
    · subst q3; exact absurd m.axis hx
    by_cases q : u = t
    · subst q; exact absurd (m.accNone k).1 hu
    by_cases q2 : u = fin
    · subst q2; exact absurd (m.accNone k).2 hu
    have hc := m.other u q3
    refine markOk_core hc (hm u k ?_ ?_)
    · intro e
      rw [m.accOther u k q q2 q3 (by rw [e]; simp)] at hu
      exact hu e
    · rw [← (core_eq hc).2.1]; exact hx

/-- When the new tensor has become the root. -/
theorem Fine.mid {P : Call T R → Prop} {N : ℕ} {x : Ext T R} {h h1 : Heap R} {r t i fin j mid : ℕ} {Fr F F1 : Forest} (f : Fine P N x h r) (htr : h.IsTTN r Fr)
    (hroot : r = t ∨ r = fin) (ht : h.IsTTN t F) (hb : h.acc t i = some (fin, j)) (hl : h.isLeaf fin = false) (m : MidOk h h1 t fin mid)
    (mt : h.MidTree h1 t i fin j mid F F1) : Fine P N (removeEnv x h [t, fin]) h1 mid := by
  obtain ⟨b1, b2⟩ := ht.links.lt hb
  have hfr := m.fresh
  have htm : t ≠ mid := by omega
  have hfm : fin ≠ mid := by omega
  have hleafne : ∀ l, h1.isLeaf l = true → l ≠ mid ∧ l ≠ t ∧ l ≠ fin := by
    intro l hll
    refine ⟨?_, ?_, ?_⟩
    · rintro rfl; rw [m.leafMid] at hll; cases hll
    · rintro rfl; rw [m.leaf _ htm, ht.leaf] at hll; cases hll
    · rintro rfl; rw [m.leaf _ hfm, hl] at hll; cases hll
  have hgood : Good P N (removeEnv x h [t, fin]) h1 mid := by
    refine ⟨?_, f.fList, f.const, ?_, ?_, ?_, m.marks f.marks, f.calls⟩
    · have := f.bound; have := m.lt; omega
    · intro term hterm p hp
      obtain ⟨p1, p2⟩ := f.leaf term hterm p hp
      refine ⟨?_, p2⟩
      rw [m.leaf]
      · exact p1
      · have := f.bound; omega
    · intro term hterm u k l l' hu hll
      obtain ⟨u', k', q1, q2⟩ := m.fwd u k l l' hu hll
      rw [q2]
      refine f.fits term hterm u' k' l l' q1 ?_
      rw [← m.leaf l (hleafne l hll).1]; exact hll
    · intro l hll
      obtain ⟨n1, n2, n3⟩ := hleafne l hll
      rw [show h1.array l = h.array l from (core_eq (m.core l n2 n3 n1)).2.2.1]
      refine f.empty l ?_
      rw [← m.leaf l n1]; exact hll
  refine ⟨hgood, ?_, ?_⟩
  · intro F1' ht1'
    obtain rfl : F1 = F1' := mt.ttn.tree.unique ht1'.tree
    intro n term hn e he v hv
    rw [hgood.allTerms] at hn
    have hn' : x.hList[n]? = some term := hn
    have hv' : (removeEnv x h [t, fin]).env.get? (n, e.1, e.2.1) = some v := hv
    have hold := removeEnv_sub hv'
    have hlink : h1.acc e.1 e.2.1 ≠ none := by rw [(mt.ttn.isLink_edge he).1]; simp
    have hnl : n < x.hList.length := (List.getElem?_eq_some_iff.1 hn').1
    have ne1 : e.1 ≠ mid := by
      intro q
      have := f.fresh _ _ hold
      simp only at this
      omega
    have hgone : ∀ u ∈ [t, fin], e.1 ≠ u := by
      intro u hu q
      rw [removeEnv_gone ht.links.wf hnl (q ▸ hu) (m.linked _ _ ne1 hlink)] at hv'
      cases hv'
    have ne2 := hgone t (by simp)
    have ne3 := hgone fin (by simp)
    have heF : e ∈ F.edges t := by
      rcases mt.edge e he with q | q | q | q
      · exact absurd q ne1
      · exact absurd q ne2
      · exact absurd q ne3
      · exact q
    have heR : e ∈ Fr.edges r := by
      rcases hroot with rfl | rfl
      · rw [htr.tree.unique ht.tree]; exact heF
      · exact (edges_reroot ht hb hl htr.tree ne2 ne3).1 heF
    have hfield := f.env Fr htr n term (by rw [f.allTerms]; exact hn') e heR v hold
    have htgt : ∀ d ∈ F.edges t, ¬ (d.1 = t ∨ d.1 = fin ∨ d.1 = mid) → ¬ (d.2.2.1 = t ∨ d.2.2.1 = fin ∨ d.2.2.1 = mid) := by
      intro d hd hS q
      have hdm := (TreeSum.edges_mem hd).2
      rcases q with q | q | q
      · exact (List.nodup_cons.1 ht.tree.nodup).1 (q ▸ hdm)
      · have hd2 := mt.back d hd (fun w => hS (.inl w)) (fun w => hS (.inr (.inl w)))
        exact hS (.inr (.inr (mt.parent d hd2 (.inr q))))
      · have := ht.ids_lt (List.mem_cons_of_mem _ hdm)
        omega
    have hSe : ¬ (e.1 = t ∨ e.1 = fin ∨ e.1 = mid) := by rintro (q | q | q); exacts [ne2 q, ne3 q, ne1 q]
    obtain ⟨a, k, c, l⟩ := e
    exact fieldIs_keep (s := x.obj h t) (s' := (removeEnv x h [t, fin]).obj h1 mid) (S := fun u => u = t ∨ u = fin ∨ u = mid) ht mt.ttn
      (fun l => rfl)
      (fun d hd hS => by
        rcases mt.edge d hd with q | q | q | q
        · exact absurd (.inr (.inr q)) hS
        · exact absurd (.inl q) hS
        · exact absurd (.inr (.inl q)) hS
        · exact q)
      (fun d hd hS => mt.back d hd (fun q => hS (.inl q)) fun q => hS (.inr (.inl q)))
      htgt (fun u hS => m.leaf u fun q => hS (.inr (.inr q)))
      (fun u _ hS _ => (core_eq (m.core u (fun q => hS (.inl q)) (fun q => hS (.inr (.inl q))) fun q => hS (.inr (.inr q)))).2.2.1)
      heF he (htgt _ heF hSe) (hdim_congr (core_eq (m.core a ne2 ne3 ne1)).2.2.1 k) hfield
  · intro k v hv
    have := f.fresh k v (removeEnv_sub hv)
    have := m.lt
    omega

/-- When the root has moved on. -/
theorem Fine.back {P : Call T R → Prop} {N : ℕ} {x : Ext T R} {h h1 h2 h3 : Heap R} {t i fin j mid : ℕ} {F F1 F3 : Forest} (ht : h.IsTTN t F)
    (hb : h.acc t i = some (fin, j)) (hl : h.isLeaf fin = false) (m : MidOk h h1 t fin mid) (mt : h.MidTree h1 t i fin j mid F F1)
    (g : h1.GoodChange h2 mid) (f : Fine P N x h2 mid) (hn3 : h1.next ≤ h3.next) {csvd : Svd R} (hiso : SvdIso csvd)
    {op : Option (Operator R)} (mv : h.MoveSpec csvd op h3 t i fin j mid) (t3 : h3.IsTTN fin F3) :
    Fine P N (removeEnv x h3 [t, mid, fin]) h3 fin := by
  have hbs := ht.links.sym _ _ _ _ hb
  obtain ⟨b1, b2⟩ := ht.links.lt hb
  have hfr := m.fresh
  have htm : t ≠ mid := by omega
  have hfm : fin ≠ mid := by omega
  obtain ⟨M, hM⟩ := mt.ttn.full mid (mem_tensors.2 ⟨.inl rfl, m.leafMid⟩)
  have hmidacc : ∀ k, h3.acc mid k = none := by
    intro k
    rw [mv.acc]
    cases e : h.acc mid k with
    | none => rfl
    | some p => have := (ht.links.lt e).1; omega
  have hleaf : ∀ c, h3.isLeaf c = h2.isLeaf c := by
    intro c
    rw [GoodChange.isLeaf g]
    by_cases q : c = mid
    · subst q; rw [mv.leafMid, m.leafMid]
    · rw [(mv.other c q).2.1, m.leaf c q]
  have hleafne : ∀ l, h3.isLeaf l = true → l ≠ mid ∧ l ≠ t ∧ l ≠ fin := by
    intro l hll
    refine ⟨?_, ?_, ?_⟩
    · rintro rfl; rw [mv.leafMid] at hll; cases hll
    · rintro rfl; rw [(mv.other _ htm).2.1, ht.leaf] at hll; cases hll
    · rintro rfl; rw [(mv.other _ hfm).2.1, hl] at hll; cases hll
  have harr : ∀ c, c ≠ t → c ≠ fin → c ≠ mid → h3.array c = h2.array c := by
    intro c q1 q2 q3
    rw [(mv.otherAxis c q1 q2 q3).2, g.other c q3]
    exact (core_eq (m.core c q1 q2 q3)).2.2.1.symm
  have hgood : Good P N (removeEnv x h3 [t, mid, fin]) h3 fin := by
    refine ⟨?_, f.fList, f.const, ?_, ?_, ?_, ?_, f.calls⟩
    · have := f.bound; rw [g.next] at this; omega
    · intro term hterm p hp
      rw [hleaf]
      exact f.leaf term hterm p hp
    · intro term hterm u k l l' hu hll
      obtain ⟨n1, n2, n3⟩ := hleafne l hll
      rw [mv.acc] at hu
      have hll' : h.isLeaf l = true := by rw [← (mv.other l n1).2.1]; exact hll
      obtain ⟨u', k', q1, q2⟩ := m.back u k l l' hu hll'
      have hd : h3.hdim (u, k) = h.hdim (u, k) := by
        by_cases w1 : u = t
        · subst w1
          refine mv.dimsSelf k ?_
          rintro rfl
          rw [hb] at hu
          exact n3 (congrArg Prod.fst (Option.some.inj hu)).symm
        by_cases w2 : u = fin
        · subst w2
          refine mv.dimsFin k ?_
          rintro rfl
          rw [hbs] at hu
          exact n2 (congrArg Prod.fst (Option.some.inj hu)).symm
        have w3 : u ≠ mid := by have := (ht.links.lt hu).1; omega
        exact hdim_congr (mv.otherAxis u w1 w2 w3).2 k
      rw [hd, ← q2, ← GoodChange.hdim g hM.array]
      refine f.fits term hterm u' k' l l' ?_ ?_
      · rw [GoodChange.acc g]; exact q1
      · rw [← hleaf]; exact hll
    · intro l hll
      obtain ⟨n1, n2, n3⟩ := hleafne l hll
      rw [harr l n2 n3 n1]
      exact f.empty l (by rw [← hleaf]; exact hll)
    · intro u k hu hx
      by_cases w3 : u = mid
      · subst w3; exact absurd (hmidacc k) hu
      by_cases w1 : u = t
      · subst w1
        intro A _ _ _
        rw [mv.axisSelf]
        exact mv.canonical hiso
      by_cases w2 : u = fin
      · subst w2; exact absurd mv.axisFin hx
      obtain ⟨g1, g2, g3, g4⟩ := g.node u
      have hc := core_eq (m.core u w1 w2 w3)
      have hax : (h3.node u).axis = (h2.node u).axis := by rw [(mv.otherAxis u w1 w2 w3).1, g3, hc.2.1]
      refine markOk_congr (h := h2) ?_ (hleaf u) (harr u w1 w2 w3) hax (f.marks u k ?_ ?_)
      · rw [(mv.other u w3).2.2, g4, hc.2.2.2.2.2.1]
      · rw [GoodChange.acc g]
        refine m.linkedBack u k w1 w2 w3 ?_
        rw [← mv.acc]; exact hu
      · rw [← hax]; exact hx
  have hids : ∀ c ∈ fin :: F3.ids, c ≠ mid := by
    intro c hc
    rcases List.mem_cons.1 hc with rfl | q
    · exact hfm
    · rw [← edges_targets F3 fin] at q
      obtain ⟨e, he, rfl⟩ := List.mem_map.1 q
      have := (t3.isLink_edge he).1
      rw [mv.acc] at this
      have := (ht.links.lt this).2
      omega
  have t3' : IsTree h fin none F3 := t3.tree.congr t3.links.wf ht.links.wf (fun c k => (mv.acc c k).symm)
    fun c hc => (mv.other c (hids c hc)).2.1.symm
  refine ⟨hgood, ?_, ?_⟩
  · intro F3' t3''
    obtain rfl : F3 = F3' := t3.tree.unique t3''.tree
    intro n term hn e he v hv
    rw [hgood.allTerms] at hn
    have hn' : x.hList[n]? = some term := hn
    have hv' : (removeEnv x h3 [t, mid, fin]).env.get? (n, e.1, e.2.1) = some v := hv
    have hold := removeEnv_sub hv'
    have hlink : h3.acc e.1 e.2.1 ≠ none := by rw [(t3.isLink_edge he).1]; simp
    have hnl : n < x.hList.length := (List.getElem?_eq_some_iff.1 hn').1
    have hgone : ∀ u ∈ [t, mid, fin], e.1 ≠ u := by
      intro u hu q
      rw [removeEnv_gone t3.links.wf hnl (q ▸ hu) hlink] at hv'
      cases hv'
    have ne1 := hgone mid (by simp)
    have ne2 := hgone t (by simp)
    have ne3 := hgone fin (by simp)
    have heF : e ∈ F1.edges mid := mt.back e ((edges_reroot ht hb hl t3' ne2 ne3).2 he) ne2 ne3
    have t2 := Sweep.ttn_change mt.ttn g
    have hfield := f.env F1 t2 n term (by rw [f.allTerms]; exact hn') e heF v hold
    have htgt : ∀ d ∈ F1.edges mid, ¬ (d.1 = t ∨ d.1 = fin ∨ d.1 = mid) → ¬ (d.2.2.1 = t ∨ d.2.2.1 = fin ∨ d.2.2.1 = mid) := by
      intro d hd hS q
      rcases q with q | q | q
      · exact hS (.inr (.inr (mt.parent d hd (.inl q))))
      · exact hS (.inr (.inr (mt.parent d hd (.inr q))))
      · exact (List.nodup_cons.1 t2.tree.nodup).1 (q ▸ (TreeSum.edges_mem hd).2)
    have hSe : ¬ (e.1 = t ∨ e.1 = fin ∨ e.1 = mid) := by rintro (q | q | q); exacts [ne2 q, ne3 q, ne1 q]
    obtain ⟨a, k, c, l⟩ := e
    exact fieldIs_keep (s := x.obj h2 mid) (s' := (removeEnv x h3 [t, mid, fin]).obj h3 fin) (S := fun u => u = t ∨ u = fin ∨ u = mid) t2 t3
      (fun l => rfl)
      (fun d hd hS => mt.back d ((edges_reroot ht hb hl t3' (fun q => hS (.inl q)) fun q => hS (.inr (.inl q))).2 hd)
        (fun q => hS (.inl q)) fun q => hS (.inr (.inl q)))
      (fun d hd hS => by
        refine (edges_reroot ht hb hl t3' (fun q => hS (.inl q)) fun q => hS (.inr (.inl q))).1 ?_
        rcases mt.edge d hd with q | q | q | q
        · exact absurd (.inr (.inr q)) hS
        · exact absurd (.inl q) hS
        · exact absurd (.inr (.inl q)) hS
        · exact q)
      htgt (fun u _ => hleaf u)
      (fun u _ hS _ => harr u (fun q => hS (.inl q)) (fun q => hS (.inr (.inl q))) fun q => hS (.inr (.inr q)))
      heF he (htgt _ heF hSe) (hdim_congr (harr a ne2 ne3 ne1) k) hfield
  · intro k v hv
    have := f.fresh k v (removeEnv_sub hv)
    rw [g.next] at this
    omega

/-- `_form_env()` -/
theorem formEnv_fine {P : Call T R → Prop} {N : ℕ} (cf : Config K T R) {x : Ext T R} {h : Heap R} {r : ℕ} {F : Forest} (ht : h.IsTTN r F) (hr : h.Rooted r F)
    (f : Good P N x h r) : ∃ x' h', formEnv cf x h r = .ok (x', h') ∧ Sweep.OnlyCaches h h' ∧ Fine P N x' h' r := by
  have rd := f.ready ht hr x.time x.env
  have hall : (x.obj h r).allTerms none = x.hList := f.allTerms h r
  obtain ⟨s1, e1, e2, e3, e4, e5, e6, e7, -⟩ := formEnv_ok (s0 := x.obj h r) (F := F) ht
    (by
      intro t htT hx
      rcases (mem_tensors.1 htT).1 with q | q
      · subst q; exact absurd hr.1 hx
      · rw [← edges_targets F r] at q
        obtain ⟨e, he, rfl⟩ := List.mem_map.1 q
        refine f.marks e.2.2.1 e.2.2.2 ?_ hx
        rw [(ht.isLink_edge he).2]; simp)
    rd.leaf rd.fits false (Good.fuel ht)
  have o := Clean.onlyCaches e2 f.empty
  obtain ⟨A, hA⟩ := ht.full r (mem_tensors.2 ⟨.inl rfl, ht.leaf⟩)
  have g : h.GoodChange s1.heap r := ⟨o.access, o.next, o.node, fun u _ => o.array u, fun B hB => ⟨B, (o.array r).trans hB, by
    rw [hA.array] at hB; cases hB; exact hA.wf, rfl⟩⟩
  have gd : Good P N (x.take s1) s1.heap r := f.change ht hr g rfl rfl f.calls
  refine ⟨x.take s1, s1.heap, ?_, o, gd, ?_, ?_⟩
  · unfold formEnv
    rw [e1]
    rfl
  · intro F' ht'
    obtain rfl : F = F' := (Sweep.ttn_change ht g).tree.unique ht'.tree
    intro n term hn e he v hv
    rw [gd.allTerms] at hn
    obtain ⟨-, term', q1, q2⟩ := e7 n e.1 e.2.1 v hv
    rw [hall] at q1
    obtain rfl : term = term' := Option.some.inj (Eq.trans hn.symm q1)
    exact field_change (s := x.obj h r) (s' := (x.take s1).obj s1.heap r) ht g
      (opOn_const (f.const term (List.mem_of_getElem? hn)) _ _) he q2
  · rintro ⟨n, t, i⟩ v hv
    obtain ⟨q, -⟩ := e7 n t i v hv
    show t < s1.heap.next
    rw [o.next]
    exact ht.ids_lt (List.mem_cons.2 (mem_tensors.1 q).1)

/-- The sweeps keep the invariant. -/
theorem goodI (N : ℕ) (cf : Config K T R) (h1 : SvdShape cf.svd) (h2 : SvdShape cf.svdU) (h3 : SvdIso cf.svd) (h4 : SvdIso cf.svdU) :
    (hooks cf).GoodI (Fine (Call.Right cf) N) (Good (Call.Right cf) N) where
  evolve x h t F tau cache ht hr f := by
    obtain ⟨A, hA⟩ := ht.full t (mem_tensors.2 ⟨.inl rfl, ht.leaf⟩)
    obtain ⟨x', h', e1, e2, e3⟩ := run_ok cf cache (cf.solver (x.time.getD 0) A.data tau) x h ht hr f
    refine ⟨x', h', ?_, e2, e3⟩
    show evolve cf x h t tau cache = _
    unfold evolve
    rw [hA.array]
    exact e1
  formEnv x h r F ht hr f := by
    obtain ⟨x', h', e1, e2, e3⟩ := formEnv_fine cf ht hr f
    exact ⟨x', h', e1, e2, e3⟩
  again x h r f := f.toGood
  split1 x h hh1 r F i fin j mid F1 ht hr hb hl f m mt hr1 _ _ :=
    f.mid ht (.inl rfl) ht hb hl (MidSplit.midOk h3 ht hb hl m) mt
  split2 x h hh1 hh2 hh3 r F i fin j mid F1 F3 op ht hr hb hl m mt hr1 g f hn mv t3 r3 _ _ :=
    .back ht hb hl (MidSplit.midOk h3 ht hb hl m) mt g f hn h3 mv t3
  unite1 x h hh1 r Fr t F i fin j mid F1 A B htr hrr ht hroot hA hB hb hl f m mt hr1 :=
    f.mid htr hroot ht hb hl (MidUnite.midOk ht hA hB hb hl m) mt
  unite2 x h hh1 hh2 hh3 r Fr t F i fin j mid F1 F3 op A B htr hrr ht hroot hA hB hb hl m mt hr1 g f hn mv t3 r3 _ _ :=
    .back ht hb hl (MidUnite.midOk ht hA hB hb hl m) mt g f hn h4 mv t3
  svd := h1
  svdU := h2

end SplitProp
