import Verif.Lemmas.SplitFull
import Verif.Spec.Network

/-!
`split_unite` and `unite_split` along one bond.
-/

open scoped BigOperators
open Py

namespace Heap

variable {R : Type} [CommRing R]

/-- From `h` to `h'`, tensor `m` got a new array of the same shape, and nothing else of the structure changed
(environments and auxiliary arrays may have, anywhere). -/
structure GoodChange (h h' : Heap R) (m : ℕ) : Prop where
  access : ∀ c, h'.access c = h.access c
  next : h'.next = h.next
  node : ∀ c, (h'.node c).isLeaf = (h.node c).isLeaf ∧ (h'.node c).name = (h.node c).name ∧
    (h'.node c).axis = (h.node c).axis ∧ (h'.node c).normalized = (h.node c).normalized
  other : ∀ c, c ≠ m → h'.array c = h.array c
  array : ∀ A, h.array m = some A → ∃ B, h'.array m = some B ∧ B.Wf ∧ B.shape = A.shape

/-- An operator as `split_unite` and `unite_split` expect it: applied to a tensor that is a root, it gives it a new
array of the same shape, and changes nothing else of the structure. -/
def GoodOp (op : Option (Operator R)) : Prop :=
  ∀ f, op = some f → ∀ h m A, (h.node m).axis = none → h.array m = some A → A.Wf →
    ∃ h', f h m = .ok (h', m) ∧ GoodChange h h' m

theorem goodOp_none : GoodOp (none : Option (Operator R)) := by intro f hf; cases hf

theorem GoodChange.refl {h : Heap R} {m : ℕ} (hw : ∀ A, h.array m = some A → A.Wf) : GoodChange h h m :=
  ⟨by simp, rfl, by simp, by simp, fun A hA => ⟨A, hA, hw A hA, rfl⟩⟩

theorem applyOp_good {op : Option (Operator R)} (ho : GoodOp op) {h : Heap R} {m : ℕ} {A : Nd R}
    (hx : (h.node m).axis = none) (hA : h.array m = some A) (hw : A.Wf) :
    ∃ h', applyOp op h m = .ok (h', m) ∧ GoodChange h h' m ∧ (op = none → h' = h) := by
  cases op with
  | none => exact ⟨h, rfl, .refl fun B hB => by rw [hA] at hB; cases hB; exact hw, by simp⟩
  | some f =>
    obtain ⟨h', e1, e2⟩ := ho f rfl h m A hx hA hw
    exact ⟨h', e1, e2, by simp⟩

/-- The product of the two tensors at a bond, summed over the bond. -/
def pairSum (h : Heap R) (e : ℕ × ℕ × ℕ × ℕ) (σ : Assign) : R :=
  ∑ v ∈ Finset.range (h.hdim (e.1, e.2.1)),
    h.entry (setBond e v σ) e.1 * h.entry (setBond e v σ) e.2.2.1

/-- What a move of the root from `self` to `fin` across the bond `(self, i, fin, j)` does. -/
structure MoveSpec (csvd : Svd R) (op : Option (Operator R)) (h h' : Heap R) (src i fin j mid : ℕ) :
    Prop where
  links : h'.LinkInv
  acc : ∀ c k, h'.acc c k = h.acc c k
  other : ∀ c, c ≠ mid → (h'.node c).name = (h.node c).name ∧ h'.isLeaf c = h.isLeaf c ∧
    (h'.node c).normalized = (h.node c).normalized
  otherAxis : ∀ c, c ≠ src → c ≠ fin → c ≠ mid → (h'.node c).axis = (h.node c).axis ∧
    h'.array c = h.array c
  axisSelf : (h'.node src).axis = some i
  axisFin : (h'.node fin).axis = none
  fullSelf : ∃ A, h'.Full src A
  fullFin : ∃ A, h'.Full fin A
  dimsSelf : ∀ k, k ≠ i → h'.hdim (src, k) = h.hdim (src, k)
  dimsFin : ∀ k, k ≠ j → h'.hdim (fin, k) = h.hdim (fin, k)
  dims : h'.hdim (src, i) = h'.hdim (fin, j)
  fresh : h.next ≤ mid
  mono : h.next ≤ h'.next
  leafMid : h'.isLeaf mid = false
  exact : SvdExact csvd → op = none → ∀ σ : Assign,
    (∀ k, k ≠ i → h.acc src k ≠ none → σ (src, k) < h.hdim (src, k)) →
    (∀ k, k ≠ j → h.acc fin k ≠ none → σ (fin, k) < h.hdim (fin, k)) →
    h'.pairSum (src, i, fin, j) σ = h.pairSum (src, i, fin, j) σ
  canonical : ∀ [StarRing R], SvdIso csvd → h'.Canonical src i

/-- The network in the middle of `split_unite`: the tensor `mid`, which is now the root, stands on the bond. -/
structure MidSplit (csvd : Svd R) (h h1 : Heap R) (src i fin j mid : ℕ) : Prop where
  links : h1.LinkInv
  fresh : h.next = mid
  mono : h.next ≤ h1.next
  lt : mid < h1.next
  axis : (h1.node mid).axis = none
  axisSelf : (h1.node src).axis = some i
  accMid : ∀ k, h1.acc mid k = if k = 0 then some (src, i) else if k = 1 then some (fin, j) else none
  accSelf : ∀ k, h1.acc src k = if k = i then some (mid, 0) else h.acc src k
  accFin : ∀ k, h1.acc fin k = if k = j then some (mid, 1) else h.acc fin k
  accOther : ∀ c k, c ≠ src → c ≠ fin → c ≠ mid → h1.acc c k = h.acc c k
  other : ∀ c, c ≠ src → c ≠ mid → (h1.node c).core = (h.node c).core
  self : (h1.node src).name = (h.node src).name ∧ h1.isLeaf src = h.isLeaf src ∧
    (h1.node src).normalized = (h.node src).normalized
  fullMid : ∃ A, h1.Full mid A
  fullSelf : ∃ A, h1.Full src A
  fullFin : ∃ A, h1.Full fin A
  dimsSelf : ∀ k, k ≠ i → h1.hdim (src, k) = h.hdim (src, k)
  dimsFin : ∀ k, h1.hdim (fin, k) = h.hdim (fin, k)
  dims0 : h1.hdim (mid, 0) = h1.hdim (src, i)
  dims1 : h1.hdim (mid, 1) = h1.hdim (fin, j)
  name : ∀ n, (h.node src).name = some n → (h1.node mid).name = some (n ++ ['\''])
  canonical : ∀ [StarRing R], SvdIso csvd → h1.Canonical src i

theorem LinkInv.congr' {h h' : Heap R} (hi : h.LinkInv) (ha : ∀ c, h'.access c = h.access c)
    (hn : h'.next = h.next) : h'.LinkInv where
  wf c := by rw [ha]; exact hi.wf c
  sym a i b j := by simp only [acc_def, ha]; exact hi.sym a i b j
  fresh a h1 := by rw [ha]; exact hi.fresh a (hn ▸ h1)

theorem Full.congr {h h' : Heap R} {t : ℕ} {A : Nd R} (hA : h.Full t A)
    (ha : ∀ k, h'.acc t k = h.acc t k) (h1 : h'.array t = h.array t) (h2 : h'.isLeaf t = h.isLeaf t) :
    h'.Full t A :=
  ⟨by rw [h2]; exact hA.leaf, by rw [h1]; exact hA.array, hA.wf, hA.pos, fun k => by
    rw [ha]; exact hA.acc k⟩

theorem entry_eq {h : Heap R} {t : ℕ} {A : Nd R} (hA : h.array t = some A) (σ : Assign) :
    h.entry σ t = A.get ((List.range A.ndim).map fun k => σ (t, k)) := by
  unfold entry; rw [hA]

theorem splitNames_ok {name : Option (List Char)} {nm : List Char} (h : name = some nm) (hp : '+' ∉ nm) :
    splitNames name = .ok (nm ++ ['\''], nm) := by
  unfold splitNames; rw [h]; simp [hp]

/-- `[0, …, n)` without `i`, with a bond in the place of `i`. -/
theorem axes2_one {n i : ℕ} (hi : i < n) :
    pyInsert ((axes2Of n [i]).map some) i none =
      (List.range n).map fun k => if k = i then none else some k := by
  obtain ⟨-, e2⟩ := axes2Of_append (n := n) (i := i) (P := []) hi (by simp)
  simp only [List.nil_append, List.not_mem_nil, not_false_eq_true, decide_true, List.filter_true] at e2
  rw [e2]
  conv_rhs => rw [range_split hi]
  rw [pyInsert_eq_insertIdx _ _ _ (by simp), List.map_append, List.map_append, List.map_cons]
  have hl : ((List.range i).map some).length = i := by simp
  have hq := Tensor.insertIdx_append_length ((List.range i).map some)
    ((List.range' (i + 1) (n - i - 1)).map some) (none : Option ℕ)
  rw [hl] at hq
  rw [hq]
  congr 1
  · refine List.map_congr_left fun k hk => ?_
    have := List.mem_range.1 hk
    rw [if_neg (by omega)]
  · congr 1
    · simp
    · refine List.map_congr_left fun k hk => ?_
      have := List.mem_range'_1.1 hk
      rw [if_neg (by omega)]

theorem length_axes2_one {n i : ℕ} (hi : i < n) : (axes2Of n [i]).length = n - 1 := by
  have h1 := congrArg List.length (axes2_one hi)
  obtain ⟨-, e2⟩ := axes2Of_append (n := n) (i := i) (P := []) hi (by simp)
  simp only [List.nil_append, List.not_mem_nil, not_false_eq_true, decide_true, List.filter_true] at e2
  rw [e2]; simp; omega

theorem uniteLabels_mid {s i n t : ℕ} (hi : i < n) :
    uniteLabels s i n t 1 2 = (List.range n).map fun k => if k = i then (t, 0) else (s, k) := by
  conv_rhs => rw [range_split hi]
  unfold uniteLabels
  rw [List.map_append, List.map_cons]
  simp only [List.append_assoc]
  congr 1
  · refine List.map_congr_left fun k hk => ?_
    have := List.mem_range.1 hk
    rw [if_neg (by omega)]
  · simp
    intro k h1 h2 h3; omega

/-- The steps of `split_unite` across a bond between two tensors with all axes linked. -/
theorem splitUnite_steps {csvd : Svd R} (hsv : SvdShape csvd)
    {h : Heap R} {self i fin j : ℕ} {A B : Nd R} (hi : h.LinkInv)
    (hA : h.Full self A) (hB : h.Full fin B) (hb : h.acc self i = some (fin, j)) (hst : self ≠ fin)
    (ls : ∀ k l, h.acc self k ≠ some (self, l)) (lt : ∀ k l, h.acc fin k ≠ some (fin, l))
    (l1 : ∀ k l, h.acc self k = some (fin, l) → k = i) (hax : (h.node self).axis = none)
    (hd : h.hdim (self, i) = h.hdim (fin, j)) {n1 n2 : List Char}
    (hn1 : (h.node self).name = some n1) (hp1 : '+' ∉ n1) (hn2 : (h.node fin).name = some n2)
    (nr : Bool) :
    ∃ h1 mid, h.split csvd self (.one i) none none (some self) nr = .ok (h1, mid, self) ∧
      MidSplit csvd h h1 self i fin j mid ∧
      ∀ h2, GoodChange h1 h2 mid → ∃ h3, h2.unite fin j (some fin) nr = .ok (h3, fin) ∧ h1.next ≤ h3.next ∧
        ∀ op, (op = none → h2 = h1) → MoveSpec csvd op h h3 self i fin j mid := by
  have hin : i < A.ndim := (hA.acc i).1 (by rw [hb]; simp)
  have hbs := hi.sym _ _ _ _ hb
  have hjn : j < B.ndim := (hB.acc j).1 (by rw [hbs]; simp)
  obtain ⟨hlt1, hlt2⟩ := hi.lt hb
  have l2 : ∀ k l, h.acc fin k = some (self, l) → k = j := by
    intro k l e
    have e1 := hi.sym _ _ _ _ e
    have := l1 _ _ e1
    subst this
    rw [hb] at e1; cases e1; rfl
  have len2 := length_axes2_one hin
  -- split
  obtain ⟨h1, mid, c, M, A', d, φ, ψ, s1, s2, s3, s4, s5, s6, s7, s8, s9, s10, s11, s12, s13, -, s15, s16,
    s17, s18, s19, s20, -, -, s23⟩ := split_full (axis := .one i) (indice := none) (root := none)
      (child := some self) (nrm := nr) (axes1 := [i]) (axes2 := axes2Of A.ndim [i]) (i1 := 0) (i2 := i) hsv hi hA ls hax
      (splitNames_ok hn1 hp1) rfl rfl rfl (by simp) (by simpa using hin) (by simp) (by rw [len2]; omega)
      (by intro y hy; cases hy) (by intro y hy; cases hy; exact ⟨hlt1, .inl (by simp)⟩) (by simp) (by simp)
      (by intro x hx; cases hx; exact hA.leaf)
  obtain ⟨hc, c1, c2, c3, -⟩ := s23 self rfl
  obtain ⟨hm, m1, m2, m3⟩ := s20 rfl
  subst hc
  rw [axes2_one hin] at s8 s13
  have hmf : fin ≠ mid := by omega
  have hms : c ≠ mid := by omega
  have hM2 : M.ndim = 2 := by rw [s7.ndim]; rfl
  -- links after split
  have a_mid0 : h1.acc mid 0 = some (c, i) := s11
  have a_mid1 : h1.acc mid 1 = some (fin, j) := by
    rw [← hb]; exact s12 1 i rfl
  have a_self : ∀ k, k ≠ i → h1.acc c k = h.acc c k := by
    intro k hk
    by_cases hkn : k < A.ndim
    · refine s13 k k ?_
      rw [List.getElem?_map, List.getElem?_range hkn]
      simp [hk]
    · have e1 : h.acc c k = none := by
        by_contra hcon; exact hkn ((hA.acc k).1 hcon)
      rw [e1]
      by_contra hcon
      have := (s5.acc k).1 hcon
      rw [s8.ndim] at this
      simp at this; omega
  have a_other : ∀ x k, x ≠ c → x ≠ mid → (x ≠ fin ∨ k ≠ j) → h1.acc x k = h.acc x k := by
    intro x k x1 x2 x3
    by_cases hx : ∃ l, h.acc x k = some (c, l)
    · obtain ⟨l, hl⟩ := hx
      have hs := hi.sym _ _ _ _ hl
      by_cases hli : l = i
      · subst hli
        rw [hb] at hs; cases hs
        rcases x3 with q | q
        · exact absurd rfl q
        · exact absurd rfl q
      · rw [hl]
        have := s2.sym c l x k (by rw [a_self l hli, hs])
        exact this
    · push Not at hx
      exact s15 x k x1 x2 x1 hx
  have a_fin : h1.acc fin j = some (mid, 1) := s2.sym _ _ _ _ a_mid1
  have hcf := s16 fin hmf hst.symm
  have core_fin := core_eq hcf
  have fullfin1 : h1.Full fin B := by
    refine ⟨by rw [isLeaf, core_fin.2.2.2.2.2.2]; exact hB.leaf, core_fin.2.2.1.trans hB.array, hB.wf, hB.pos, ?_⟩
    intro k
    by_cases hk : k = j
    · subst hk; rw [a_fin]; simp [hjn]
    · rw [a_other fin k hst.symm hmf (.inr hk)]; exact hB.acc k
  have hMshape : M.shape = [d, A.shape.getD i 1] := s7.shape
  have hdimA1 : ∀ k, h1.hdim (c, k) = if k = i then d else h.hdim (c, k) := by
    intro k
    rw [s5.hdim_eq, hA.hdim_eq, s8.shape, List.map_map]
    by_cases hkn : k < A.ndim
    · rw [List.getD_eq_getElem _ _ (by simpa using hkn)]
      simp only [List.getElem_map, List.getElem_range, Function.comp]
      split
      · rfl
      · rfl
    · rw [List.getD_eq_default _ _ (by simpa using hkn), if_neg (by omega),
        List.getD_eq_default _ _ (by unfold Nd.ndim at hkn; omega)]
  have canon1 : ∀ [StarRing R], SvdIso csvd → h1.Canonical c i := by
    intro _ hiso
    have hkn : i < A'.ndim := by rw [s8.ndim]; simpa using hin
    refine ⟨A', s5.array, hkn, ?_⟩
    have hdi : A'.shape.getD i 1 = d := by
      rw [← s5.hdim_eq, hdimA1, if_pos rfl]
    have hsh : A'.shape.eraseIdx i = (axes2Of A.ndim [i]).map fun k => A.shape.getD k 1 := by
      have e1 : A'.shape = (pyInsert ((axes2Of A.ndim [i]).map some) i none).map
          (dimO d fun k => A.shape.getD k 1) := by rw [axes2_one hin]; exact s8.shape
      rw [e1, pyInsert_eq_insertIdx _ _ _ (by simp [len2]; omega), Nd.map_insertIdx,
        List.eraseIdx_insertIdx_self, List.map_map]
      rfl
    rw [hdi, hsh]
    intro z w hz hw
    exact s10 hiso z w hz hw
  have midSpec : MidSplit csvd h h1 c i fin j mid := by
    refine ⟨s2, hm.symm, s19, ?_, s17, s18, ?_, ?_, ?_, ?_, fun x x1 x2 => s16 x x2 x1, ⟨c2, c1, c3⟩, ⟨M, s4⟩, ⟨A', s5⟩,
      ⟨B, fullfin1⟩, ?_, ?_, ?_, ?_, ?_, canon1⟩
    · exact (s2.lt a_mid0).1
    · intro k
      by_cases h0 : k = 0
      · subst h0; rw [if_pos rfl]; exact a_mid0
      by_cases h1' : k = 1
      · subst h1'; rw [if_neg h0, if_pos rfl]; exact a_mid1
      rw [if_neg h0, if_neg h1']
      by_contra hcon
      have := (s4.acc k).1 hcon
      omega
    · intro k
      split
      · rename_i q; subst q; exact s2.sym _ _ _ _ a_mid0
      · rename_i q; exact a_self k q
    · intro k
      split
      · rename_i q; subst q; exact a_fin
      · rename_i q; exact a_other fin k hst.symm hmf (.inr q)
    · intro x k x1 x2 x3; exact a_other x k x1 x3 (.inl x2)
    · intro k hk; rw [hdimA1, if_neg hk]
    · intro k; rw [fullfin1.hdim_eq, hB.hdim_eq]
    · rw [hdimA1, if_pos rfl, s4.hdim_eq, hMshape]; rfl
    · rw [s4.hdim_eq, hMshape, fullfin1.hdim_eq, ← hB.hdim_eq, ← hd, hA.hdim_eq]; rfl
    · intro n hn; rw [hn1] at hn; cases hn; exact m2
  refine ⟨h1, mid, s1, midSpec, fun h2 hch => ?_⟩
  -- operator
  obtain ⟨o2, o3, o4, o5, o6a⟩ := hch
  obtain ⟨M', o6, o7, o8⟩ := o6a M s4.array
  have acc2 : ∀ x k, h2.acc x k = h1.acc x k := by intro x k; rw [acc_def, o2, ← acc_def]
  have i2 : h2.LinkInv := s2.congr' o2 o3
  have hM2' : M'.ndim = 2 := by rw [← hM2]; unfold Nd.ndim; rw [o8]
  have fullmid : h2.Full mid M' := by
    refine ⟨by rw [isLeaf, (o4 mid).1]; exact s4.leaf, o6, o7, by rw [o8]; exact s4.pos, ?_⟩
    intro k
    rw [acc2, s4.acc k]
    unfold Nd.ndim; rw [o8]
  have fullfin : h2.Full fin B :=
    fullfin1.congr (acc2 fin) (o5 fin hmf) (o4 fin).1
  have fullself : h2.Full c A' := s5.congr (acc2 c) (o5 c hms) (o4 c).1
  -- dimensions
  have hdimA : ∀ k, h2.hdim (c, k) = if k = i then d else h.hdim (c, k) := by
    intro k
    rw [fullself.hdim_eq, hA.hdim_eq, s8.shape, List.map_map]
    by_cases hkn : k < A.ndim
    · rw [List.getD_eq_getElem _ _ (by simpa using hkn)]
      simp only [List.getElem_map, List.getElem_range, Function.comp]
      split
      · rfl
      · rfl
    · rw [List.getD_eq_default _ _ (by simpa using hkn), if_neg (by omega),
        List.getD_eq_default _ _ (by unfold Nd.ndim at hkn; omega)]
  have hdimM0 : h2.hdim (mid, 0) = d := by rw [fullmid.hdim_eq, o8, hMshape]; rfl
  have hdimM1 : h2.hdim (mid, 1) = h.hdim (c, i) := by
    rw [fullmid.hdim_eq, o8, hMshape, hA.hdim_eq]; rfl
  have hdimB : ∀ k, h2.hdim (fin, k) = h.hdim (fin, k) := by
    intro k; rw [fullfin.hdim_eq, hB.hdim_eq]
  -- unite
  have lmid : ∀ k l, h2.acc mid k ≠ some (mid, l) := by
    intro k l e
    rw [acc2] at e
    have hk := (s4.acc k).1 (by rw [e]; simp)
    rw [hM2] at hk
    have hk2 : k = 0 ∨ k = 1 := by omega
    rcases hk2 with rfl | rfl
    · rw [a_mid0] at e; cases e; exact hms rfl
    · rw [a_mid1] at e; cases e; exact hmf rfl
  have hacc_lt : ∀ x k l, h.acc x k ≠ some (mid, l) := by
    intro x k l e
    have := (hi.lt e).2
    omega
  obtain ⟨h3, r, B', u1, u2, u3, u4, u5, u6, u7, u8, u9, -, u11⟩ := unite_full (s := fin) (i := j) (t := mid)
    (j := 1) (root := some fin) (nrm := nr)
    (nm := if '\'' ∈ n2 then some (n1 ++ ['\'']) else some n2) i2 fullfin fullmid
    (by rw [acc2]; exact a_fin) hmf
    (by
      intro k l e
      rw [acc2] at e
      by_cases hk : k = j
      · subst hk; rw [a_fin] at e; cases e; exact hmf rfl
      · rw [a_other fin k hst.symm hmf (.inr hk)] at e; exact lt _ _ e)
    lmid
    (by
      intro k l e
      rw [acc2] at e
      by_contra hk
      rw [a_other fin k hst.symm hmf (.inr hk)] at e; exact hacc_lt _ _ _ e)
    (.inr (by rw [(o4 mid).2.2.1]; exact s17))
    (by rw [hdimB, hdimM1]; exact hd.symm)
    (by
      rw [(o4 fin).2.1, (o4 mid).2.1, core_fin.1, hn2, m2]
      unfold uniteName
      by_cases hq : '\'' ∈ n2 <;> simp [hq])
    (by intro x hx; cases hx; exact ⟨by rw [o3]; omega, .inl (by simp)⟩)
    (by intro x hx; cases hx; exact fullfin.leaf)
  obtain ⟨hr, v0, v1, v2, v3, v4⟩ := u11 fin rfl
  subst hr
  rw [hM2', uniteLabels_mid hjn] at u4 u5
  -- links after unite
  have b_fin : ∀ k, h3.acc r k = h.acc r k := by
    intro k
    by_cases hkn : k < B.ndim
    · rw [u5 k (if k = j then (mid, 0) else (r, k)) (by
        rw [List.getElem?_map, List.getElem?_range hkn]; rfl)]
      by_cases hk : k = j
      · subst hk; simp only [if_true]; rw [acc2, a_mid0, hbs]
      · simp only [if_neg hk]; rw [acc2, a_other r k hst.symm hmf (.inr hk)]
    · have e1 : h.acc r k = none := by
        by_contra hcon; exact hkn ((hB.acc k).1 hcon)
      rw [e1]
      by_contra hcon
      have := (u3.acc k).1 hcon
      rw [u4.ndim] at this
      simp at this; omega
  have b_all : ∀ x k, h3.acc x k = h.acc x k := by
    intro x k
    by_cases hxf : x = r
    · subst hxf; exact b_fin k
    by_cases hxm : x = mid
    · subst hxm
      rw [u7 x (by simp) hmf.symm k, acc_def, hi.fresh x (by omega)]; rfl
    by_cases hx : ∃ l, h.acc x k = some (r, l)
    · obtain ⟨l, hl⟩ := hx
      rw [hl]
      exact u2.sym r l x k (by rw [b_fin l]; exact hi.sym _ _ _ _ hl)
    · push Not at hx
      have e1 : h2.acc x k = h.acc x k := by
        rw [acc2]
        by_cases hxc : x = c
        · subst hxc
          refine a_self k ?_
          rintro rfl
          exact hx j hb
        · exact a_other x k hxc hxm (.inl hxf)
      rw [← e1]
      refine u6 x k hxf hxm hxf fun l => ?_
      rw [e1]
      exact ⟨hx l, hacc_lt x k l⟩
  have hself3 := core_eq (u8 c hst)
  have fullself3 : h3.Full c A' := by
    refine ⟨by rw [isLeaf, hself3.2.2.2.2.2.2]; exact fullself.leaf, hself3.2.2.1.trans fullself.array,
      s5.wf, s5.pos, ?_⟩
    intro k
    rw [b_all, hA.acc, s8.ndim]; simp
  have hdimA3 : ∀ k, h3.hdim (c, k) = if k = i then d else h.hdim (c, k) := by
    intro k; rw [← hdimA, fullself3.hdim_eq, fullself.hdim_eq]
  have hdimB3 : ∀ k, h3.hdim (r, k) = if k = j then d else h.hdim (r, k) := by
    intro k
    rw [u3.hdim_eq, u4.shape, List.map_map]
    by_cases hkn : k < B.ndim
    · rw [List.getD_eq_getElem _ _ (by simpa using hkn)]
      simp only [List.getElem_map, List.getElem_range, Function.comp]
      split
      · exact hdimM0
      · exact hdimB k
    · rw [List.getD_eq_default _ _ (by simpa using hkn), if_neg (by omega), hB.hdim_eq,
        List.getD_eq_default _ _ (by unfold Nd.ndim at hkn; omega)]
  refine ⟨h3, u1, by omega, fun op o9 => ⟨u2, b_all, ?_, ?_, ?_, u9, ⟨A', fullself3⟩, ⟨B', u3⟩, ?_, ?_, ?_, by omega, by omega,
    by rw [isLeaf, (core_eq (u8 mid hmf.symm)).2.2.2.2.2.2]; exact fullmid.leaf, ?_, ?_⟩⟩
  · intro x hxm
    by_cases hxf : x = r
    · subst hxf
      rw [isLeaf, v1, v2, v3, (o4 x).1, (o4 x).2.1, (o4 x).2.2.2]
      exact ⟨core_fin.1, core_fin.2.2.2.2.2.2, core_fin.2.2.2.2.2.1⟩
    · have e3 := core_eq (u8 x hxf)
      rw [isLeaf, e3.1, e3.2.2.2.2.2.2, e3.2.2.2.2.2.1, (o4 x).1, (o4 x).2.1, (o4 x).2.2.2]
      by_cases hxc : x = c
      · subst hxc; exact ⟨c2, c1, c3⟩
      · have e1 := core_eq (s16 x hxm hxc)
        exact ⟨e1.1, e1.2.2.2.2.2.2, e1.2.2.2.2.2.1⟩
  · intro x hxc hxf hxm
    have e3 := core_eq (u8 x hxf)
    have e1 := core_eq (s16 x hxm hxc)
    refine ⟨by rw [e3.2.1, (o4 x).2.2.1, e1.2.1], ?_⟩
    exact e3.2.2.1.trans ((o5 x hxm).trans e1.2.2.1)
  · rw [hself3.2.1, (o4 c).2.2.1]; exact s18
  · intro k hk; rw [hdimA3, if_neg hk]
  · intro k hk; rw [hdimB3, if_neg hk]
  · rw [hdimA3, hdimB3]; simp
  · -- exactness
    intro hex hop σ hσ1 hσ2
    have hMM : M' = M := by
      have := o9 hop
      rw [this, s4.array] at o6
      exact (Option.some.inj o6).symm
    have hσA : ∀ k < A.ndim, k ≠ i → σ (c, k) < A.shape.getD k 1 := by
      intro k hk hki
      rw [← hA.hdim_eq]
      exact hσ1 k hki ((hA.acc k).2 hk)
    have hσB : ∀ k < B.ndim, k ≠ j → σ (r, k) < B.shape.getD k 1 := by
      intro k hk hkj
      rw [← hB.hdim_eq]
      exact hσ2 k hkj ((hB.acc k).2 hk)
    have hA'n : A'.ndim = A.ndim := by rw [s8.ndim]; simp
    have hB'n : B'.ndim = B.ndim := by rw [u4.ndim]; simp
    have hdv : h.hdim (c, i) = A.shape.getD i 1 := hA.hdim_eq i
    -- entries of the pieces
    have eA : ∀ v, v < A.shape.getD i 1 → A.get ((List.range A.ndim).map fun k => if k = i then v else σ (c, k)) =
        ∑ z ∈ Finset.range d, M.get [z, v] *
          A'.get ((List.range A.ndim).map fun k => if k = i then z else σ (c, k)) := by
      intro v hv
      let f : Option ℕ → ℕ := fun o => match o with
        | none => 0
        | some k => if k = i then v else σ (c, k)
      have h1 := s9 hex f (by
        intro k hk
        simp only [f]
        split
        · rename_i q; rw [q]; exact hv
        · rename_i q; exact hσA k hk q)
      simp only [f] at h1
      rw [← h1]
      refine Finset.sum_congr rfl fun z hz => ?_
      have hz' := Finset.mem_range.1 hz
      have g1 := s7.get (Nd.upd f none z) (by
        intro o ho
        have : o = none ∨ o = some i := by
          have : o ∈ [none, some i] := ho
          simpa using this
        rcases this with rfl | rfl
        · simpa [dimO] using hz'
        · simp only [dimO, Nd.upd, f]; simp; exact hv)
      have g2 := s8.get (Nd.upd f none z) (by
        intro o ho
        obtain ⟨k, hk, rfl⟩ := List.mem_map.1 ho
        have hk' := List.mem_range.1 hk
        split
        · simpa [dimO] using hz'
        · rename_i q
          simp only [dimO, Nd.upd, f]; simp [q]; exact hσA k hk' q)
      rw [List.map_map] at g2
      have e1 : M.get [z, v] = φ (Nd.upd f none z) := by
        rw [← g1]
        show _ = M.get ([none, some i].map _)
        simp [Nd.upd, f]
      have e2 : A'.get ((List.range A.ndim).map fun k => if k = i then z else σ (c, k)) =
          ψ (Nd.upd f none z) := by
        rw [← g2]
        congr 1
        refine List.map_congr_left fun k hk => ?_
        simp only [Function.comp]
        split
        · simp
        · rename_i q; simp [Nd.upd, f, q]
      rw [e1, e2]
    have eB : ∀ z, z < d → B'.get ((List.range B.ndim).map fun k => if k = j then z else σ (r, k)) =
        ∑ v ∈ Finset.range (h.hdim (r, j)),
          B.get ((List.range B.ndim).map fun k => if k = j then v else σ (r, k)) * M.get [z, v] := by
      intro z hz
      let f : ℕ × ℕ → ℕ := fun p => if p.1 = mid then z else σ p
      have g := u4.get f (by
        intro p hp
        obtain ⟨k, hk, rfl⟩ := List.mem_map.1 hp
        have hk' := List.mem_range.1 hk
        split
        · simp only [f, if_true, hdimM0]; exact hz
        · rename_i q
          simp only [f, if_neg hmf, hdimB]
          rw [hB.hdim_eq]; exact hσB k hk' q)
      rw [List.map_map] at g
      have e0 : (List.range B.ndim).map (f ∘ fun k => if k = j then (mid, 0) else (r, k)) =
          (List.range B.ndim).map fun k => if k = j then z else σ (r, k) := by
        refine List.map_congr_left fun k hk => ?_
        simp only [Function.comp]
        split
        · simp [f]
        · simp [f, hmf]
      rw [e0] at g
      rw [g, hdimB]
      refine Finset.sum_congr rfl fun v hv => ?_
      rw [hMM]
      congr 1
      · congr 1
        refine List.map_congr_left fun k hk => ?_
        simp only [Nd.upd, Prod.mk.injEq, true_and]
        split
        · rfl
        · simp [f, hmf]
      · simp [List.range_succ, Nd.upd, f]
    unfold pairSum
    simp only
    have hent : ∀ (g : Heap R) (X Y : Nd R), g.array c = some X → g.array r = some Y → X.ndim = A.ndim →
        Y.ndim = B.ndim → ∀ v, g.entry (setBond (c, i, r, j) v σ) c * g.entry (setBond (c, i, r, j) v σ) r =
        X.get ((List.range A.ndim).map fun k => if k = i then v else σ (c, k)) *
        Y.get ((List.range B.ndim).map fun k => if k = j then v else σ (r, k)) := by
      intro g X Y hX hY nX nY v
      rw [entry_eq hX, entry_eq hY, nX, nY]
      congr 1
      · congr 1
        refine List.map_congr_left fun k hk => ?_
        simp [setBond, Nd.upd, hst]
      · congr 1
        refine List.map_congr_left fun k hk => ?_
        simp [setBond, Nd.upd, hst.symm]
    simp only [hent h3 A' B' fullself3.array u3.array hA'n hB'n, hent h A B hA.array hB.array rfl rfl]
    rw [hdimA3, if_pos rfl]
    calc _ = ∑ z ∈ Finset.range d, ∑ v ∈ Finset.range (h.hdim (c, i)),
            A'.get ((List.range A.ndim).map fun k => if k = i then z else σ (c, k)) *
            (B.get ((List.range B.ndim).map fun k => if k = j then v else σ (r, k)) * M.get [z, v]) := by
          refine Finset.sum_congr rfl fun z hz => ?_
          rw [eB z (Finset.mem_range.1 hz), Finset.mul_sum, hd]
      _ = ∑ v ∈ Finset.range (h.hdim (c, i)), ∑ z ∈ Finset.range d,
            A'.get ((List.range A.ndim).map fun k => if k = i then z else σ (c, k)) *
            (B.get ((List.range B.ndim).map fun k => if k = j then v else σ (r, k)) * M.get [z, v]) :=
          Finset.sum_comm
      _ = _ := by
          refine Finset.sum_congr rfl fun v hv => ?_
          rw [eA v (by rw [← hdv]; exact Finset.mem_range.1 hv), Finset.sum_mul]
          refine Finset.sum_congr rfl fun z hz => ?_
          ring
  · -- canonical
    intro _ hiso
    have hkn : i < A'.ndim := by rw [s8.ndim]; simpa using hin
    refine ⟨A', fullself3.array, hkn, ?_⟩
    have hdi : A'.shape.getD i 1 = d := by
      rw [← fullself3.hdim_eq, hdimA3, if_pos rfl]
    have hsh : A'.shape.eraseIdx i = (axes2Of A.ndim [i]).map fun k => A.shape.getD k 1 := by
      have e1 : A'.shape = (pyInsert ((axes2Of A.ndim [i]).map some) i none).map
          (dimO d fun k => A.shape.getD k 1) := by rw [axes2_one hin]; exact s8.shape
      rw [e1, pyInsert_eq_insertIdx _ _ _ (by simp [len2]; omega), Nd.map_insertIdx,
        List.eraseIdx_insertIdx_self, List.map_map]
      rfl
    rw [hdi, hsh]
    intro z w hz hw
    exact s10 hiso z w hz hw

/-- `split_unite` across a bond between two tensors with all axes linked. -/
theorem splitUnite_full {csvd : Svd R} (hsv : SvdShape csvd) {op : Option (Operator R)}
    (ho : GoodOp op) {h : Heap R} {self i fin j : ℕ} {A B : Nd R} (hi : h.LinkInv)
    (hA : h.Full self A) (hB : h.Full fin B) (hb : h.acc self i = some (fin, j)) (hst : self ≠ fin)
    (ls : ∀ k l, h.acc self k ≠ some (self, l)) (lt : ∀ k l, h.acc fin k ≠ some (fin, l))
    (l1 : ∀ k l, h.acc self k = some (fin, l) → k = i) (hax : (h.node self).axis = none)
    (hd : h.hdim (self, i) = h.hdim (fin, j)) {n1 n2 : List Char}
    (hn1 : (h.node self).name = some n1) (hp1 : '+' ∉ n1) (hn2 : (h.node fin).name = some n2)
    (nrm : Option Bool) :
    ∃ h' mid, h.splitUnite csvd self i op nrm = .ok (h', self, mid, fin) ∧
      MoveSpec csvd op h h' self i fin j mid := by
  obtain ⟨h1, mid, e1, m, hu⟩ := splitUnite_steps hsv hi hA hB hb hst ls lt l1 hax hd hn1 hp1 hn2
    (nrm.getD ((h.node self).normalized && (h.node fin).normalized))
  obtain ⟨M, hM⟩ := m.fullMid
  obtain ⟨h2, o1, o2, o3⟩ := applyOp_good ho m.axis hM.array hM.wf
  obtain ⟨h3, u1, -, u2⟩ := hu h2 o2
  refine ⟨h3, mid, ?_, u2 op o3⟩
  unfold splitUnite
  have hb' : Dict.get? (h.access self) i = some (fin, j) := hb
  simp only [Dict.get!, hb', ok_bind]
  rw [e1]
  simp only [ok_bind]
  rw [o1]
  simp only [ok_bind]
  rw [u1]
  rfl

end Heap
