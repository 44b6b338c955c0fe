import Verif.Lemmas.Moves

/-!
`unite_split` along one bond.
-/

open scoped BigOperators
open Py

namespace Heap

variable {R : Type} [CommRing R]

theorem getElem?_uniteLabels {s i n t j m : ℕ} (hi : i < n) (hj : j < m) :
    (∀ k < i, (uniteLabels s i n t j m)[k]? = some (s, k)) ∧
    (∀ k < j, (uniteLabels s i n t j m)[i + k]? = some (t, k)) ∧
    (∀ k, j < k → k < m → (uniteLabels s i n t j m)[i + k - 1]? = some (t, k)) ∧
    (∀ k, i < k → k < n → (uniteLabels s i n t j m)[k + m - 2]? = some (s, k)) ∧
    (uniteLabels s i n t j m).length = n + m - 2 := by
  unfold uniteLabels
  refine ⟨?_, ?_, ?_, ?_, ?_⟩
  · intro k hk
    rw [List.getElem?_append_left (by simp; omega), List.getElem?_append_left (by simpa using hk)]
    simp [hk]
  · intro k hk
    rw [List.getElem?_append_left (by simp; omega), List.getElem?_append_right (by simp),
      List.getElem?_append_left (by simpa using hk)]
    simp [hk]
  · intro k h1 h2
    rw [List.getElem?_append_left (by simp; omega), List.getElem?_append_right (by simp; omega),
      List.getElem?_append_right (by simp; omega)]
    have e : i + k - 1 - i - j = k - (j + 1) := by omega
    simp only [List.length_map, List.length_range, List.getElem?_map, e]
    rw [List.getElem?_range' (by omega)]
    simp; omega
  · intro k h1 h2
    rw [List.getElem?_append_right (by simp; omega)]
    simp only [List.length_append, List.length_map, List.length_range, List.length_range', List.getElem?_map]
    have e : k + m - 2 - (i + (j + (m - j - 1))) = k - (i + 1) := by omega
    rw [e, List.getElem?_range' (by omega)]
    simp; omega
  · simp; omega

theorem usAxes (i m : ℕ) : (List.range m).map (fun k => i + k) = List.range' i m := by
  rw [List.range_eq_range', List.map_add_range']; simp

theorem insertionSort_range' (i m : ℕ) : (List.range' i m).insertionSort (· ≤ ·) = List.range' i m := by
  apply List.Pairwise.insertionSort_eq
  exact (List.pairwise_lt_range' (s := i) (n := m)).imp (fun h => Nat.le_of_lt h)

theorem axes2_range' {i n m : ℕ} (hi : i < n) :
    axes2Of (n + m - 1) (List.range' i m) = List.range i ++ List.range' (i + m) (n - 1 - i) := by
  unfold axes2Of
  have e : n + m - 1 = i + (m + (n - 1 - i)) := by omega
  rw [e, List.range_add, List.range_add, List.map_append, List.filter_append, List.filter_append, usAxes,
    List.map_map]
  have e1 : (List.range i).filter (fun k => decide (k ∉ List.range' i m)) = List.range i := by
    rw [List.filter_eq_self]
    intro a ha
    have := List.mem_range.1 ha
    simp only [List.mem_range'_1, decide_eq_true_eq]; omega
  have e2 : (List.range' i m).filter (fun k => decide (k ∉ List.range' i m)) = [] := by
    rw [List.filter_eq_nil_iff]
    intro a ha
    simp [ha]
  have e3 : (List.range (n - 1 - i)).map ((fun x => i + x) ∘ fun x => m + x) = List.range' (i + m) (n - 1 - i) := by
    rw [← usAxes]
    refine List.map_congr_left fun k _ => ?_
    simp only [Function.comp]; omega
  have e4 : (List.range' (i + m) (n - 1 - i)).filter (fun k => decide (k ∉ List.range' i m)) =
      List.range' (i + m) (n - 1 - i) := by
    rw [List.filter_eq_self]
    intro a ha
    have := List.mem_range'_1.1 ha
    simp only [List.mem_range'_1, decide_eq_true_eq]; omega
  rw [e1, e2, e3, e4]; simp

theorem us_A1 {i j m : ℕ} (hj : j < m) :
    pyInsert ((List.range' i (m - 1)).map some) j none =
      (List.range m).map fun k => if k < j then some (i + k) else if k = j then none else some (i + k - 1) := by
  rw [pyInsert_eq_insertIdx _ _ _ (by simp; omega)]
  refine List.ext_getElem? fun k => ?_
  rw [List.getElem?_insertIdx]
  simp only [List.getElem?_map]
  split
  · rename_i h1
    rw [List.getElem?_range' (by omega), List.getElem?_range (by omega)]
    simp [h1]
  · split
    · rename_i h1 h2
      subst h2
      rw [List.getElem?_range hj]
      simp; omega
    · rename_i h1 h2
      by_cases hk : k < m
      · rw [List.getElem?_range' (by omega), List.getElem?_range hk]
        simp [h1, h2]; omega
      · rw [List.getElem?_eq_none (by simp; omega), List.getElem?_eq_none (by simp; omega)]; rfl

theorem us_A2 {i n m : ℕ} (hi : i < n) (hm : 0 < m) :
    pyInsert ((axes2Of (n + m - 2) (List.range' i (m - 1))).map some) i none =
      (List.range n).map fun k => if k < i then some k else if k = i then none else some (k + m - 2) := by
  have e : n + m - 2 = n + (m - 1) - 1 := by omega
  rw [e, axes2_range' hi]
  rw [pyInsert_eq_insertIdx _ _ _ (by simp)]
  refine List.ext_getElem? fun k => ?_
  rw [List.getElem?_insertIdx]
  simp only [List.getElem?_map]
  split
  · rename_i h1
    rw [List.getElem?_append_left (by simpa using h1), List.getElem?_range h1, List.getElem?_range (by omega)]
    simp [h1]
  · split
    · rename_i h1 h2
      subst h2
      rw [List.getElem?_range hi]
      simp
    · rename_i h1 h2
      rw [List.getElem?_append_right (by simp; omega)]
      by_cases hk : k < n
      · rw [List.getElem?_range' (by simp; omega), List.getElem?_range hk]
        simp [h1, h2]; omega
      · rw [List.getElem?_eq_none (by simp; omega), List.getElem?_eq_none (by simp; omega)]; rfl

theorem linkageVisitor_congr {h h' : Heap R} (hw : h.Wf) (hw' : h'.Wf)
    (ha : ∀ c k, h'.acc c k = h.acc c k) (hl : ∀ c, h'.isLeaf c = h.isLeaf c) (fuel : ℕ) :
    ∀ a axis leaf directed,
      h'.linkageVisitor fuel a axis leaf directed = h.linkageVisitor fuel a axis leaf directed := by
  induction fuel with
  | zero => intros; rfl
  | succ n ih =>
    intro a axis leaf directed
    simp only [linkageVisitor]
    rw [children_congr hw' hw axis leaf (ha a) hl]
    simp only [ih]

/-- Everything `unite_split` does before its final assertion. -/
def uniteSplitCore (csvd : Svd R) (h : Heap R) (self i : ℕ) (op : Option (Operator R) := none)
    (normalized : Option Bool := none) : Res (Heap R × ℕ × ℕ × ℕ) := do
  let (fin, j) ← (h.access self).get! i
  let normalized := normalized.getD ((h.node self).normalized && (h.node fin).normalized)
  let axes := (List.range (h.order fin - 1)).map fun k => i + k
  let (h, mid) ← h.unite self i none normalized
  let (h, mid) ← applyOp op h mid
  let (h, _, _) ← h.split csvd mid (.many axes) (some (j, i)) (some fin) (some self) normalized
  pure (h, self, mid, fin)

theorem uniteSplit_of_core {fuel : ℕ} {csvd : Svd R} {h h' : Heap R} {self i mid fin : ℕ}
    {op : Option (Operator R)} {nrm : Option Bool} {old : List (ℕ × ℕ × ℕ × ℕ)}
    (hold : h.linkageVisitor fuel self none true false = .ok old)
    (e : h.uniteSplitCore csvd self i op nrm = .ok (h', self, mid, fin))
    (hnew : h'.linkageVisitor fuel self none true false = .ok old) :
    h.uniteSplit fuel csvd self i op nrm = .ok (h', self, mid, fin) := by
  unfold uniteSplitCore at e
  unfold uniteSplit
  rw [hold]
  simp only [ok_bind]
  simp only [bind_eq_ok, pure_eq_ok] at e
  obtain ⟨⟨fin', j⟩, e1, ⟨h1, mid1⟩, e2, ⟨h2, mid2⟩, e3, ⟨h3, x, y⟩, e4, e5⟩ := e
  simp only at e2 e3 e4
  cases e5
  rw [e1]; simp only [ok_bind]
  rw [e2]; simp only [ok_bind]
  rw [e3]; simp only [ok_bind]
  rw [e4]; simp only [ok_bind]
  rw [hnew]; simp

/-- The network in the middle of `unite_split`: the tensor `mid`, which is now the root, stands for the two tensors
of the bond, and has all their other links in the order of `uniteLabels`. -/
structure MidUnite (h h1 : Heap R) (src i fin j mid : ℕ) (na nb : ℕ) : Prop where
  links : h1.LinkInv
  fresh : h.next = mid
  lt : mid < h1.next
  axis : (h1.node mid).axis = none
  accMid : ∀ k p, (uniteLabels src i na fin j nb)[k]? = some p → h1.acc mid k = h.acc p.1 p.2
  accNone : ∀ k, h1.acc src k = none ∧ h1.acc fin k = none
  accOther : ∀ c k, c ≠ src → c ≠ fin → c ≠ mid →
    (∀ l, h.acc c k ≠ some (src, l) ∧ h.acc c k ≠ some (fin, l)) → h1.acc c k = h.acc c k
  other : ∀ c, c ≠ mid → (h1.node c).core = (h.node c).core
  fullMid : ∃ A, h1.Full mid A ∧ A.ndim = (uniteLabels src i na fin j nb).length
  dimsMid : ∀ k p, (uniteLabels src i na fin j nb)[k]? = some p → h1.hdim (mid, k) = h.hdim p
  name : ∃ nm, (h1.node mid).name = some nm
  entry : ∀ C, h1.array mid = some C → ∀ σ : Assign, (∀ p ∈ uniteLabels src i na fin j nb, σ p < h.hdim p) →
    C.get ((uniteLabels src i na fin j nb).map σ) = h.pairSum (src, i, fin, j) σ

/-- The steps of `unite_split` across a bond between two tensors with all axes linked. -/
theorem uniteSplit_steps {csvd : Svd R} (hsv : SvdShape csvd)
    {h : Heap R} {self i fin j : ℕ} {A B : Nd R} (hi : h.LinkInv)
    (hA : h.Full self A) (hB : h.Full fin B) (hb : h.acc self i = some (fin, j)) (hst : self ≠ fin)
    (ls : ∀ k l, h.acc self k ≠ some (self, l)) (lt : ∀ k l, h.acc fin k ≠ some (fin, l))
    (l1 : ∀ k l, h.acc self k = some (fin, l) → k = i) (hax : (h.node self).axis = none ∨ (h.node fin).axis = none)
    (hd : h.hdim (self, i) = h.hdim (fin, j)) {n1 n2 : List Char}
    (hn1 : (h.node self).name = some n1) (hp1 : '+' ∉ n1) (hn2 : (h.node fin).name = some n2)
    (hp2 : '+' ∉ n2) (nr : Bool) :
    ∃ h1 mid, h.unite self i none nr = .ok (h1, mid) ∧ MidUnite h h1 self i fin j mid A.ndim B.ndim ∧
      ∀ h2, GoodChange h1 h2 mid → ∃ h3,
        h2.split csvd mid (.many ((List.range ((h.order fin) - 1)).map fun k => i + k)) (some (j, i)) (some fin)
          (some self) nr = .ok (h3, fin, self) ∧ h1.next ≤ h3.next ∧
        (∀ op, (op = none → h2 = h1) → MoveSpec csvd op h h3 self i fin j mid) ∧
        (SvdExact csvd → ∀ C, h2.array mid = some C → ∀ σ : Assign,
          (∀ p ∈ uniteLabels self i A.ndim fin j B.ndim, σ p < h.hdim p) →
          h3.pairSum (self, i, fin, j) σ = C.get ((uniteLabels self i A.ndim fin j B.ndim).map σ)) := by
  have hin : i < A.ndim := (hA.acc i).1 (by rw [hb]; simp)
  have hbs := hi.sym _ _ _ _ hb
  have hjn : j < B.ndim := (hB.acc j).1 (by rw [hbs]; simp)
  obtain ⟨hlt1, hlt2⟩ := hi.lt hb
  have l2 : ∀ k l, h.acc fin k = some (self, l) → k = j := by
    intro k l e
    have e1 := hi.sym _ _ _ _ e
    have := l1 _ _ e1
    subst this
    rw [hb] at e1; cases e1; rfl
  have hord := hB.order hi.wf
  -- unite
  obtain ⟨nm, hnm, ⟨nm0, hnm0⟩, nm1, nm2, hsn⟩ : ∃ nm, uniteName (h.node self).name (h.node fin).name = .ok nm ∧
      (∃ n, nm = some n) ∧ ∃ a b, splitNames nm = .ok (a, b) := by
    rw [hn1, hn2]
    unfold uniteName
    simp only
    by_cases q1 : '\'' ∈ n1
    · exact ⟨some n2, by rw [if_pos q1], ⟨_, rfl⟩, _, _, splitNames_ok rfl hp2⟩
    · by_cases q2 : '\'' ∈ n2
      · exact ⟨some n1, by rw [if_neg q1, if_pos q2], ⟨_, rfl⟩, _, _, splitNames_ok rfl hp1⟩
      · refine ⟨some (n1 ++ '+' :: n2), by rw [if_neg q1, if_neg q2], ⟨_, rfl⟩, n1, n2, ?_⟩
        unfold splitNames
        simp only
        have hs : (n1 ++ '+' :: n2).splitOn '+' = [n1, n2] := by
          rw [List.splitOn_append_cons_self_of_not_mem hp1, List.splitOn_eq_singleton hp2]
        rw [if_pos (by simp), hs]
  obtain ⟨h1, mid, C, u1, u2, u3, u4, u5, u6, u7, u8, u9, u10, -⟩ := unite_full (root := none) (nrm := nr)
    hi hA hB hb hst ls lt l1 hax hd hnm (by intro x hx; cases hx) (by simp)
  obtain ⟨hm, m0, m1, m2, m3⟩ := u10 rfl
  obtain ⟨q1, q2, q3, q4, q5⟩ := getElem?_uniteLabels (s := self) (t := fin) hin hjn
  set Lh := uniteLabels self i A.ndim fin j B.ndim with hLh
  have hmf : fin ≠ mid := by omega
  have hms : self ≠ mid := by omega
  have hCn : C.ndim = A.ndim + B.ndim - 2 := by rw [u4.ndim, q5]
  have hacc_lt : ∀ x k l, h.acc x k ≠ some (mid, l) := by
    intro x k l e
    have := (hi.lt e).2
    omega
  have hent : ∀ (σ : Assign) (g : Heap R) (X Y : Nd R), g.array self = some X → g.array fin = some Y → X.ndim = A.ndim →
      Y.ndim = B.ndim → ∀ v, g.entry (setBond (self, i, fin, j) v σ) self * g.entry (setBond (self, i, fin, j) v σ) fin =
      X.get ((List.range A.ndim).map fun k => if k = i then v else σ (self, k)) *
      Y.get ((List.range B.ndim).map fun k => if k = j then v else σ (fin, k)) := by
    intro σ g X Y hX hY nX nY v
    rw [entry_eq hX, entry_eq hY, nX, nY]
    congr 1
    · congr 1
      refine List.map_congr_left fun k hk => ?_
      simp [setBond, Nd.upd, hst]
    · congr 1
      refine List.map_congr_left fun k hk => ?_
      simp [setBond, Nd.upd, hst.symm]
  have hold : ∀ σ : Assign, h.pairSum (self, i, fin, j) σ = ∑ v ∈ Finset.range (h.hdim (self, i)),
      A.get ((List.range A.ndim).map fun k => Nd.upd σ (self, i) v (self, k)) *
      B.get ((List.range B.ndim).map fun k => Nd.upd σ (fin, j) v (fin, k)) := by
    intro σ
    unfold pairSum
    simp only [hent σ h A B hA.array hB.array rfl rfl]
    refine Finset.sum_congr rfl fun v hv => ?_
    congr 1
    · congr 1
      refine List.map_congr_left fun k hk => ?_
      simp [Nd.upd]
    · congr 1
      refine List.map_congr_left fun k hk => ?_
      simp [Nd.upd]
  have midSpec : MidUnite h h1 self i fin j mid A.ndim B.ndim := by
    refine ⟨u2, hm.symm, by omega, u9, u5, fun k => ⟨u7 self (by simp) hms k, u7 fin (by simp) hmf k⟩, u6, u8, ⟨C, u3,
      by rw [hCn, q5]⟩, ?_, ⟨nm0, by rw [m2, hnm0]⟩, ?_⟩
    · intro k p hp
      rw [u3.hdim_eq, u4.shape, List.getD_eq_getElem?_getD, List.getElem?_map, hp]; rfl
    · intro C0 hC0 σ hσ
      rw [u3.array] at hC0
      cases hC0
      rw [u4.get σ hσ, hold]
  refine ⟨h1, mid, u1, midSpec, fun h2 hch => ?_⟩
  -- operator
  obtain ⟨o2, o3, o4, o5, o6a⟩ := hch
  obtain ⟨C', o6, o7, o8⟩ := o6a C u3.array
  have acc2 : ∀ x k, h2.acc x k = h1.acc x k := by intro x k; rw [acc_def, o2, ← acc_def]
  have i2 : h2.LinkInv := u2.congr' o2 o3
  have hCn' : C'.ndim = A.ndim + B.ndim - 2 := by rw [← hCn]; unfold Nd.ndim; rw [o8]
  have fullmid : h2.Full mid C' := by
    refine ⟨by rw [isLeaf, (o4 mid).1]; exact u3.leaf, o6, o7, by rw [o8]; exact u3.pos, ?_⟩
    intro k
    rw [acc2, u3.acc k]
    unfold Nd.ndim; rw [o8]
  have hmidacc : ∀ k x, h2.acc mid k = some x → ∃ p, Lh[k]? = some p ∧ h.acc p.1 p.2 = some x := by
    intro k x e
    have hk := (fullmid.acc k).1 (by rw [e]; simp)
    have hk' : k < Lh.length := by rw [q5]; omega
    refine ⟨Lh[k], List.getElem?_eq_getElem hk', ?_⟩
    rw [← u5 k _ (List.getElem?_eq_getElem hk'), ← acc2]; exact e
  have hnone : ∀ x ∈ [self, fin], ∀ k, h2.acc x k = none := by
    intro x hx k
    rw [acc2]
    refine u7 x hx ?_ k
    simp only [List.mem_cons, List.not_mem_nil, or_false] at hx
    rcases hx with rfl | rfl <;> assumption
  have e2n : C'.ndim = A.ndim + B.ndim - 2 := hCn'
  have hB0 : 0 < B.ndim := by omega
  have hA2 := us_A2 (m := B.ndim) hin hB0
  have hA1 := us_A1 (i := i) hjn
  have lenA2 : (axes2Of (A.ndim + B.ndim - 2) (List.range' i (B.ndim - 1))).length = A.ndim - 1 := by
    have e : A.ndim + B.ndim - 2 = A.ndim + (B.ndim - 1) - 1 := by omega
    rw [e, axes2_range' hin]; simp; omega
  -- split
  obtain ⟨h3, r, c, B', A', d, φ, ψ, s1, s2, s3, s4, s5, s6, s7, s8, s9, s10, s11, s12, s13, s14, s15, s16,
    s17, s18, s19, -, s21, -, s23⟩ := split_full
      (axis := .many ((List.range (B.ndim - 1)).map fun k => i + k)) (indice := some (j, i))
      (root := some fin) (child := some self) (nrm := nr) (axes1 := List.range' i (B.ndim - 1))
      (axes2 := axes2Of C'.ndim (List.range' i (B.ndim - 1))) (i1 := j) (i2 := i) hsv i2 fullmid
      (by
        intro k l e
        obtain ⟨p, -, hp⟩ := hmidacc k _ e
        exact hacc_lt _ _ _ hp)
      (by rw [(o4 mid).2.2.1]; exact u9)
      (by rw [(o4 mid).2.1, m2]; exact hsn)
      (by simp only [axes1Of]; rw [usAxes, insertionSort_range']) rfl rfl
      List.pairwise_lt_range'
      (by intro x hx; have := List.mem_range'_1.1 hx; omega)
      (by simp; omega) (by rw [hCn', lenA2]; omega)
      (by intro x hx; cases hx; exact ⟨by rw [o3]; omega, .inr (hnone fin (by simp))⟩)
      (by intro x hx; cases hx; exact ⟨by rw [o3]; omega, .inr (hnone self (by simp))⟩)
      (by intro x hx hx'; cases hx; cases hx'; exact hst rfl)
      (by
        intro x hx; cases hx
        rw [isLeaf, (o4 fin).1, (core_eq (u8 fin hmf)).2.2.2.2.2.2]; exact hB.leaf)
      (by
        intro x hx; cases hx
        rw [isLeaf, (o4 self).1, (core_eq (u8 self hms)).2.2.2.2.2.2]; exact hA.leaf)
  obtain ⟨hr, r1, r2, r3, -⟩ := s21 fin rfl
  obtain ⟨hc, c1, c2, c3, -⟩ := s23 self rfl
  subst hr
  subst hc
  rw [hCn', hA2] at s8 s13
  rw [hA1] at s7 s12
  -- links
  have b_fin : ∀ k, h3.acc r k = h.acc r k := by
    intro k
    by_cases hkn : k < B.ndim
    · rcases Nat.lt_trichotomy k j with hk | hk | hk
      · rw [s12 k (i + k) (by
          rw [List.getElem?_map, List.getElem?_range hkn]; simp [hk]), acc2, u5 _ _ (q2 k hk)]
      · subst hk; rw [s11, hbs]
      · rw [s12 k (i + k - 1) (by
          rw [List.getElem?_map, List.getElem?_range hkn]
          simp [Nat.not_lt.2 (Nat.le_of_lt hk), Nat.ne_of_gt hk]), acc2, u5 _ _ (q3 k hk hkn)]
    · have e1 : h.acc r k = none := by
        by_contra hcon; exact hkn ((hB.acc k).1 hcon)
      rw [e1]
      by_contra hcon
      have := (s4.acc k).1 hcon
      rw [s7.ndim] at this
      simp at this; omega
  have b_self : ∀ k, h3.acc c k = h.acc c k := by
    intro k
    by_cases hkn : k < A.ndim
    · rcases Nat.lt_trichotomy k i with hk | hk | hk
      · rw [s13 k k (by
          rw [List.getElem?_map, List.getElem?_range hkn]; simp [hk]), acc2, u5 _ _ (q1 k hk)]
      · subst hk; rw [hb]; exact s2.sym _ _ _ _ s11
      · rw [s13 k (k + B.ndim - 2) (by
          rw [List.getElem?_map, List.getElem?_range hkn]
          simp [Nat.not_lt.2 (Nat.le_of_lt hk), Nat.ne_of_gt hk]), acc2, u5 _ _ (q4 k hk hkn)]
    · have e1 : h.acc c k = none := by
        by_contra hcon; exact hkn ((hA.acc k).1 hcon)
      rw [e1]
      by_contra hcon
      have := (s5.acc k).1 hcon
      rw [s8.ndim] at this
      simp at this; omega
  have b_all : ∀ x k, h3.acc x k = h.acc x k := by
    intro x k
    by_cases hxf : x = r
    · subst hxf; exact b_fin k
    by_cases hxc : x = c
    · subst hxc; exact b_self k
    by_cases hxm : x = mid
    · subst hxm
      rw [s14 hmf.symm hms.symm k, acc_def, hi.fresh x (by omega)]; rfl
    by_cases hx : ∃ l, h.acc x k = some (r, l)
    · obtain ⟨l, hl⟩ := hx
      rw [hl]
      exact s2.sym r l x k (by rw [b_fin l]; exact hi.sym _ _ _ _ hl)
    by_cases hx' : ∃ l, h.acc x k = some (c, l)
    · obtain ⟨l, hl⟩ := hx'
      rw [hl]
      exact s2.sym c l x k (by rw [b_self l]; exact hi.sym _ _ _ _ hl)
    push Not at hx hx'
    have e1 : h2.acc x k = h.acc x k := by
      rw [acc2]
      exact u6 x k hxc hxf hxm fun l => ⟨hx' l, hx l⟩
    rw [← e1]
    refine s15 x k hxm hxf hxc fun l => ?_
    rw [e1]; exact hacc_lt x k l
  -- dimensions
  have hCd : ∀ k p, Lh[k]? = some p → C'.shape.getD k 1 = h.hdim p := by
    intro k p hp
    obtain ⟨hk, rfl⟩ := List.getElem?_eq_some_iff.1 hp
    rw [o8, u4.shape, List.getD_eq_getElem _ _ (by simpa using hk), List.getElem_map]
  have hdimA3 : ∀ k, h3.hdim (c, k) = if k = i then d else h.hdim (c, k) := by
    intro k
    rw [s5.hdim_eq, s8.shape, List.map_map]
    by_cases hkn : k < A.ndim
    · rw [List.getD_eq_getElem _ _ (by simpa using hkn)]
      simp only [List.getElem_map, List.getElem_range, Function.comp]
      rcases Nat.lt_trichotomy k i with hk | hk | hk
      · rw [if_pos hk, if_neg (by omega)]; exact hCd k _ (q1 k hk)
      · rw [if_neg (by omega), if_pos hk, if_pos hk]; rfl
      · rw [if_neg (by omega), if_neg (by omega), if_neg (by omega)]; exact hCd _ _ (q4 k hk hkn)
    · rw [List.getD_eq_default _ _ (by simpa using hkn), if_neg (by omega), hA.hdim_eq,
        List.getD_eq_default _ _ (by unfold Nd.ndim at hkn; omega)]
  have hdimB3 : ∀ k, h3.hdim (r, k) = if k = j then d else h.hdim (r, k) := by
    intro k
    rw [s4.hdim_eq, s7.shape, List.map_map]
    by_cases hkn : k < B.ndim
    · rw [List.getD_eq_getElem _ _ (by simpa using hkn)]
      simp only [List.getElem_map, List.getElem_range, Function.comp]
      rcases Nat.lt_trichotomy k j with hk | hk | hk
      · rw [if_pos hk, if_neg (by omega)]; exact hCd _ _ (q2 k hk)
      · rw [if_neg (by omega), if_pos hk, if_pos hk]; rfl
      · rw [if_neg (by omega), if_neg (by omega), if_neg (by omega)]; exact hCd _ _ (q3 k hk hkn)
    · rw [List.getD_eq_default _ _ (by simpa using hkn), if_neg (by omega), hB.hdim_eq,
        List.getD_eq_default _ _ (by unfold Nd.ndim at hkn; omega)]
  have hexact : SvdExact csvd → ∀ σ : Assign, (∀ p ∈ Lh, σ p < h.hdim p) →
      h3.pairSum (c, i, r, j) σ = C'.get (Lh.map σ) := by
    intro hex σ hσL
    have hA'n : A'.ndim = A.ndim := by rw [s8.ndim]; simp
    have hB'n : B'.ndim = B.ndim := by rw [s7.ndim]; simp
    let f : Option ℕ → ℕ := fun o => match o with
      | none => 0
      | some k => σ (Lh.getD k (0, 0))
    have hfL : ∀ k p, Lh[k]? = some p → f (some k) = σ p := by
      intro k p hp
      simp only [f]
      rw [List.getD_eq_getElem?_getD, hp]; rfl
    have hf : ∀ k < C'.ndim, f (some k) < C'.shape.getD k 1 := by
      intro k hk
      have hk' : k < Lh.length := by rw [q5]; omega
      rw [hfL k _ (List.getElem?_eq_getElem hk'), hCd k _ (List.getElem?_eq_getElem hk')]
      exact hσL _ (List.getElem_mem hk')
    have h9 := s9 hex f hf
    have eC : (List.range C'.ndim).map (fun k => f (some k)) = Lh.map σ := by
      refine List.ext_getElem (by simp [q5, hCn']) fun k h1 h2 => ?_
      simp only [List.length_map] at h2
      simp only [List.getElem_map, List.getElem_range]
      exact hfL k _ (List.getElem?_eq_getElem h2)
    rw [eC] at h9
    have eB : ∀ z, z < d → B'.get ((List.range B.ndim).map fun k => if k = j then z else σ (r, k)) =
        φ (Nd.upd f none z) := by
      intro z hz
      rw [← s7.get (Nd.upd f none z) (by
        intro o ho
        obtain ⟨k, hk, rfl⟩ := List.mem_map.1 ho
        have hk' := List.mem_range.1 hk
        rcases Nat.lt_trichotomy k j with hkj | hkj | hkj
        · rw [if_pos hkj]
          simp only [Nd.upd, dimO]; exact hf _ (by omega)
        · rw [if_neg (by omega), if_pos hkj]; simpa [dimO] using hz
        · rw [if_neg (by omega), if_neg (by omega)]
          simp only [Nd.upd, dimO]; exact hf _ (by omega))]
      rw [List.map_map]
      congr 1
      refine List.map_congr_left fun k hk => ?_
      have hk' := List.mem_range.1 hk
      simp only [Function.comp]
      rcases Nat.lt_trichotomy k j with hkj | hkj | hkj
      · rw [if_neg (by omega), if_pos hkj]
        simp only [Nd.upd]; exact (hfL _ _ (q2 k hkj)).symm
      · rw [if_pos hkj, if_neg (by omega), if_pos hkj]; simp
      · rw [if_neg (by omega), if_neg (by omega), if_neg (by omega)]
        simp only [Nd.upd]; exact (hfL _ _ (q3 k hkj hk')).symm
    have eA : ∀ z, z < d → A'.get ((List.range A.ndim).map fun k => if k = i then z else σ (c, k)) =
        ψ (Nd.upd f none z) := by
      intro z hz
      rw [← s8.get (Nd.upd f none z) (by
        intro o ho
        obtain ⟨k, hk, rfl⟩ := List.mem_map.1 ho
        have hk' := List.mem_range.1 hk
        rcases Nat.lt_trichotomy k i with hkj | hkj | hkj
        · rw [if_pos hkj]
          simp only [Nd.upd, dimO]; exact hf _ (by omega)
        · rw [if_neg (by omega), if_pos hkj]; simpa [dimO] using hz
        · rw [if_neg (by omega), if_neg (by omega)]
          simp only [Nd.upd, dimO]; exact hf _ (by omega))]
      rw [List.map_map]
      congr 1
      refine List.map_congr_left fun k hk => ?_
      have hk' := List.mem_range.1 hk
      simp only [Function.comp]
      rcases Nat.lt_trichotomy k i with hkj | hkj | hkj
      · rw [if_neg (by omega), if_pos hkj]
        simp only [Nd.upd]; exact (hfL _ _ (q1 k hkj)).symm
      · rw [if_pos hkj, if_neg (by omega), if_pos hkj]; simp
      · rw [if_neg (by omega), if_neg (by omega), if_neg (by omega)]
        simp only [Nd.upd]; exact (hfL _ _ (q4 k hkj hk')).symm
    unfold pairSum
    simp only [hent σ h3 A' B' s5.array s4.array hA'n hB'n]
    rw [hdimA3, if_pos rfl, ← h9]
    refine Finset.sum_congr rfl fun z hz => ?_
    rw [eA z (Finset.mem_range.1 hz), eB z (Finset.mem_range.1 hz), mul_comm]
  refine ⟨h3, by rw [hord]; exact s1, by omega, fun op o9 => ⟨s2, b_all, ?_, ?_, s18, s17, ⟨A', s5⟩, ⟨B', s4⟩, ?_, ?_, ?_,
    by omega, by omega, by rw [isLeaf, (core_eq (s16 mid hmf.symm hms.symm)).2.2.2.2.2.2, (o4 mid).1]; exact u3.leaf, ?_, ?_⟩,
    fun hex C0 hC0 σ hσ => by rw [o6] at hC0; cases hC0; exact hexact hex σ hσ⟩
  · intro x hxm
    have e1 := core_eq (u8 x hxm)
    by_cases hxf : x = r
    · subst hxf
      rw [isLeaf, r1, r2, r3, (o4 x).1, (o4 x).2.1, (o4 x).2.2.2]
      exact ⟨e1.1, e1.2.2.2.2.2.2, e1.2.2.2.2.2.1⟩
    · by_cases hxc : x = c
      · subst hxc
        rw [isLeaf, c1, c2, c3, (o4 x).1, (o4 x).2.1, (o4 x).2.2.2]
        exact ⟨e1.1, e1.2.2.2.2.2.2, e1.2.2.2.2.2.1⟩
      · have e3 := core_eq (s16 x hxf hxc)
        rw [isLeaf, e3.1, e3.2.2.2.2.2.2, e3.2.2.2.2.2.1, (o4 x).1, (o4 x).2.1, (o4 x).2.2.2]
        exact ⟨e1.1, e1.2.2.2.2.2.2, e1.2.2.2.2.2.1⟩
  · intro x hxc hxf hxm
    have e3 := core_eq (s16 x hxf hxc)
    have e1 := core_eq (u8 x hxm)
    refine ⟨by rw [e3.2.1, (o4 x).2.2.1, e1.2.1], ?_⟩
    exact e3.2.2.1.trans ((o5 x hxm).trans e1.2.2.1)
  · intro k hk; rw [hdimA3, if_neg hk]
  · intro k hk; rw [hdimB3, if_neg hk]
  · rw [hdimA3, hdimB3]; simp
  · -- exactness
    intro hex hop σ hσ1 hσ2
    have hCC : C' = C := by
      have := o9 hop
      rw [this, u3.array] at o6
      exact (Option.some.inj o6).symm
    have hσL : ∀ p ∈ Lh, σ p < h.hdim p := by
      rintro ⟨x, k⟩ hp
      rw [hLh, mem_uniteLabels hin hjn] at hp
      rcases hp with ⟨rfl, y1, y2⟩ | ⟨rfl, y1, y2⟩
      · exact hσ1 k y2 ((hA.acc k).2 y1)
      · exact hσ2 k y2 ((hB.acc k).2 y1)
    rw [hexact hex σ hσL, hCC, u4.get σ hσL, hold]
  · -- canonical
    intro _ hiso
    have hkn : i < A'.ndim := by rw [s8.ndim]; simpa using hin
    refine ⟨A', s5.array, hkn, ?_⟩
    have hdi : A'.shape.getD i 1 = d := by
      rw [← s5.hdim_eq, hdimA3, if_pos rfl]
    have hsh : A'.shape.eraseIdx i = (axes2Of C'.ndim (List.range' i (B.ndim - 1))).map
        fun k => C'.shape.getD k 1 := by
      have e1 : A'.shape = (pyInsert ((axes2Of C'.ndim (List.range' i (B.ndim - 1))).map some) i none).map
          (dimO d fun k => C'.shape.getD k 1) := by rw [hCn', hA2]; exact s8.shape
      rw [e1, pyInsert_eq_insertIdx _ _ _ (by simp [hCn', lenA2]; omega), Nd.map_insertIdx,
        List.eraseIdx_insertIdx_self, List.map_map]
      rfl
    rw [hdi, hsh]
    intro z w hz hw
    exact s10 hiso z w hz hw

/-- `unite_split` across a bond between two tensors with all axes linked. -/
theorem uniteSplit_full {csvd : Svd R} (hsv : SvdShape csvd) {op : Option (Operator R)}
    (ho : GoodOp op) {h : Heap R} {self i fin j : ℕ} {A B : Nd R} (hi : h.LinkInv)
    (hA : h.Full self A) (hB : h.Full fin B) (hb : h.acc self i = some (fin, j)) (hst : self ≠ fin)
    (ls : ∀ k l, h.acc self k ≠ some (self, l)) (lt : ∀ k l, h.acc fin k ≠ some (fin, l))
    (l1 : ∀ k l, h.acc self k = some (fin, l) → k = i) (hax : (h.node self).axis = none ∨ (h.node fin).axis = none)
    (hd : h.hdim (self, i) = h.hdim (fin, j)) {n1 n2 : List Char}
    (hn1 : (h.node self).name = some n1) (hp1 : '+' ∉ n1) (hn2 : (h.node fin).name = some n2)
    (hp2 : '+' ∉ n2) (nrm : Option Bool) :
    ∃ h' mid, h.uniteSplitCore csvd self i op nrm = .ok (h', self, mid, fin) ∧
      MoveSpec csvd op h h' self i fin j mid := by
  obtain ⟨h1, mid, e1, m, hu⟩ := uniteSplit_steps hsv hi hA hB hb hst ls lt l1 hax hd hn1 hp1 hn2 hp2
    (nrm.getD ((h.node self).normalized && (h.node fin).normalized))
  obtain ⟨M, hM, -⟩ := m.fullMid
  obtain ⟨h2, o1, o2, o3⟩ := applyOp_good ho m.axis hM.array hM.wf
  obtain ⟨h3, u1, -, u2, -⟩ := hu h2 o2
  refine ⟨h3, mid, ?_, u2 op o3⟩
  unfold uniteSplitCore
  have hb' : Dict.get? (h.access self) i = some (fin, j) := hb
  simp only [Dict.get!, hb', ok_bind]
  rw [e1]
  simp only [ok_bind]
  rw [o1]
  simp only [ok_bind]
  rw [u1]
  rfl

end Heap
