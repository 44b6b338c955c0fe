import Verif.Lemmas.Moves2

/-!
`unite` after `split`.
-/

open scoped BigOperators
open Py

namespace Heap

variable {R : Type} [CommRing R]

/-- Position `k` of a list of axes with the bond inserted at `i`. -/
theorem getElem?_pyInsert {l : List ℕ} {i : ℕ} (hi : i ≤ l.length) (k : ℕ) :
    (pyInsert (l.map some) i none)[k]? =
      if k < i then (l.map some)[k]? else if k = i then some none else (l.map some)[k - 1]? := by
  rw [pyInsert_eq_insertIdx _ _ _ (by simpa using hi), List.getElem?_insertIdx]
  by_cases h1 : k < i
  · simp [h1]
  · by_cases h2 : k = i
    · subst h2; simp [hi]
    · simp [h1, h2]

/-- The axes of the united tensor, as axes of the tensor that was split. -/
def backAxes (a b : List ℕ) (i : ℕ) : List ℕ := a.take i ++ b ++ a.drop i

theorem uniteLabels_back {a b : List ℕ} {s t i j : ℕ} (hst : s ≠ t) (hi : i ≤ a.length) (hj : j ≤ b.length) :
    (uniteLabels s i (a.length + 1) t j (b.length + 1)).map (fun p : ℕ × ℕ =>
      ((if p.1 = s then pyInsert (a.map some) i none else pyInsert (b.map some) j none)[p.2]?).getD none) =
      (backAxes a b i).map some := by
  obtain ⟨q1, q2, q3, q4, q5⟩ := getElem?_uniteLabels (s := s) (i := i) (n := a.length + 1) (t := t) (j := j)
    (m := b.length + 1) (by omega) (by omega)
  have hlen : (backAxes a b i).length = a.length + b.length := by unfold backAxes; simp; omega
  refine List.ext_getElem? fun k => ?_
  simp only [List.getElem?_map]
  unfold backAxes
  by_cases h1 : k < i
  · rw [q1 k h1, List.append_assoc, List.getElem?_append_left (by simp; omega)]
    simp only [Option.map_some, if_true]
    rw [getElem?_pyInsert hi, if_pos h1, List.getElem?_take_of_lt h1, List.getElem?_map,
      List.getElem?_eq_getElem (show k < a.length by omega)]
    rfl
  · by_cases h2 : k < i + b.length
    · rw [List.getElem?_append_left (by simp; omega), List.getElem?_append_right (by simp; omega)]
      have el : (a.take i).length = i := by simp; omega
      rw [el]
      have hlt : k - i < b.length := by omega
      by_cases h3 : k - i < j
      · have e : k = i + (k - i) := by omega
        rw [e, q2 (k - i) h3]
        simp only [Option.map_some, if_neg hst.symm]
        rw [getElem?_pyInsert hj, if_pos h3, List.getElem?_map]
        have : i + (k - i) - i = k - i := by omega
        rw [this, List.getElem?_eq_getElem hlt]
        rfl
      · have e : k = i + (k - i + 1) - 1 := by omega
        have h4 := q3 (k - i + 1) (by omega) (by omega)
        rw [← e] at h4
        rw [h4]
        simp only [Option.map_some, if_neg hst.symm]
        rw [getElem?_pyInsert hj, if_neg (by omega), if_neg (by omega), List.getElem?_map]
        have : k - i + 1 - 1 = k - i := by omega
        rw [this, List.getElem?_eq_getElem hlt]
        rfl
    · by_cases h3 : k < a.length + b.length
      · rw [List.getElem?_append_right (by simp; omega), List.getElem?_drop]
        have e : k = (k - b.length + 1) + (b.length + 1) - 2 := by omega
        have h4 := q4 (k - b.length + 1) (by omega) (by omega)
        rw [← e] at h4
        rw [h4]
        simp only [Option.map_some, if_true]
        rw [getElem?_pyInsert hi, if_neg (by omega), if_neg (by omega), List.getElem?_map]
        have e1 : k - b.length + 1 - 1 = k - b.length := by omega
        have e2 : i + (k - (a.take i ++ b).length) = k - b.length := by simp; omega
        rw [e1, e2, List.getElem?_eq_getElem (show k - b.length < a.length by omega)]
        rfl
      · rw [List.getElem?_eq_none (by rw [q5]; omega), List.getElem?_eq_none (by simp; omega)]
        rfl

/-- Uniting two tensors whose axes are labelled by the axes of another one, with `none` the bond. -/
theorem reunite {h : Heap R} {s t i j d : ℕ} {S T : Nd R} {a b : List ℕ} {D : ℕ → ℕ}
    {φ ψ : (Option ℕ → ℕ) → R} {root : Option ℕ} {nrm : Bool} {nm : Option (List Char)}
    (hi : h.LinkInv) (hS : h.Full s S) (hT : h.Full t T) (ia : i ≤ a.length) (jb : j ≤ b.length)
    (labS : S.Lab (pyInsert (a.map some) i none) (dimO d D) φ)
    (labT : T.Lab (pyInsert (b.map some) j none) (dimO d D) ψ)
    (hb : h.acc s i = some (t, j)) (hst : s ≠ t) (ls : ∀ k l, h.acc s k ≠ some (s, l))
    (lt : ∀ k l, h.acc t k ≠ some (t, l)) (l1 : ∀ k l, h.acc s k = some (t, l) → k = i)
    (hax : (h.node s).axis = none ∨ (h.node t).axis = none)
    (hn : uniteName (h.node s).name (h.node t).name = .ok nm) (hr : h.Usable [s, t] root)
    (hrl : ∀ x, root = some x → h.isLeaf x = false) :
    ∃ h' r C, h.unite s i root nrm = .ok (h', r) ∧ h'.LinkInv ∧ h'.Full r C ∧
      C.Lab (backAxes a b i) D (fun f => ∑ z ∈ Finset.range d,
        φ (Nd.upd (fun o => (o.map f).getD 0) none z) * ψ (Nd.upd (fun o => (o.map f).getD 0) none z)) ∧
      (∀ n k, (backAxes a b i)[n]? = some k →
        (∃ m, (pyInsert (a.map some) i none)[m]? = some (some k) ∧ h'.acc r n = h.acc s m) ∨
        ∃ m, (pyInsert (b.map some) j none)[m]? = some (some k) ∧ h'.acc r n = h.acc t m) ∧
      (∀ x k, x ≠ s → x ≠ t → x ≠ r →
        (∀ l, h.acc x k ≠ some (s, l) ∧ h.acc x k ≠ some (t, l)) → h'.acc x k = h.acc x k) ∧
      (∀ x ∈ [s, t], x ≠ r → ∀ k, h'.acc x k = none) ∧
      (∀ c, c ≠ r → (h'.node c).core = (h.node c).core) ∧ (h'.node r).axis = none ∧
      (root = none → r = h.next) ∧ (∀ x, root = some x → r = x) := by
  have nS : S.ndim = a.length + 1 := by rw [labS.ndim, length_pyInsert (by simpa using ia), List.length_map]
  have nT : T.ndim = b.length + 1 := by rw [labT.ndim, length_pyInsert (by simpa using jb), List.length_map]
  set Ls := pyInsert (a.map some) i none with hLs
  set Lt := pyInsert (b.map some) j none with hLt
  have lenS : Ls.length = a.length + 1 := by rw [← labS.ndim, nS]
  have lenT : Lt.length = b.length + 1 := by rw [← labT.ndim, nT]
  have hdS : ∀ k o, Ls[k]? = some o → h.hdim (s, k) = dimO d D o := by
    intro k o e
    obtain ⟨h1, rfl⟩ := List.getElem?_eq_some_iff.1 e
    rw [hS.hdim_eq, labS.shape, List.getD_eq_getElem _ _ (by simpa using h1), List.getElem_map]
  have hdT : ∀ k o, Lt[k]? = some o → h.hdim (t, k) = dimO d D o := by
    intro k o e
    obtain ⟨h1, rfl⟩ := List.getElem?_eq_some_iff.1 e
    rw [hT.hdim_eq, labT.shape, List.getD_eq_getElem _ _ (by simpa using h1), List.getElem_map]
  have eSi : Ls[i]? = some none := (getElem?_pyInsert_none ia).2 rfl
  have eTj : Lt[j]? = some none := (getElem?_pyInsert_none jb).2 rfl
  obtain ⟨h', r, C, u1, u2, u3, u4, u5, u6, u7, u8, u9, u10, u11⟩ := unite_full (nrm := nrm) hi hS hT hb hst ls lt l1
    hax (by rw [hdS i _ eSi, hdT j _ eTj]) hn hr hrl
  rw [nS, nT] at u4 u5
  have hback := uniteLabels_back (s := s) (t := t) hst ia jb
  rw [← hLs, ← hLt] at hback
  set Lh := uniteLabels s i (a.length + 1) t j (b.length + 1) with hLh
  set g : ℕ × ℕ → Option ℕ := fun p => ((if p.1 = s then Ls else Lt)[p.2]?).getD none with hg
  have hlenB : (backAxes a b i).length = Lh.length := by
    have := congrArg List.length hback; simpa using this.symm
  have hgk : ∀ n (hn : n < Lh.length), ∃ k, (backAxes a b i)[n]? = some k ∧ g Lh[n] = some k := by
    intro n hn
    have := congrArg (fun l => l[n]?) hback
    simp only [List.getElem?_map] at this
    rw [List.getElem?_eq_getElem hn, List.getElem?_eq_getElem (by rw [hlenB]; exact hn)] at this
    simp only [Option.map_some, Option.some.injEq] at this
    exact ⟨_, List.getElem?_eq_getElem (by rw [hlenB]; exact hn), this⟩
  have hgS : ∀ k < a.length + 1, Ls[k]? = some (g (s, k)) := by
    intro k hk
    simp only [hg, if_true]
    rw [List.getElem?_eq_getElem (by rw [lenS]; exact hk)]; rfl
  have hgT : ∀ k < b.length + 1, Lt[k]? = some (g (t, k)) := by
    intro k hk
    simp only [hg, if_neg hst.symm]
    rw [List.getElem?_eq_getElem (by rw [lenT]; exact hk)]; rfl
  have hmem : ∀ p ∈ Lh, (p.1 = s ∧ p.2 < a.length + 1 ∧ p.2 ≠ i) ∨ (p.1 = t ∧ p.2 < b.length + 1 ∧ p.2 ≠ j) := by
    rintro ⟨x, k⟩ hp
    rw [hLh, mem_uniteLabels (by omega) (by omega)] at hp
    exact hp
  have hdimL : ∀ p ∈ Lh, h.hdim p = dimO d D (g p) := by
    rintro ⟨x, k⟩ hp
    rcases hmem _ hp with ⟨h1, h2, -⟩ | ⟨h1, h2, -⟩ <;> simp only at h1 h2 <;> subst h1
    · exact hdS k _ (hgS k h2)
    · exact hdT k _ (hgT k h2)
  refine ⟨h', r, C, u1, u2, u3, ⟨u4.wf, ?_, ?_⟩, ?_, u6, u7, u8, u9, fun q => (u10 q).1, fun x q => (u11 x q).1⟩
  · rw [u4.shape, List.map_congr_left hdimL]
    have := congrArg (List.map (dimO d D)) hback
    rw [List.map_map, List.map_map] at this
    exact this
  · intro f hf
    set σ : ℕ × ℕ → ℕ := fun p => ((g p).map f).getD 0 with hσ
    have e1 : (backAxes a b i).map f = Lh.map σ := by
      have := congrArg (List.map fun o : Option ℕ => (o.map f).getD 0) hback
      rw [List.map_map, List.map_map] at this
      exact this.symm
    have hfL : ∀ p ∈ Lh, σ p < h.hdim p := by
      intro p hp
      rw [hdimL p hp]
      obtain ⟨n, hn, rfl⟩ := List.getElem_of_mem hp
      obtain ⟨k, k1, k2⟩ := hgk n hn
      simp only [hσ, k2]
      exact hf k (List.mem_of_getElem? k1)
    have hin : ∀ k ∈ a ++ b, f k < D k := by
      intro k hk
      refine hf k ?_
      unfold backAxes
      rw [← List.take_append_drop i a] at hk
      simp only [List.mem_append] at hk ⊢
      tauto
    rw [e1, u4.get σ hfL, hdS i _ eSi]
    refine Finset.sum_congr rfl fun z hz => ?_
    have hz := Finset.mem_range.1 hz
    set F : Option ℕ → ℕ := Nd.upd (fun o => (o.map f).getD 0) none z with hF
    have hFn : F none = z := by simp [hF, Nd.upd]
    have hFs : ∀ k, F (some k) = f k := by intro k; simp [hF, Nd.upd]
    have hLsm : ∀ o ∈ Ls, F o < dimO d D o := by
      intro o ho
      cases o with
      | none => rw [hFn]; exact hz
      | some k => rw [hFs]; exact hin k (List.mem_append_left _ ((mem_pyInsert ia).1 ho))
    have hLtm : ∀ o ∈ Lt, F o < dimO d D o := by
      intro o ho
      cases o with
      | none => rw [hFn]; exact hz
      | some k => rw [hFs]; exact hin k (List.mem_append_right _ ((mem_pyInsert jb).1 ho))
    rw [← labS.get F hLsm, ← labT.get F hLtm]
    congr 1
    · congr 1
      refine List.ext_getElem (by simp [nS, lenS]) fun k k1 k2 => ?_
      simp only [List.getElem_map, List.getElem_range]
      have hk : k < a.length + 1 := by simpa [lenS] using k2
      have hgk := hgS k hk
      rw [List.getElem?_eq_getElem (by rw [lenS]; exact hk)] at hgk
      have hgk : Ls[k]'(by rw [lenS]; exact hk) = g (s, k) := by simpa using hgk
      rw [hgk]
      by_cases hki : k = i
      · subst hki
        have : g (s, k) = none := by
          have := hgS k hk; rw [eSi] at this; simpa using this.symm
        rw [this, hFn]; simp [Nd.upd]
      · have hne : g (s, k) ≠ none := by
          intro q
          have := hgS k hk; rw [q] at this
          exact hki ((getElem?_pyInsert_none ia).1 this)
        obtain ⟨m, hm⟩ := Option.ne_none_iff_exists'.1 hne
        rw [hm, hFs]
        simp [Nd.upd, hki, hσ, hm]
    · congr 1
      refine List.ext_getElem (by simp [nT, lenT]) fun k k1 k2 => ?_
      simp only [List.getElem_map, List.getElem_range]
      have hk : k < b.length + 1 := by simpa [lenT] using k2
      have hgk := hgT k hk
      rw [List.getElem?_eq_getElem (by rw [lenT]; exact hk)] at hgk
      have hgk : Lt[k]'(by rw [lenT]; exact hk) = g (t, k) := by simpa using hgk
      rw [hgk]
      by_cases hki : k = j
      · subst hki
        have : g (t, k) = none := by
          have := hgT k hk; rw [eTj] at this; simpa using this.symm
        rw [this, hFn]; simp [Nd.upd]
      · have hne : g (t, k) ≠ none := by
          intro q
          have := hgT k hk; rw [q] at this
          exact hki ((getElem?_pyInsert_none jb).1 this)
        obtain ⟨m, hm⟩ := Option.ne_none_iff_exists'.1 hne
        rw [hm, hFs]
        simp [Nd.upd, hki, hσ, hm]
  · intro n k hnk
    have hn : n < Lh.length := by
      rw [← hlenB]; exact (List.getElem?_eq_some_iff.1 hnk).1
    obtain ⟨k', k1, k2⟩ := hgk n hn
    rw [hnk] at k1; cases k1
    have hacc := u5 n _ (List.getElem?_eq_getElem hn)
    rcases hmem _ (List.getElem_mem hn) with ⟨h1, h2, -⟩ | ⟨h1, h2, -⟩
    · refine .inl ⟨Lh[n].2, ?_, by rw [hacc, h1]⟩
      rw [hgS _ h2, ← h1]; exact congrArg some k2
    · refine .inr ⟨Lh[n].2, ?_, by rw [hacc, h1]⟩
      rw [hgT _ h2, ← h1]; exact congrArg some k2

end Heap
