import Verif.Lemmas.Mctdh2

/-!
`_sp_op`: the array before the projection is the mean field.
-/

open Py
open scoped BigOperators

namespace Mctdh

variable {R : Type} [CommRing R] [StarRing R]

omit [StarRing R] in
theorem opAt_none {term : Term R} {k : ℕ} (h : term.lookup k = none) : opAt term k = delta := by unfold opAt; rw [h]

omit [StarRing R] in
theorem opAt_some {term : Term R} {k : ℕ} {m : Nd R} (h : term.lookup k = some m) (a b : ℕ) : opAt term k a b = m.get [a, b] := by
  unfold opAt; rw [h]

omit [StarRing R] in
theorem lookup_filter_ne (term : Term R) (i k : ℕ) (h : k ≠ i) : (term.filter fun p => p.1 ≠ i).lookup k = term.lookup k := by
  induction term with
  | nil => rfl
  | cons p term ih =>
    by_cases hp : p.1 = i
    · rw [List.filter_cons_of_neg (by simpa using hp), ih]
      obtain ⟨p1, p2⟩ := p
      rw [List.lookup_cons, beq_false_of_ne (by rintro rfl; exact h hp)]
    · rw [List.filter_cons_of_pos (by simpa using hp)]
      obtain ⟨p1, p2⟩ := p
      rw [List.lookup_cons, List.lookup_cons, ih]

omit [StarRing R] in
theorem lookup_filter_self (term : Term R) (i : ℕ) : (term.filter fun p => p.1 ≠ i).lookup i = none := by
  rw [List.lookup_eq_none_iff]
  intro q hq
  have := (List.mem_filter.1 hq).2
  exact bne_iff_ne.2 (Ne.symm (by simpa using this))

omit [StarRing R] in
theorem foldlM_skip (term : Term R) (i : ℕ) : ∀ t : Nd R,
    term.foldlM (fun t p => if p.1 ≠ i then Dvr.partialTransform p.1 t p.2 else pure t) t =
      coeffOp t (term.filter fun p => p.1 ≠ i) := by
  induction term with
  | nil => intro t; rfl
  | cons p term ih =>
    intro t
    rw [List.foldlM_cons]
    by_cases hp : p.1 = i
    · rw [List.filter_cons_of_neg (by simpa using hp), if_neg (by simpa using hp), pure_bind, ih]
    · rw [List.filter_cons_of_pos (by simpa using hp), if_pos hp]
      unfold coeffOp
      rw [List.foldlM_cons]
      congr 1
      funext t'
      exact ih t'

omit [StarRing R] in
/-- The transformed array, for the coefficient tensor `a`, single-particle functions `c` and operator `h` of coordinate `i`, and the projected
operators `mods` of the other coordinates. -/
theorem transformed (a c h : Nd R) (mods : Term R) {i n m : ℕ} (ha : a.Wf) (hpos : ∀ d ∈ a.shape, 0 < d) (hi : i < a.ndim)
    (hc : c.shape = [n, m]) (hn : 0 < n) (hm : a.shape.getD i 1 = m) (hh : h.shape = [n, n])
    (hmods : ∀ p ∈ mods, p.1 < a.ndim ∧ (p.1 ≠ i → p.2.shape = [a.shape.getD p.1 0, a.shape.getD p.1 0])) (hnd : (mods.map Prod.fst).Nodup)
    (htc : Dvr.TailConst i a.shape) (ht : ∀ p ∈ mods, p.1 ≠ i → Dvr.TailConst p.1 (a.shape.set i n)) :
    ∃ t0 t1 t2, Dvr.partialTransform i a c = .ok t0 ∧ Dvr.partialTransform i t0 h = .ok t1 ∧
      mods.foldlM (fun t p => if p.1 ≠ i then Dvr.partialTransform p.1 t p.2 else pure t) t1 = .ok t2 ∧ t2.Wf ∧
      t2.shape = a.shape.set i n ∧ ∀ x, Valid (a.shape.set i n) x → t2.get x = sumIdx a.shape fun l =>
        prodF a.shape.length (fun k p q => if k = i then ∑ y ∈ Finset.range n, h.get [p, y] * c.get [y, q] else
          opAt mods k p q) x l * a.get l := by
  have hm0 : a.shape.getD i 0 = m := by
    rw [← hm, List.getD_eq_getElem _ _ hi, List.getD_eq_getElem _ _ hi]
  have dc0 : c.dim 0 = n := by unfold Nd.dim; rw [hc]; rfl
  have dc1 : c.dim 1 = m := by unfold Nd.dim; rw [hc]; rfl
  have dh0 : h.dim 0 = n := by unfold Nd.dim; rw [hh]; rfl
  have dh1 : h.dim 1 = n := by unfold Nd.dim; rw [hh]; rfl
  obtain ⟨t0, p0, a0⟩ := Dvr.C38_transform_partial i a c hi hpos (by rw [hc, hm]) htc
  have s0 : t0.shape = a.shape.set i n := by rw [a0.shape, dc0]
  have htc' : Dvr.TailConst i (a.shape.set i n) := by
    unfold Dvr.TailConst
    rw [List.drop_set_of_lt (by omega)]
    exact htc
  have hpos' : ∀ d ∈ a.shape.set i n, 0 < d := by
    intro d hd
    rcases List.mem_or_eq_of_mem_set hd with hd | rfl
    · exact hpos d hd
    · exact hn
  have hi' : i < (a.shape.set i n).length := by simpa using hi
  have hg' : (a.shape.set i n).getD i 1 = n := by
    rw [List.getD_eq_getElem _ _ hi', List.getElem_set_self]
  obtain ⟨t1, p1, a1⟩ := Dvr.C38_transform_partial i t0 h (by unfold Nd.ndim; rw [s0]; exact hi') (by rw [s0]; exact hpos')
    (by rw [hh, s0, hg']) (by rw [s0]; exact htc')
  have s1 : t1.shape = a.shape.set i n := by
    rw [a1.shape, dh0, s0, List.set_set]
  obtain ⟨t2, p2, w2, s2, g2⟩ := coeffOp_spec (mods.filter fun p => p.1 ≠ i) t1 a1.wf (by rw [s1]; exact hpos')
    (fun p hp => by
      obtain ⟨h1, h2⟩ := List.mem_filter.1 hp
      rw [s1]
      exact ht p h1 (by simpa using h2))
    (fun p hp => by
      obtain ⟨h1, h2⟩ := List.mem_filter.1 hp
      have h2 : p.1 ≠ i := by simpa using h2
      obtain ⟨h3, h4⟩ := hmods p h1
      unfold Nd.ndim
      rw [s1]
      refine ⟨by simpa using h3, ?_⟩
      rw [h4 h2, List.getD_eq_getElem _ _ h3, List.getD_eq_getElem _ _ (by simpa using h3), List.getElem_set_ne (Ne.symm h2)])
  refine ⟨t0, t1, t2, p0, p1, by rw [foldlM_skip, p2], w2, s2.trans s1, fun x hx => ?_⟩
  rw [g2 x (s1 ▸ hx), actTerm_eq t1.shape _ ?_ ((List.filter_sublist.map Prod.fst).nodup hnd) x (s1 ▸ hx)]
  · have g1 : ∀ y, Valid (a.shape.set i n) y → t1.get y = sumIdx a.shape fun l =>
        prodF a.shape.length (fun k p q => if k = i then ∑ y ∈ Finset.range n, h.get [p, y] * c.get [y, q] else delta p q) y l * a.get l := by
      intro y hy
      rw [a1.get y (s1 ▸ hy), dh1]
      have e0 : ∀ k ∈ Finset.range n, t0.get (y.set i k) = sumIdx a.shape fun l =>
          prodF a.shape.length (fun j => if j = i then fun p q => c.get [p, q] else delta) (y.set i k) l * a.get l := by
        intro k hk
        have hv : Valid (a.shape.set i n) (y.set i k) := by
          have hl : (y.set i k).length = (a.shape.set i n).length := by
            rw [List.length_set]; exact hy.length_eq
          unfold Valid at hy ⊢
          rw [List.forall₂_iff_get] at hy ⊢
          refine ⟨hl, fun q h1 h2 => ?_⟩
          simp only [List.get_eq_getElem]
          by_cases hq : q = i
          · subst hq
            rw [List.getElem_set_self, List.getElem_set_self]
            exact Finset.mem_range.1 hk
          · rw [List.getElem_set_ne (Ne.symm hq)]
            exact hy.2 q (by simpa using h1) h2
        rw [a0.get _ (s0 ▸ hv)]
        exact actOn_eq_set n a.shape i c hi (dc1.trans hm0.symm) (y.set i k) hv a.get
      rw [Finset.sum_congr rfl fun k hk => by rw [e0 k hk]]
      simp only [← sumIdx_mul_left]
      rw [← sumIdx_sum]
      refine sumIdx_congr fun l hl => ?_
      have hyi : i < y.length := by rw [hy.length_eq]; exact hi'
      have e1 : ∀ k, prodF a.shape.length (fun j => if j = i then fun p q => c.get [p, q] else delta) (y.set i k) l =
          c.get [k, l.getD i 0] * ∏ j ∈ (Finset.range a.shape.length).erase i, (delta (y.getD j 0) (l.getD j 0) : R) := by
        intro k
        unfold prodF
        rw [← Finset.mul_prod_erase _ _ (Finset.mem_range.2 hi)]
        congr 1
        · beta_reduce
          rw [if_pos rfl, List.getD_eq_getElem _ _ (by simpa using hyi), List.getElem_set_self]
        · refine Finset.prod_congr rfl fun j hj => ?_
          have hji := (Finset.mem_erase.1 hj).1
          beta_reduce
          rw [if_neg hji]
          congr 1
          simp only [List.getD_eq_getElem?_getD]
          rw [List.getElem?_set_ne (Ne.symm hji)]
      simp only [e1]
      unfold prodF
      rw [← Finset.mul_prod_erase _ _ (Finset.mem_range.2 hi)]
      beta_reduce
      rw [if_pos rfl, Finset.sum_mul, Finset.sum_mul]
      refine Finset.sum_congr rfl fun k _ => ?_
      rw [mul_assoc, mul_assoc, mul_assoc]
      congr 3
      refine Finset.prod_congr rfl fun j hj => ?_
      rw [if_neg (Finset.mem_erase.1 hj).1]
    rw [s1, sumIdx_congr fun y hy => by rw [g1 y hy]]
    simp only [← sumIdx_mul_left]
    rw [sumIdx_comm]
    refine sumIdx_congr fun l hl => ?_
    simp only [← mul_assoc]
    rw [sumIdx_mul_right]
    congr 1
    have hlen : (a.shape.set i n).length = a.shape.length := List.length_set
    have := prodF_comp (a.shape.set i n) (opAt (mods.filter fun p => p.1 ≠ i))
      (fun k p q => if k = i then ∑ y ∈ Finset.range n, h.get [p, y] * c.get [y, q] else delta p q) x l hx.length_eq
      (hl.length_eq.trans hlen.symm)
    rw [hlen] at this
    rw [hlen, this]
    refine prodF_congr fun k hk => ?_
    have hk' : k < (a.shape.set i n).length := by rw [hlen]; exact hk
    have hxk := hx.getD_lt hk' 0 0
    by_cases hki : k = i
    · subst hki
      rw [opAt_none (lookup_filter_self mods k)]
      simp only [if_true]
      exact sum_delta_left hxk fun z => ∑ y ∈ Finset.range n, h.get [z, y] * c.get [y, l.getD k 0]
    · simp only [hki, if_false]
      have e : opAt (mods.filter fun p => p.1 ≠ i) k = opAt mods k := by
        unfold opAt
        rw [lookup_filter_ne mods i k hki]
      rw [e]
      have hlk : l.getD k 0 < (a.shape.set i n).getD k 0 := by
        have := hl.getD_lt hk 0 0
        rw [List.getD_eq_getElem _ _ hk'] 
        rw [List.getElem_set_ne (Ne.symm hki)]
        rwa [List.getD_eq_getElem a.shape _ hk] at this
      exact sum_delta_right hlk fun z => opAt mods k (x.getD k 0) z
  · intro p hp
    obtain ⟨h1, h2⟩ := List.mem_filter.1 hp
    have h2 : p.1 ≠ i := by simpa using h2
    obtain ⟨h3, h4⟩ := hmods p h1
    rw [s1]
    refine ⟨by simpa using h3, ?_⟩
    unfold Nd.dim
    rw [h4 h2, List.getD_eq_getElem _ _ h3, List.getD_eq_getElem (a.shape.set i n) _ (by simpa using h3),
      List.getElem_set_ne (Ne.symm h2)]
    rfl

end Mctdh
