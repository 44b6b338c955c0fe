import Verif.Model.Contract
import Verif.Nd.OpsLemmas
import Verif.Py.Lemmas

open scoped BigOperators
open Py

namespace Tensor

variable {R : Type*} [CommRing R]

theorem eraseIdx_eq_take_drop {β : Type*} (l : List β) (i : ℕ) :
    l.eraseIdx i = l.take i ++ l.drop (i + 1) := List.eraseIdx_eq_take_drop_succ l i

theorem take_eraseIdx_self {β : Type*} (l : List β) (i : ℕ) (h : i < l.length) :
    (l.eraseIdx i).take i = l.take i := by
  rw [eraseIdx_eq_take_drop, List.take_append]
  simp [Nat.min_eq_left h.le]

theorem drop_eraseIdx_self {β : Type*} (l : List β) (i : ℕ) (h : i < l.length) :
    (l.eraseIdx i).drop i = l.drop (i + 1) := by
  rw [eraseIdx_eq_take_drop, List.drop_append]
  simp [Nat.min_eq_left h.le]

theorem insertIdx_append_length {β : Type*} (p r : List β) (x : β) :
    (p ++ r).insertIdx p.length x = p ++ x :: r := by
  induction p with
  | nil => simp
  | cons y ys ih => simpa using ih

theorem map_getD_range'_block (l₁ l₂ : List ℕ) (i : ℕ) (hi : i ≤ l₁.length) :
    (List.range' 0 i ++ List.range' l₁.length l₂.length ++
      List.range' i (l₁.length - i)).map (fun k => (l₁ ++ l₂).getD k 1) =
      l₁.take i ++ l₂ ++ l₁.drop i := by
  have h : ∀ (l : List ℕ) (s n : ℕ), s + n ≤ l.length →
      (List.range' s n).map (fun k => l.getD k 1) = (l.drop s).take n := by
    intro l s n hs
    refine List.ext_getElem (by simp; omega) fun k h1 h2 => ?_
    simp at h1 h2 ⊢
    rw [List.getElem?_eq_getElem (by omega)]; rfl
  simp only [List.map_append]
  rw [h _ _ _ (by simp; omega), h _ _ _ (by simp), h _ _ _ (by simp; omega)]
  congr 1
  · congr 1
    · simp [List.take_append, hi]
    · simp
  · rw [List.drop_append, List.take_append]
    simp [Nat.sub_eq_zero_of_le hi]

/-- Everything about `_partial_product` on admissible arguments. -/
theorem partialProductAux_spec (a b : Nd R) {i j : ℕ} (hi : i < a.ndim) (hj : j < b.ndim)
    (hd : a.shape.getD i 1 = b.shape.getD j 1) :
    ∃ c, partialProductAux a i b j = .ok c ∧ c.Wf ∧
      c.shape = a.shape.take i ++ b.shape.eraseIdx j ++ a.shape.drop (i + 1) ∧
      ∀ p q r, Valid (a.shape.take i) p → Valid (b.shape.eraseIdx j) q →
        Valid (a.shape.drop (i + 1)) r →
        c.get (p ++ q ++ r) = ∑ k ∈ Finset.range (a.shape.getD i 1),
          a.get (p ++ k :: r) * b.get (q.insertIdx j k) := by
  unfold Nd.ndim at hi hj
  have hl1 : (a.shape.eraseIdx i).length = a.shape.length - 1 := List.length_eraseIdx_of_lt hi
  have hl2 : (b.shape.eraseIdx j).length = b.shape.length - 1 := List.length_eraseIdx_of_lt hj
  have hnd : (a.tensordotCore i b j).ndim = (a.shape.length - 1) + (b.shape.length - 1) := by
    simp [Nd.ndim, hl1, hl2]
  have hord : Nd.moveOrder (a.tensordotCore i b j).ndim
      (List.range' (a.shape.length - 1) (b.shape.length - 1)) (List.range' i (b.shape.length - 1))
      = List.range' 0 i ++ List.range' (a.shape.length - 1) (b.shape.length - 1) ++
        List.range' i (a.shape.length - 1 - i) := by
    rw [hnd, Nd.moveOrder_block _ _ _ (by omega)]
  have hshape : ((a.tensordotCore i b j).transposeCore
      (List.range' 0 i ++ List.range' (a.shape.length - 1) (b.shape.length - 1) ++
        List.range' i (a.shape.length - 1 - i))).shape =
      a.shape.take i ++ b.shape.eraseIdx j ++ a.shape.drop (i + 1) := by
    rw [Nd.transposeCore_shape, Nd.tensordotCore_shape, ← hl1, ← hl2,
      map_getD_range'_block _ _ _ (by omega), take_eraseIdx_self _ _ hi, drop_eraseIdx_self _ _ hi]
  refine ⟨(a.tensordotCore i b j).transposeCore
      (List.range' 0 i ++ List.range' (a.shape.length - 1) (b.shape.length - 1) ++
        List.range' i (a.shape.length - 1 - i)), ?_, Nd.transposeCore_wf _ _, hshape, ?_⟩
  · unfold partialProductAux Nd.tensordot Nd.moveaxes
    simp only [hi, hj, hd, and_self, if_true, ok_bind]
    have hr : (a.tensordotCore i b j).shape.length = (a.shape.length - 1) + (b.shape.length - 1) := hnd
    rw [if_pos, if_pos]
    · rw [hord]
    · refine ⟨by simp, List.nodup_range', List.nodup_range'⟩
    · constructor
      · intro s hs; simp only [List.mem_range'_1, Nd.ndim] at hs ⊢; omega
      · intro s hs; simp only [List.mem_range'_1, Nd.ndim] at hs ⊢; omega
  · intro p q r hp hq hr
    have hpl : p.length = i := by have := hp.length_eq; simp at this; omega
    have hql : q.length = b.shape.length - 1 := by rw [hq.length_eq, hl2]
    have hrl : r.length = a.shape.length - (i + 1) := by have := hr.length_eq; simpa using this
    rw [Nd.get_transposeCore _ (by rw [hshape]; exact valid_append (valid_append hp hq) hr)]
    have := Nd.unperm_block (p₁ := p) (q := q) (p₂ := r) (a.shape.length - 1) (by omega)
    rw [hnd]
    rw [hpl, hql] at this
    rw [this]
    rw [Nd.get_tensordotCore _ _ hi _ hq]
    · refine Finset.sum_congr rfl fun k hk => ?_
      rw [← hpl, insertIdx_append_length]
    · rw [eraseIdx_eq_take_drop]; exact valid_append hp hr

/-! ### flattening -/

theorem get_flat_head (a : Nd R) {n : ℕ} {rest : List ℕ} (h : a.shape = n :: rest) (x : ℕ) {k : ℕ}
    (hk : k < rest.prod) :
    (⟨[n, rest.prod], a.data⟩ : Nd R).get [x, k] = a.get (x :: unravel rest k) := by
  simp [Nd.get, h, ravel, ravel_unravel hk]

theorem get_flat_last (a : Nd R) {n : ℕ} {rest : List ℕ} (h : a.shape = rest ++ [n]) (x : ℕ) {k : ℕ}
    (hk : k < rest.prod) :
    (⟨[rest.prod, n], a.data⟩ : Nd R).get [k, x] = a.get (unravel rest k ++ [x]) := by
  simp only [Nd.get, h]
  rw [ravel_append (by rw [length_unravel]), ravel_unravel hk]
  simp [ravel]

theorem insertIdx_length_eq {β : Type*} (l : List β) (x : β) :
    l.insertIdx l.length x = l ++ [x] := by
  have := insertIdx_append_length l [] x
  simpa using this

theorem prod_eraseIdx_mul (s : List ℕ) (i : ℕ) (hi : i < s.length) :
    s.getD i 1 * (s.eraseIdx i).prod = s.prod := by
  induction s generalizing i with
  | nil => simp at hi
  | cons d ds ih =>
    cases i with
    | zero => simp
    | succ i =>
      simp at hi
      have := ih i hi
      simp only [List.getD_cons_succ, List.eraseIdx_cons_succ, List.prod_cons]
      rw [← this]; ring

/-- `np.moveaxis(a, i, 0)` followed by `np.reshape(·, (n, -1))`. -/
theorem moveaxis_reshape_head (a : Nd R) {i : ℕ} (hi : i < a.ndim) (h0 : a.shape.getD i 1 ≠ 0) :
    ∃ c, (a.moveaxis i 0 >>= fun b => b.reshapeInfer [a.shape.getD i 1] []) = .ok c ∧
      c.Wf ∧ c.shape = [a.shape.getD i 1, (a.shape.eraseIdx i).prod] ∧
      ∀ x k, x < a.shape.getD i 1 → k < (a.shape.eraseIdx i).prod →
        c.get [x, k] = a.get ((unravel (a.shape.eraseIdx i) k).insertIdx i x) := by
  have hsh : (a.moveaxisCore i 0).shape = a.shape.getD i 1 :: a.shape.eraseIdx i := by simp
  refine ⟨⟨[a.shape.getD i 1, (a.shape.eraseIdx i).prod], (a.moveaxisCore i 0).data⟩, ?_, ?_, rfl, ?_⟩
  · unfold Nd.moveaxis
    rw [if_pos ⟨hi, by unfold Nd.ndim at *; omega⟩, ok_bind]
    unfold Nd.reshapeInfer
    simp only [List.prod_cons, List.prod_nil, Nat.mul_one, hsh, h0, false_or]
    rw [if_neg (by simp [Nat.mul_mod_right])]
    rw [Nat.mul_div_cancel_left _ (Nat.pos_of_ne_zero h0)]; rfl
  · have := Nd.moveaxisCore_wf a i 0
    unfold Nd.Wf at this ⊢
    rw [this, hsh]; simp
  · intro x k hx hk
    rw [get_flat_head _ hsh _ hk]
    have := Nd.get_moveaxisCore_insert a (s := i) (d := 0) (x := x) hi (by unfold Nd.ndim at *; omega)
      (valid_unravel hk) hx
    simpa using this

/-- `np.moveaxis(a, i, -1)` followed by `np.reshape(·, (-1, n))`. -/
theorem moveaxis_reshape_last (a : Nd R) {i : ℕ} (hi : i < a.ndim) (h0 : a.shape.getD i 1 ≠ 0) :
    ∃ c, (a.moveaxis i (a.ndim - 1) >>= fun b => b.reshapeInfer [] [a.shape.getD i 1]) = .ok c ∧
      c.Wf ∧ c.shape = [(a.shape.eraseIdx i).prod, a.shape.getD i 1] ∧
      ∀ x k, x < a.shape.getD i 1 → k < (a.shape.eraseIdx i).prod →
        c.get [k, x] = a.get ((unravel (a.shape.eraseIdx i) k).insertIdx i x) := by
  unfold Nd.ndim at hi
  have hl : a.ndim - 1 = (a.shape.eraseIdx i).length := by
    rw [List.length_eraseIdx_of_lt hi]
  have hsh : (a.moveaxisCore i (a.ndim - 1)).shape = a.shape.eraseIdx i ++ [a.shape.getD i 1] := by
    rw [Nd.moveaxisCore_shape, hl, insertIdx_length_eq]
  refine ⟨⟨[(a.shape.eraseIdx i).prod, a.shape.getD i 1], (a.moveaxisCore i (a.ndim - 1)).data⟩,
    ?_, ?_, rfl, ?_⟩
  · unfold Nd.moveaxis
    rw [if_pos ⟨hi, by unfold Nd.ndim at *; omega⟩, ok_bind]
    unfold Nd.reshapeInfer
    simp only [List.prod_cons, List.prod_nil, Nat.mul_one, Nat.one_mul, hsh, h0, false_or,
      List.prod_append]
    rw [if_neg (by simp)]
    rw [Nat.mul_div_cancel _ (Nat.pos_of_ne_zero h0)]; rfl
  · have := Nd.moveaxisCore_wf a i (a.ndim - 1)
    unfold Nd.Wf at this ⊢
    rw [this, hsh]; simp
  · intro x k hx hk
    rw [get_flat_last _ hsh _ hk]
    have := Nd.get_moveaxisCore_insert a (s := i) (d := a.ndim - 1) (x := x) hi
      (by unfold Nd.ndim at *; omega) (valid_unravel hk) hx
    rw [← this, hl, ← length_unravel (a.shape.eraseIdx i) k, insertIdx_length_eq]

theorem matmul_spec (a b : Nd R) {n l m : ℕ} (ha : a.shape = [n, l]) (hb : b.shape = [l, m]) :
    ∃ c, a.matmul b = .ok c ∧ c.Wf ∧ c.shape = [n, m] ∧
      ∀ x y, x < n → y < m → c.get [x, y] = ∑ k ∈ Finset.range l, a.get [x, k] * b.get [k, y] := by
  refine ⟨a.matmulCore b, ?_, Nd.ofFn_wf _ _, by simp [Nd.matmulCore, ha, hb], ?_⟩
  · unfold Nd.matmul; rw [if_pos (by simp [Nd.ndim, ha, hb])]
  · intro x y hx hy
    unfold Nd.matmulCore
    rw [Nd.get_ofFn _ (by simp [ha, hb, hx, hy])]
    simp [ha]

/-- Everything about `partial_trace` with two axes on admissible arguments. -/
theorem partialTrace_spec (a b : Nd R) {i j : ℕ} (hi : i < a.ndim) (hj : j < b.ndim)
    (hr : a.shape.eraseIdx i = b.shape.eraseIdx j)
    (h0 : a.shape.getD i 1 ≠ 0) (h0' : b.shape.getD j 1 ≠ 0) :
    ∃ c, partialTrace a (some i) b (some j) = .ok c ∧ c.Wf ∧
      c.shape = [a.shape.getD i 1, b.shape.getD j 1] ∧
      ∀ x y, x < a.shape.getD i 1 → y < b.shape.getD j 1 →
        c.get [x, y] = sumIdx (a.shape.eraseIdx i)
          (fun p => a.get (p.insertIdx i x) * b.get (p.insertIdx j y)) := by
  obtain ⟨a', ha1, ha2, ha3, ha4⟩ := moveaxis_reshape_head a hi h0
  obtain ⟨b', hb1, hb2, hb3, hb4⟩ := moveaxis_reshape_last b hj h0'
  rw [← hr] at hb3
  obtain ⟨c, hc1, hc2, hc3, hc4⟩ := matmul_spec a' b' ha3 hb3
  refine ⟨c, ?_, hc2, hc3, ?_⟩
  · unfold partialTrace
    simp only [hi, hj, and_self, not_true_eq_false, if_false]
    obtain ⟨a1, e1, e2⟩ := bind_eq_ok.1 ha1
    obtain ⟨b1, f1, f2⟩ := bind_eq_ok.1 hb1
    simp [e1, e2, f1, f2, hc1, -List.getD_eq_getElem?_getD]
  · intro x y hx hy
    rw [hc4 x y hx hy, sumIdx_eq_sum_range]
    refine Finset.sum_congr rfl fun k hk => ?_
    have hk' := Finset.mem_range.1 hk
    rw [ha4 x k hx hk', hb4 y k hy (by rwa [← hr]), hr]

theorem reshapeFlat (a : Nd R) : a.reshapeInfer [] [] = .ok ⟨[a.shape.prod], a.data⟩ := by
  simp [Nd.reshapeInfer, Nat.mod_one]

/-- Everything about `partial_trace` without axes (the full inner product). -/
theorem partialTrace_none_spec (a b : Nd R) (hs : a.shape = b.shape) :
    partialTrace a none b none = .ok ⟨[], [sumIdx a.shape (fun p => a.get p * b.get p)]⟩ := by
  unfold partialTrace
  simp only [reshapeFlat, ok_bind, Nd.vdot, Nd.ndim, hs, List.length_cons, List.length_nil,
    and_self, if_true, pure_eq_ok]
  congr 3
  rw [sumIdx_eq_sum_range]
  simp only [List.getD_cons_zero]
  refine Finset.sum_congr rfl fun k hk => ?_
  have hk' := Finset.mem_range.1 hk
  simp [Nd.get, ravel, hs, ravel_unravel hk']

/-- Everything about `__partial_product` on admissible arguments. NumPy cannot infer the length of an axis if the others have product 0. -/
theorem partialProductReshape_spec (a b : Nd R) {i j : ℕ} (hi : i < a.ndim) (hj : j < b.ndim)
    (hd : a.shape.getD i 1 = b.shape.getD j 1) (h0 : a.shape.prod ≠ 0) :
    ∃ c, partialProductReshape a i b j = .ok c ∧ c.Wf ∧
      c.shape = a.shape.take i ++ b.shape.eraseIdx j ++ a.shape.drop (i + 1) ∧
      ∀ p q r, Valid (a.shape.take i) p → Valid (b.shape.eraseIdx j) q →
        Valid (a.shape.drop (i + 1)) r →
        c.get (p ++ q ++ r) = ∑ k ∈ Finset.range (a.shape.getD i 1),
          a.get (p ++ k :: r) * b.get (q.insertIdx j k) := by
  have hprod := prod_eraseIdx_mul a.shape i hi
  have h1 : a.shape.getD i 1 ≠ 0 := fun h => h0 (by rw [← hprod, h, Nat.zero_mul])
  have h2 : (a.shape.eraseIdx i).prod ≠ 0 := fun h => h0 (by rw [← hprod, h, Nat.mul_zero])
  obtain ⟨a', ha1, ha2, ha3, ha4⟩ := moveaxis_reshape_last a hi h1
  obtain ⟨b', hb1, hb2, hb3, hb4⟩ := moveaxis_reshape_head b hj (hd ▸ h1)
  obtain ⟨c, hc1, hc2, hc3, hc4⟩ := matmul_spec a' b' (n := (a.shape.eraseIdx i).prod) (l := a.shape.getD i 1) ha3 (by rw [hb3, ← hd])
  set s1 := a.shape.eraseIdx i with hs1
  set s2 := b.shape.eraseIdx j with hs2
  have hil : i ≤ s1.length := by rw [hs1, List.length_eraseIdx_of_lt hi]; unfold Nd.ndim at hi; omega
  have ht : s1.take i = a.shape.take i := take_eraseIdx_self _ _ hi
  have hdr : s1.drop i = a.shape.drop (i + 1) := drop_eraseIdx_self _ _ hi
  -- the matrix as an array with the axes of `a` and one axis for those of `b`
  set d : Nd R := ⟨s1 ++ [s2.prod], c.data⟩ with hdd
  have hdw : c.reshapeInfer s1 [] = .ok d := by
    unfold Nd.reshapeInfer
    simp only [hc3, List.prod_cons, List.prod_nil, Nat.mul_one]
    rw [if_neg (by simp [h2]), Nat.mul_div_cancel_left _ (Nat.pos_of_ne_zero h2), List.append_nil]
  have hdn : d.ndim = s1.length + 1 := by simp [hdd, Nd.ndim]
  have hde : d.shape.eraseIdx s1.length = s1 := by
    rw [hdd, List.eraseIdx_append_of_length_le (Nat.le_refl _)]; simp
  have hdg : d.shape.getD s1.length 1 = s2.prod := by
    rw [hdd, List.getD_append_right _ _ _ _ (Nat.le_refl _)]; simp
  have hes : (d.moveaxisCore s1.length i).shape = a.shape.take i ++ s2.prod :: a.shape.drop (i + 1) := by
    rw [Nd.moveaxisCore_shape, hde, hdg, ← pyInsert_eq_insertIdx _ _ _ hil]
    unfold pyInsert
    rw [ht, hdr]
  refine ⟨⟨a.shape.take i ++ s2 ++ a.shape.drop (i + 1), (d.moveaxisCore s1.length i).data⟩, ?_, ?_, rfl, ?_⟩
  · unfold partialProductReshape
    obtain ⟨a1, e1, e2⟩ := bind_eq_ok.1 ha1
    obtain ⟨b1, f1, f2⟩ := bind_eq_ok.1 hb1
    rw [if_neg (by simp only [not_not]; exact ⟨hi, hj⟩)]
    simp only [pure_eq_ok, ok_bind, e1, e2, f1, f2, hc1, ← hs1, ← hs2, hdw, ht, hdr]
    unfold Nd.moveaxis
    rw [hdn, Nat.add_sub_cancel, if_pos ⟨by omega, by omega⟩, ok_bind]
    unfold Nd.reshape
    rw [if_pos (by rw [hes]; simp [List.prod_append, Nat.mul_assoc])]
  · have := Nd.moveaxisCore_wf d s1.length i
    unfold Nd.Wf at this ⊢
    rw [this, hes]; simp [List.prod_append, Nat.mul_assoc]
  · intro p q r hp hq hr
    have hpl : p.length = i := by have := hp.length_eq; unfold Nd.ndim at hi; simp at this; omega
    have hq' := ravel_lt hq
    have hv : Valid s1 (p ++ r) := by
      have := valid_append hp hr
      rw [← ht, ← hdr, List.take_append_drop] at this
      exact this
    have g1 : (⟨a.shape.take i ++ s2 ++ a.shape.drop (i + 1), (d.moveaxisCore s1.length i).data⟩ : Nd R).get (p ++ q ++ r) =
        (d.moveaxisCore s1.length i).get (p ++ ravel s2 q :: r) := by
      unfold Nd.get
      rw [hes]
      have e1 : ravel (a.shape.take i ++ s2 ++ a.shape.drop (i + 1)) (p ++ q ++ r) =
          ravel (a.shape.take i ++ s2.prod :: a.shape.drop (i + 1)) (p ++ ravel s2 q :: r) := by
        rw [List.append_assoc, List.append_assoc, ravel_append hp.length_eq, ravel_append hp.length_eq, ravel_append hq.length_eq]
        simp [ravel, List.prod_append]
      rw [e1]
    rw [g1, ← insertIdx_append_length, hpl, Nd.get_moveaxisCore_insert d (by rw [hdn]; omega) (by rw [hdn]; omega)
      (by rw [hde]; exact hv) (by rw [hdg]; exact hq'), ← hv.length_eq, insertIdx_length_eq]
    have g2 : d.get (p ++ r ++ [ravel s2 q]) = c.get [ravel s1 (p ++ r), ravel s2 q] := by
      unfold Nd.get
      rw [hdd, hc3]
      simp only
      rw [ravel_append hv.length_eq]
      simp [ravel]
    rw [g2, hc4 _ _ (ravel_lt hv) hq']
    refine Finset.sum_congr rfl fun k hk => ?_
    have hk' := Finset.mem_range.1 hk
    rw [ha4 k _ hk' (ravel_lt hv), hb4 k _ (hd ▸ hk') hq', unravel_ravel hv, unravel_ravel hq, ← hpl, insertIdx_append_length]

/-- The two implementations of the product give the same array. -/
theorem partialProductReshape_eq (a b : Nd R) {i j : ℕ} (hi : i < a.ndim) (hj : j < b.ndim)
    (hd : a.shape.getD i 1 = b.shape.getD j 1) (h0 : a.shape.prod ≠ 0) : partialProductReshape a i b j = partialProductAux a i b j := by
  obtain ⟨c, c1, c2, c3, c4⟩ := partialProductReshape_spec a b hi hj hd h0
  obtain ⟨e, e1, e2, e3, e4⟩ := partialProductAux_spec a b hi hj hd
  rw [c1, e1]
  congr 1
  refine Nd.ext_get c2 e2 (c3.trans e3.symm) fun idx hidx => ?_
  rw [c3] at hidx
  obtain ⟨pq, r, rfl, h1, hr⟩ := valid_append_split hidx
  obtain ⟨p, q, rfl, hp, hq⟩ := valid_append_split h1
  rw [c4 p q r hp hq hr, e4 p q r hp hq hr]

end Tensor
