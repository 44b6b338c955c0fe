import Verif.Model.Dvr
import Verif.Nd.AddLemmas
import Verif.Nd.OpsLemmas
import Verif.Lemmas.Contract
import Verif.Py.Lemmas
import Mathlib.Algebra.Order.Ring.Nat
import Mathlib.Algebra.BigOperators.Group.List.Lemmas
import Mathlib.Algebra.BigOperators.Ring.List
import Mathlib.Data.List.Rotate

/-!
C38: multi-dimensional DVR: index decoding and the action of the Hamiltonian.
-/

open scoped BigOperators

namespace Dvr

open Py

/-! ### `subindex` -/

/-- Products of the tails, shortest first. -/
private def tails : List ℕ → List ℕ
  | [] => []
  | _ :: ds => tails ds ++ [ds.prod]

private theorem tails_eq (nl : List ℕ) :
    tails nl = (List.range nl.length).map fun j => (nl.drop (nl.length - j)).prod := by
  induction nl with
  | nil => rfl
  | cons d ds ih =>
    rw [tails, ih, List.length_cons, List.range_succ, List.map_append]
    congr 1
    · refine List.map_congr_left fun j hj => ?_
      have hj : j < ds.length := by simpa using hj
      rw [show ds.length + 1 - j = (ds.length - j) + 1 by omega, List.drop_succ_cons]
    · simp

private theorem prods_eq (nl : List ℕ) (h : nl ≠ []) : prods nl = tails nl := by
  have key : ∀ k ≤ nl.length - 1,
      (List.range k).foldl (fun l k => l ++ [l.getLastD 0 * nl.getD (nl.length - 1 - k) 0]) [1] =
        (List.range (k + 1)).map fun j => (nl.drop (nl.length - j)).prod := by
    intro k
    induction k with
    | zero => intro _; simp
    | succ k ih =>
      intro hk
      rw [List.range_succ, List.foldl_append, ih (by omega), List.range_succ (n := k + 1), List.map_append]
      simp only [List.foldl_cons, List.foldl_nil, List.map_cons, List.map_nil]
      congr 2
      rw [List.range_succ, List.map_append]
      simp only [List.map_cons, List.map_nil, List.getLastD_concat]
      have hlt : nl.length - (k + 1) < nl.length := by omega
      rw [List.drop_eq_getElem_cons hlt, List.prod_cons, show nl.length - (k + 1) + 1 = nl.length - k by omega,
        show nl.length - 1 - k = nl.length - (k + 1) by omega, List.getD_eq_getElem _ _ hlt, Nat.mul_comm]
  have hl : 0 < nl.length := List.length_pos_of_ne_nil h
  unfold prods
  rw [key _ (le_refl _), tails_eq, show nl.length - 1 + 1 = nl.length by omega]

private theorem subLoop_eq (nl : List ℕ) : ∀ N < nl.prod, subLoop nl.length (tails nl) N = .ok (unravel nl N) := by
  induction nl with
  | nil => intro N _; rfl
  | cons d ds ih =>
    intro N hN
    rw [List.prod_cons] at hN
    have hp : 0 < ds.prod := by
      rcases Nat.eq_zero_or_pos ds.prod with h | h
      · rw [h] at hN; simp at hN
      · exact h
    simp only [List.length_cons, subLoop, tails, List.getLast?_concat, List.dropLast_concat]
    rw [if_neg (by omega), ih _ (Nat.mod_lt _ hp)]
    rfl

/-- `subindex(N)` is the multi-index of position `N` in row-major order: a valid index, whose position is `N`. -/
theorem C38_subindex (nl : List ℕ) (N : ℕ) (hN : N < nl.prod) :
    ∃ sub, subindex nl N = .ok sub ∧ Valid nl sub ∧ ravel nl sub = N := by
  refine ⟨unravel nl N, ?_, valid_unravel hN, ravel_unravel hN⟩
  unfold subindex
  cases nl with
  | nil => rfl
  | cons d ds =>
    rw [prods_eq _ (by simp)]
    exact subLoop_eq _ N hN

/-- It is a left inverse of packing. -/
theorem C38_subindex_pack (nl idx : List ℕ) (h : Valid nl idx) : subindex nl (ravel nl idx) = .ok idx := by
  obtain ⟨sub, h1, h2, h3⟩ := C38_subindex nl _ (ravel_lt h)
  rw [h1, ← unravel_ravel h2, h3, unravel_ravel h]

/-- So the potential on the grid is evaluated at the right points: entry `N` is the function at the coordinates of
multi-index `N`. -/
theorem C38_potential {R X : Type} (nl : List ℕ) (grid : ℕ → ℕ → X) (func : List X → R) :
    ∃ v, calcDiag nl grid func = .ok v ∧ v.length = nl.prod ∧
      ∀ idx, Valid nl idx → v[ravel nl idx]? = some (func (idx.zipIdx.map fun p => grid p.2 p.1)) := by
  refine ⟨(List.range nl.prod).map fun N => func ((unravel nl N).zipIdx.map fun p => grid p.2 p.1), ?_, by simp, ?_⟩
  · unfold calcDiag
    have key : ∀ l : List ℕ, (∀ N ∈ l, N < nl.prod) →
        (l.mapM fun i => do
          let sub ← subindex nl i
          pure (func ((sub.zipIdx).map fun p => grid p.2 p.1))) =
        Except.ok (l.map fun N => func ((unravel nl N).zipIdx.map fun p => grid p.2 p.1)) := by
      intro l
      induction l with
      | nil => intro _; rfl
      | cons N l ih =>
        intro h
        obtain ⟨sub, h1, h2, h3⟩ := C38_subindex nl N (h N List.mem_cons_self)
        have hs : sub = unravel nl N := by rw [← unravel_ravel h2, h3]
        rw [List.mapM_cons, ih (fun M hM => h M (List.mem_cons_of_mem _ hM)), h1, hs]
        rfl
    exact key _ fun N hN => by simpa using hN
  · intro idx h
    rw [List.getElem?_map, List.getElem?_range (ravel_lt h)]
    simp [unravel_ravel h]

/-! ### The action on one axis -/

variable {R : Type} [CommRing R]

/-- Specification: `mat` acting on axis `i` of `t`. -/
structure ActsOn (i : ℕ) (t mat w : Nd R) : Prop where
  wf : w.Wf
  shape : w.shape = t.shape.set i (mat.dim 0)
  get : ∀ idx, Valid w.shape idx →
    w.get idx = ∑ k ∈ Finset.range (mat.dim 1), mat.get [idx.getD i 0, k] * t.get (idx.set i k)

/-- All axes after axis `i` have the same dimension. (Always so for the last axis and for the one before it.) -/
def TailConst (i : ℕ) (shape : List ℕ) : Prop := ∀ x ∈ shape.drop (i + 1), ∀ y ∈ shape.drop (i + 1), x = y

private theorem set_middle {β : Type} (A : List β) (x y : β) (r : List β) :
    (A ++ x :: r).set A.length y = A ++ y :: r := by
  simp

private theorem set_last {β : Type} (A : List β) (x y : β) : (A ++ [x]).set A.length y = A ++ [y] := by
  simp

private theorem getD_middle {β : Type} (A : List β) (x z : β) (r : List β) : (A ++ x :: r).getD A.length z = x := by
  simp

/-- Exchanging the last axis and an axis before it. -/
private theorem swap_mid (t : Nd R) {P Q : List ℕ} {x y : ℕ} (hs : t.shape = P ++ x :: (Q ++ [y])) :
    ∃ w, t.swapaxes (t.ndim - 1) P.length = .ok w ∧ w.Wf ∧ w.shape = P ++ y :: (Q ++ [x]) ∧
      ∀ A u B v, A.length = P.length → B.length = Q.length → Valid w.shape (A ++ u :: (B ++ [v])) →
        w.get (A ++ u :: (B ++ [v])) = t.get (A ++ v :: (B ++ [u])) := by
  have key : ∀ {β : Type} (A B : List β) (u v z : β), A.length = P.length → B.length = Q.length →
      (((A ++ u :: (B ++ [v])).set (t.ndim - 1) ((A ++ u :: (B ++ [v])).getD P.length z)).set P.length
        ((A ++ u :: (B ++ [v])).getD (t.ndim - 1) z)) = A ++ v :: (B ++ [u]) := by
    intro β A B u v z hA hB
    have e1 : t.ndim - 1 = (A ++ u :: B).length := by
      unfold Nd.ndim; rw [hs]; simp [hA, hB]
    have e2 : A ++ u :: (B ++ [v]) = (A ++ u :: B) ++ [v] := by simp
    rw [← hA, getD_middle A u z, e1, e2, getD_middle (A ++ u :: B) v z [], set_last]
    rw [show A ++ u :: B ++ [u] = A ++ u :: (B ++ [u]) by simp, set_middle]
  refine ⟨t.swapaxesCore (t.ndim - 1) P.length, ?_, Nd.ofFn_wf _ _, ?_, ?_⟩
  · unfold Nd.swapaxes
    rw [if_pos]
    unfold Nd.ndim
    rw [hs]
    simp
  · have := key P Q x y 1 rfl rfl
    unfold Nd.swapaxesCore Nd.ofFn
    simp only
    rw [← this, hs]
  · intro A u B v hA hB hv
    have := key A B u v 0 hA hB
    unfold Nd.swapaxesCore at hv ⊢
    refine (Nd.get_ofFn _ hv).trans ?_
    rw [this]

/-- Exchanging the last axis with itself. -/
private theorem swap_last (t : Nd R) {P : List ℕ} {x : ℕ} (hs : t.shape = P ++ [x]) :
    ∃ w, t.swapaxes (t.ndim - 1) P.length = .ok w ∧ w.Wf ∧ w.shape = P ++ [x] ∧
      ∀ idx, Valid w.shape idx → w.get idx = t.get idx := by
  have e1 : t.ndim - 1 = P.length := by unfold Nd.ndim; rw [hs]; simp
  have key : ∀ {β : Type} (l : List β) (z : β), l.length = P.length + 1 →
      ((l.set P.length (l.getD P.length z)).set P.length (l.getD P.length z)) = l := by
    intro β l z hl
    rw [List.getD_eq_getElem _ _ (by omega)]
    simp
  refine ⟨t.swapaxesCore (t.ndim - 1) P.length, ?_, Nd.ofFn_wf _ _, ?_, ?_⟩
  · unfold Nd.swapaxes
    rw [if_pos]
    unfold Nd.ndim
    rw [hs]
    simp
  · unfold Nd.swapaxesCore Nd.ofFn
    simp only
    rw [e1, key t.shape 1 (by rw [hs]; simp), hs]
  · intro idx hv
    have hl : idx.length = P.length + 1 := by
      rw [hv.length_eq]
      unfold Nd.swapaxesCore
      simp [hs]
    unfold Nd.swapaxesCore at hv ⊢
    refine (Nd.get_ofFn _ hv).trans ?_
    rw [e1, key idx 0 hl]

/-- Reshape to rows, multiply every row, reshape back. -/
private theorem rows (v mat : Nd R) {Q out : List ℕ} {m n : ℕ} (hs : v.shape = Q ++ [m]) (hm : mat.shape = [n, m])
    (hm0 : 0 < m) (ho : out.prod = Q.prod) :
    ∃ a w, v.reshapeInfer [] [mat.dim 1] = .ok a ∧ (mapDot mat a).reshape (out ++ [mat.dim 0]) = .ok w ∧ w.Wf ∧
      w.shape = out ++ [n] ∧
      ∀ r y, Valid out r → y < n → w.get (r ++ [y]) =
        ∑ k ∈ Finset.range m, mat.get [y, k] * v.get (unravel Q (ravel out r) ++ [k]) := by
  have d0 : mat.dim 0 = n := by unfold Nd.dim; rw [hm]; rfl
  have d1 : mat.dim 1 = m := by unfold Nd.dim; rw [hm]; rfl
  rw [d0, d1]
  have ha : v.reshapeInfer [] [m] = .ok ⟨[Q.prod, m], v.data⟩ := by
    unfold Nd.reshapeInfer
    simp only [List.prod_nil, List.prod_cons, mul_one, one_mul, hs, List.prod_append]
    rw [if_neg (by simp; omega), Nat.mul_div_cancel _ hm0]
    rfl
  set a : Nd R := ⟨[Q.prod, m], v.data⟩ with hadef
  have hms : (mapDot mat a).shape = [Q.prod, n] := by
    unfold mapDot Nd.ofFn; simp only [d0]; rfl
  have hmw : (mapDot mat a).Wf := Nd.ofFn_wf _ _
  refine ⟨a, ⟨out ++ [n], (mapDot mat a).data⟩, ha, ?_, ?_, rfl, ?_⟩
  · unfold Nd.reshape
    rw [if_pos (by rw [hms]; simp [ho])]
  · unfold Nd.Wf at hmw ⊢
    rw [hmw, hms]; simp [ho]
  · intro r y hr hy
    have hlt : ravel out r < Q.prod := by rw [← ho]; exact ravel_lt hr
    have e1 : (⟨out ++ [n], (mapDot mat a).data⟩ : Nd R).get (r ++ [y]) = (mapDot mat a).get [ravel out r, y] := by
      unfold Nd.get
      rw [hms]
      simp only
      rw [ravel_append hr.length_eq]
      simp [ravel]
    rw [e1]
    have hv : Valid [a.dim 0, mat.dim 0] [ravel out r, y] := by
      rw [d0]
      exact List.Forall₂.cons hlt (List.Forall₂.cons hy List.Forall₂.nil)
    unfold mapDot
    rw [Nd.get_ofFn _ hv, d1]
    refine Finset.sum_congr rfl fun k _ => ?_
    congr 1
    exact Tensor.get_flat_last v hs k hlt

private theorem rotate_eq {e : ℕ} : ∀ {r : List ℕ}, r ++ [e] = e :: r → ∀ x ∈ r, x = e
  | [], _ => by simp
  | f :: r, h => by
    simp only [List.cons_append, List.cons.injEq] at h
    obtain ⟨rfl, h⟩ := h
    intro x hx
    rcases List.mem_cons.1 hx with rfl | hx
    · rfl
    · exact rotate_eq h x hx

private theorem const_rotate {e : ℕ} : ∀ {r : List ℕ}, (∀ x ∈ r, x = e) → r ++ [e] = e :: r
  | [], _ => rfl
  | f :: r, h => by
    obtain rfl := h f List.mem_cons_self
    rw [List.cons_append, const_rotate fun x hx => h x (List.mem_cons_of_mem _ hx)]

private theorem split_at (s : List ℕ) {i : ℕ} (hi : i < s.length) :
    ∃ p m q, s = p ++ m :: q ∧ p.length = i ∧ s.eraseIdx i = p ++ q ∧ s.drop (i + 1) = q ∧ s.getD i 1 = m := by
  refine ⟨s.take i, s[i], s.drop (i + 1), ?_, by simp; omega, ?_, rfl, ?_⟩
  · rw [← List.drop_eq_getElem_cons hi, List.take_append_drop]
  · rw [Tensor.eraseIdx_eq_take_drop]
  · rw [List.getD_eq_getElem _ _ hi]

/-- `_partial_transform(i, tensor, mat)`, and one term of the Hamiltonian of `PO_DVR`: if all axes after axis `i` have the
same dimension, the result is `mat` acting on axis `i`. -/
theorem C38_transform_partial (i : ℕ) (t mat : Nd R) {n : ℕ} (hi : i < t.ndim) (hpos : ∀ d ∈ t.shape, 0 < d)
    (hm : mat.shape = [n, t.shape.getD i 1]) (hc : TailConst i t.shape) :
    ∃ w, partialTransform i t mat = .ok w ∧ ActsOn i t mat w := by
  obtain ⟨p, m, q, hs, hp, her, hdr, hg⟩ := split_at t.shape hi
  rw [hg] at hm
  have hm0 : 0 < m := hpos m (by rw [hs]; simp)
  have d0 : mat.dim 0 = n := by unfold Nd.dim; rw [hm]; rfl
  have d1 : mat.dim 1 = m := by unfold Nd.dim; rw [hm]; rfl
  subst hp
  rcases List.eq_nil_or_concat q with rfl | ⟨q', d, rfl⟩
  · -- the last axis
    obtain ⟨v, v1, v2, v3, v4⟩ := swap_last t (P := p) (x := m) hs
    obtain ⟨a, w, a1, w1, w2, w3, w4⟩ := rows v mat (Q := p) (out := p) v3 hm hm0 rfl
    obtain ⟨z, z1, z2, z3, z4⟩ := swap_last w (P := p) (x := n) w3
    refine ⟨z, ?_, z2, ?_, ?_⟩
    · unfold partialTransform
      simp only [v1, ok_bind, a1, her, List.append_nil, w1, z1]
    · rw [z3, hs, d0, set_last]
    · intro idx hv
      rw [z4 idx hv]
      rw [z3] at hv
      obtain ⟨r, y', rfl, hr, hy⟩ := valid_append_split hv
      obtain ⟨y, _, rfl, hy', hnil⟩ := valid_cons_iff.1 hy
      cases valid_nil_iff.1 hnil
      rw [w4 r y hr hy', d1]
      refine Finset.sum_congr rfl fun k hk => ?_
      rw [← hr.length_eq, getD_middle, set_last, unravel_ravel hr, v4]
      rw [v3]
      exact valid_append hr (List.Forall₂.cons (Finset.mem_range.1 hk) List.Forall₂.nil)
  · -- an axis before the last
    rw [List.concat_eq_append] at hs her hdr
    have hconst : ∀ x ∈ q', x = d := fun x hx => by
      refine hc x ?_ d ?_ <;> rw [hdr] <;> simp [hx]
    have hrot : q' ++ [d] = d :: q' := const_rotate hconst
    obtain ⟨v, v1, v2, v3, v4⟩ := swap_mid t (P := p) (Q := q') (x := m) (y := d) hs
    have v3' : v.shape = (p ++ d :: q') ++ [m] := by rw [v3]; simp
    obtain ⟨a, w, a1, w1, w2, w3, w4⟩ := rows v mat (Q := p ++ d :: q') (out := p ++ d :: q') v3' hm hm0 rfl
    have w3' : w.shape = p ++ d :: (q' ++ [n]) := by rw [w3]; simp
    obtain ⟨z, z1, z2, z3, z4⟩ := swap_mid w (P := p) (Q := q') (x := d) (y := n) w3'
    refine ⟨z, ?_, z2, ?_, ?_⟩
    · unfold partialTransform
      simp only [v1, ok_bind, a1, her, hrot, w1, z1]
    · rw [z3, hs, d0, set_middle]
    · intro idx hv
      have hv0 := hv
      rw [z3] at hv
      obtain ⟨A, r, rfl, hA, hr⟩ := valid_append_split hv
      obtain ⟨y, r, rfl, hy, hr⟩ := valid_cons_iff.1 hr
      obtain ⟨B, r, rfl, hB, hr⟩ := valid_append_split hr
      obtain ⟨x, _, rfl, hx, hnil⟩ := valid_cons_iff.1 hr
      cases valid_nil_iff.1 hnil
      rw [z4 A y B x hA.length_eq hB.length_eq hv0]
      have hval : Valid (p ++ d :: q') (A ++ x :: B) := valid_append hA (List.Forall₂.cons hx hB)
      rw [show A ++ x :: (B ++ [y]) = (A ++ x :: B) ++ [y] by simp, w4 _ y hval hy, d1]
      refine Finset.sum_congr rfl fun k hk => ?_
      rw [← hA.length_eq, getD_middle, set_middle, unravel_ravel hval,
        show (A ++ x :: B) ++ [k] = A ++ x :: (B ++ [k]) by simp]
      rw [v4 A x B k hA.length_eq hB.length_eq]
      rw [v3]
      exact valid_append hA (List.Forall₂.cons hx (valid_append hB
        (List.Forall₂.cons (Finset.mem_range.1 hk) List.Forall₂.nil)))

/-- The property is false otherwise: if the axes after axis `i` do not all have the same dimension, the result has
a wrong shape. -/
theorem C38_transform_violated (i : ℕ) (t mat : Nd R) {n : ℕ} (hi : i < t.ndim) (hpos : ∀ d ∈ t.shape, 0 < d)
    (hm : mat.shape = [n, t.shape.getD i 1]) (hc : ¬ TailConst i t.shape) :
    ∃ w, partialTransform i t mat = .ok w ∧ w.shape ≠ t.shape.set i n := by
  obtain ⟨p, m, q, hs, hp, her, hdr, hg⟩ := split_at t.shape hi
  rw [hg] at hm
  have hm0 : 0 < m := hpos m (by rw [hs]; simp)
  subst hp
  rcases List.eq_nil_or_concat q with rfl | ⟨q', d, rfl⟩
  · exact absurd (fun x hx => by rw [hdr] at hx; simp at hx) hc
  · rw [List.concat_eq_append] at hs her hdr
    obtain ⟨v, v1, v2, v3, v4⟩ := swap_mid t (P := p) (Q := q') (x := m) (y := d) hs
    have v3' : v.shape = (p ++ d :: q') ++ [m] := by rw [v3]; simp
    obtain ⟨a, w, a1, w1, w2, w3, w4⟩ := rows v mat (Q := p ++ d :: q') (out := p ++ (q' ++ [d])) v3' hm hm0
      (by simp [Nat.mul_comm])
    obtain ⟨e, r, hq⟩ : ∃ e r, q' ++ [d] = e :: r := by cases q' <;> simp
    have w3' : w.shape = p ++ e :: (r ++ [n]) := by rw [w3, hq]; simp
    obtain ⟨z, z1, z2, z3, z4⟩ := swap_mid w (P := p) (Q := r) (x := e) (y := n) w3'
    refine ⟨z, ?_, ?_⟩
    · unfold partialTransform
      simp only [v1, ok_bind, a1, her, w1, z1]
    · rw [z3, hs, set_middle, hq]
      intro h
      have h1 := List.append_cancel_left h
      simp only [List.cons.injEq, true_and] at h1
      have h2 := rotate_eq h1
      apply hc
      have h3 : ∀ x ∈ t.shape.drop (p.length + 1), x = e := by
        intro x hx
        rw [hdr, hq] at hx
        rcases List.mem_cons.1 hx with rfl | hx
        · rfl
        · exact h2 x hx
      intro x hx y hy
      rw [h3 x hx, h3 y hy]

/-! ### The Hamiltonian of the product grid -/

private theorem fold_terms (v : Nd R) (hpos : ∀ d ∈ v.shape, 0 < d) (hc : ∀ i, TailConst i v.shape) :
    ∀ (l : List (Nd R × ℕ)), (∀ p ∈ l, p.2 < v.ndim ∧ p.1.shape = [v.shape.getD p.2 1, v.shape.getD p.2 1]) →
    ∀ acc : Nd R, acc.Wf → acc.shape = v.shape →
      ∃ w, l.foldlM (fun (ans : Nd R) p => do
          let w ← partialTransform p.2 v p.1
          ans.add w) acc = .ok w ∧ w.Wf ∧ w.shape = v.shape ∧
        ∀ idx, Valid v.shape idx → w.get idx = acc.get idx + (l.map fun p =>
          ∑ k ∈ Finset.range (p.1.dim 1), p.1.get [idx.getD p.2 0, k] * v.get (idx.set p.2 k)).sum := by
  intro l
  induction l with
  | nil => intro _ acc ha hs; exact ⟨acc, rfl, ha, hs, by simp⟩
  | cons p l ih =>
    intro hl acc ha hs
    obtain ⟨hp, hps⟩ := hl p List.mem_cons_self
    obtain ⟨w, w1, w2⟩ := C38_transform_partial p.2 v p.1 hp hpos hps (hc p.2)
    have hw : w.shape = v.shape := by
      have d0 : p.1.dim 0 = v.shape.getD p.2 1 := by unfold Nd.dim; rw [hps]; rfl
      rw [w2.shape, d0, List.getD_eq_getElem _ _ hp]
      simp
    obtain ⟨c, c1, c2, c3, c4⟩ := Nd.add_ok ha w2.wf (hs.trans hw.symm)
    obtain ⟨z, z1, z2, z3, z4⟩ := ih (fun q hq => hl q (List.mem_cons_of_mem _ hq)) c c2 (c3.trans hs)
    refine ⟨z, ?_, z2, z3, ?_⟩
    · rw [List.foldlM_cons]
      simp only [w1, ok_bind, c1, z1]
    · intro idx hv
      rw [z4 idx hv, c4 idx (hs ▸ hv), w2.get idx (hw ▸ hv), List.map_cons, List.sum_cons, add_assoc]

private theorem zeros_wf (v : Nd R) (hv : v.Wf) : (⟨v.shape, v.data.map fun _ => 0⟩ : Nd R).Wf := by
  unfold Nd.Wf at *; simp [hv]

private theorem zeros_get (v : Nd R) (idx : List ℕ) : (⟨v.shape, v.data.map fun _ => 0⟩ : Nd R).get idx = 0 := by
  unfold Nd.get
  rw [List.getD_eq_getElem?_getD, List.getElem?_map]
  cases v.data[ravel v.shape idx]? <;> rfl

/-- Specification: the sum of the one-dimensional Hamiltonians, and of the residual potential on the diagonal, applied
to the vector `vec`; entry `idx` of the result. -/
def applied (hList : List (Nd R)) (vRst : Option (List R)) (vec : List R) (idx : List ℕ) : R :=
  (hList.zipIdx.map fun p => ∑ k ∈ Finset.range (p.1.dim 0),
      p.1.get [idx.getD p.2 0, k] * vec.getD (ravel (hList.map fun h => h.dim 0) (idx.set p.2 k)) 0).sum +
    (match vRst with
      | none => 0
      | some d => d.getD (ravel (hList.map fun h => h.dim 0) idx) 0 *
          vec.getD (ravel (hList.map fun h => h.dim 0) idx) 0)

/-- `h_mat()` of a product grid is the sum of the one-dimensional Hamiltonians, each acting on its own coordinate,
plus the residual potential on the diagonal, provided that the grids of all coordinates but the first have
the same size. -/
theorem C38_hamiltonian_partial (hList : List (Nd R)) (vRst : Option (List R)) (vec : List R)
    (hsq : ∀ h ∈ hList, ∃ n, 0 < n ∧ h.shape = [n, n]) (hlen : vec.length = (hList.map fun h => h.dim 0).prod)
    (hd : ∀ d, vRst = some d → d.length = vec.length) (hc : TailConst 0 (hList.map fun h => h.dim 0)) :
    ∃ res, matvec hList vRst vec = .ok res ∧ res.length = vec.length ∧
      ∀ idx, Valid (hList.map fun h => h.dim 0) idx →
        res[ravel (hList.map fun h => h.dim 0) idx]? = some (applied hList vRst vec idx) := by
  set s := hList.map fun h => h.dim 0 with hs
  set v : Nd R := ⟨s, vec⟩ with hv
  have hpos : ∀ d ∈ v.shape, 0 < d := by
    intro d hd
    rw [hv, hs] at hd
    obtain ⟨h, hh, rfl⟩ := List.mem_map.1 hd
    obtain ⟨n, hn, hsh⟩ := hsq h hh
    unfold Nd.dim; rw [hsh]; exact hn
  have hcs : ∀ i, TailConst i v.shape := by
    intro i x hx y hy
    have : ∀ z, z ∈ v.shape.drop (i + 1) → z ∈ s.drop (0 + 1) := by
      intro z hz
      rw [show i + 1 = 0 + 1 + i by omega, ← List.drop_drop] at hz
      exact List.mem_of_mem_drop hz
    exact hc x (this x hx) y (this y hy)
  have hl : ∀ p ∈ hList.zipIdx, p.2 < v.ndim ∧ p.1.shape = [v.shape.getD p.2 1, v.shape.getD p.2 1] := by
    rintro ⟨h, i⟩ hp
    obtain ⟨hi, hpi⟩ := List.mem_zipIdx' hp
    have hi' : i < s.length := by rw [hs]; simpa using hi
    refine ⟨hi', ?_⟩
    obtain ⟨n, hn, hsh⟩ := hsq h (by rw [hpi]; exact List.getElem_mem _)
    have : s.getD i 1 = n := by
      rw [List.getD_eq_getElem _ _ hi']
      simp only [hs, List.getElem_map]
      rw [← hpi]; unfold Nd.dim; rw [hsh]; rfl
    simp only [hv]
    rw [this, hsh]
  have hvwf : v.Wf := hlen
  obtain ⟨w, w1, w2, w3, w4⟩ := fold_terms v hpos hcs hList.zipIdx hl _ (zeros_wf v hvwf) rfl
  have hres : (⟨[vec.length], vec⟩ : Nd R).reshape s = .ok v := by
    unfold Nd.reshape; rw [if_pos (by simpa using hlen)]
  have hwl : w.data.length = vec.length := by rw [w2, w3, hlen]
  have hsum : ∀ idx, Valid s idx → w.data[ravel s idx]? = some ((hList.zipIdx.map fun p =>
      ∑ k ∈ Finset.range (p.1.dim 0), p.1.get [idx.getD p.2 0, k] * vec.getD (ravel s (idx.set p.2 k)) 0).sum) := by
    intro idx hidx
    have h1 := Nd.get_eq_getElem w2 (idx := idx) (w3 ▸ hidx)
    rw [w3] at h1
    rw [h1, w4 idx hidx, zeros_get, zero_add]
    refine congrArg some (congrArg List.sum (List.map_congr_left fun p hp => ?_))
    obtain ⟨_, hsh⟩ := hl p hp
    have : p.1.dim 1 = p.1.dim 0 := by unfold Nd.dim; rw [hsh]; rfl
    rw [this]
    rfl
  have hmv : ∀ o, matvec hList o vec = (match o with
      | none => pure w.data
      | some d => if d.length = vec.length then
          pure (List.zipWith (· + ·) w.data (List.zipWith (· * ·) d vec)) else throw .valueError) := by
    intro o
    unfold matvec
    simp only [← hs, hres, ok_bind]
    rw [show (⟨s, v.data.map fun _ => 0⟩ : Nd R) = ⟨v.shape, v.data.map fun _ => 0⟩ from rfl, w1]
    rfl
  replace hmv := hmv vRst
  cases vRst with
  | none =>
    refine ⟨w.data, hmv, hwl, fun idx hidx => ?_⟩
    rw [hsum idx hidx]
    unfold applied
    rw [add_zero]
  | some d =>
    have hdl := hd d rfl
    simp only [hdl, if_true] at hmv
    refine ⟨_, hmv, by simp [hwl, hdl], fun idx hidx => ?_⟩
    have hlt : ravel s idx < vec.length := by rw [hlen]; exact ravel_lt hidx
    rw [List.getElem?_zipWith, hsum idx hidx, List.getElem?_zipWith, List.getElem?_eq_getElem hlt,
      List.getElem?_eq_getElem (hdl ▸ hlt)]
    unfold applied
    simp only [← hs]
    rw [List.getD_eq_getElem _ _ hlt, List.getD_eq_getElem d _ (hdl ▸ hlt)]

/-- Otherwise the property is violated: `h_mat()` cannot be applied to any vector; `ans += ...` raises `ValueError`. (With
axes that are not empty, broadcasting cannot make the two shapes compatible: they have the same product.) -/
theorem C38_hamiltonian_violated (hList : List (Nd R)) (vRst : Option (List R)) (vec : List R)
    (hsq : ∀ h ∈ hList, ∃ n, 0 < n ∧ h.shape = [n, n]) (hlen : vec.length = (hList.map fun h => h.dim 0).prod)
    (hc : ¬ TailConst 0 (hList.map fun h => h.dim 0)) : matvec hList vRst vec = .error .valueError := by
  cases hList with
  | nil => exact absurd (by intro x hx; simp at hx) hc
  | cons h hl =>
    set s := (h :: hl).map fun h => h.dim 0 with hs
    set v : Nd R := ⟨s, vec⟩ with hv
    obtain ⟨n, hn, hsh⟩ := hsq h List.mem_cons_self
    have hd : h.dim 0 = n := by unfold Nd.dim; rw [hsh]; rfl
    have hpos : ∀ d ∈ v.shape, 0 < d := by
      intro d hd
      rw [hv, hs] at hd
      obtain ⟨h, hh, rfl⟩ := List.mem_map.1 hd
      obtain ⟨n, hn, hsh⟩ := hsq h hh
      unfold Nd.dim; rw [hsh]; exact hn
    have hg : s.getD 0 1 = n := by rw [hs]; simp [hd]
    obtain ⟨w, w1, w2⟩ := C38_transform_violated 0 v h (n := n) (by simp [Nd.ndim, hv, hs]) hpos
      (by rw [hsh]; simp only [hv]; rw [hg]) hc
    have hres : (⟨[vec.length], vec⟩ : Nd R).reshape s = .ok v := by
      unfold Nd.reshape; rw [if_pos (by simpa using hlen)]
    have hset : s.set 0 n = s := by rw [hs]; simp [hd]
    have hadd : (⟨s, v.data.map fun _ => 0⟩ : Nd R).add w = .error .valueError := by
      apply Nd.add_error
      intro he
      apply w2
      rw [← he]
      exact hset.symm
    unfold matvec
    simp only [← hs, hres, ok_bind, List.zipIdx_cons, List.foldlM_cons, w1, hadd]
    rfl

/-! ### Examples -/

/-- Three coordinates with 2, 3 and 3 points meet the hypotheses. -/
example : (∀ h ∈ [(⟨[2, 2], [0, 1, 1, 0]⟩ : Nd ℤ), ⟨[3, 3], [1, 0, 0, 0, 2, 0, 0, 0, 3]⟩,
      ⟨[3, 3], [0, 1, 0, 1, 0, 1, 0, 1, 0]⟩], ∃ n, 0 < n ∧ h.shape = [n, n]) ∧ TailConst 0 [2, 3, 3] := by
  refine ⟨?_, ?_⟩
  · intro h hh
    simp only [List.mem_cons, List.not_mem_nil, or_false] at hh
    rcases hh with rfl | rfl | rfl
    exacts [⟨2, by decide, rfl⟩, ⟨3, by decide, rfl⟩, ⟨3, by decide, rfl⟩]
  · intro x hx y hy
    simp at hx hy
    rw [hx, hy]

/-- With 2, 2 and 3 points the Hamiltonian cannot be applied. -/
example : ¬ TailConst 0 [2, 2, 3] := fun h => by
  have := h 2 (by simp) 3 (by simp)
  omega

example : matvec [(⟨[2, 2], [0, 1, 1, 0]⟩ : Nd ℤ), ⟨[2, 2], [1, 0, 0, 2]⟩] (some [0, 0, 0, 5]) [1, 10, 100, 1000] =
    .ok [101, 1020, 101, 7010] := by decide +kernel

example : matvec [(⟨[1, 1], [1]⟩ : Nd ℤ), ⟨[2, 2], [1, 0, 0, 2]⟩, ⟨[1, 1], [1]⟩] none [1, 10] = .error .valueError := by
  decide +kernel

example : subindex [2, 3, 4] 17 = .ok [1, 1, 1] := by decide

end Dvr
