import Verif.Lemmas.Mctdh4

/-!
`_sp_op` on the current state, for real single-particle functions.
-/

open Py
open scoped BigOperators

namespace Mctdh

variable {R : Type} [CommRing R] [StarRing R]

theorem set_eq_insertIdx (s : List ℕ) : ∀ (i n : ℕ), i < s.length → s.set i n = (s.eraseIdx i).insertIdx i n := by
  induction s with
  | nil => intro i n hi; simp at hi
  | cons d s ih =>
    intro i n hi
    cases i with
    | zero => rfl
    | succ i => simpa using ih i n (by simpa using hi)

theorem getD_insertIdx_of_ne (s : List ℕ) : ∀ (i l x y d : ℕ), l ≠ i → i ≤ s.length → (s.insertIdx i x).getD l d = (s.insertIdx i y).getD l d := by
  induction s with
  | nil =>
    intro i l x y d h hi
    obtain rfl : i = 0 := by simpa using hi
    cases l with
    | zero => exact absurd rfl h
    | succ l => simp
  | cons e s ih =>
    intro i l x y d h hi
    cases i with
    | zero =>
      cases l with
      | zero => exact absurd rfl h
      | succ l => simp
    | succ i =>
      cases l with
      | zero => simp
      | succ l => simpa using ih i l x y d (by omega) (by simpa using hi)

omit [StarRing R] in
theorem smul_get (c : R) (A : Nd R) (p : List ℕ) : (Nd.smul c A).get p = c * A.get p := by
  unfold Nd.smul Nd.get
  simp only [List.getD_eq_getElem?_getD, List.getElem?_map]
  cases A.data[ravel A.shape p]? <;> simp

theorem valid2 {n m x y : ℕ} (hx : x < n) (hy : y < m) : Valid [n, m] [x, y] := by simp [hx, hy]

omit [StarRing R] in
theorem identity_wf (n : ℕ) : (Nd.identity n : Nd R).Wf := by unfold Nd.identity; exact Nd.ofFn_wf _ _

omit [StarRing R] in
theorem identity_shape (n : ℕ) : (Nd.identity n : Nd R).shape = [n, n] := rfl

omit [StarRing R] in
theorem idMat_get {n x y : ℕ} (hx : x < n) (hy : y < n) : (Nd.identity n : Nd R).get [x, y] = if x = y then 1 else 0 := by
  unfold Nd.identity
  rw [Nd.get_ofFn _ (valid2 hx hy)]
  rfl

/-- The regularized density matrix. -/
theorem density_ok {a : Nd R} {err : R} {i : ℕ} (hi : i < a.ndim) (h0 : 0 < a.shape.getD i 0) :
    ∃ d, partialProduct i a a.conj = .ok d ∧ d.add ((Nd.identity (a.shape.getD i 0)).smul err) = .ok (densityArray a err i) := by
  have e01 : a.shape.getD i 1 = a.shape.getD i 0 := by
    rw [List.getD_eq_getElem _ _ hi, List.getD_eq_getElem _ _ hi]
  have hcs : a.conj.shape = a.shape := rfl
  obtain ⟨d, d1, d2, d3, d4⟩ := Tensor.partialTrace_spec a a.conj hi (j := i) (by unfold Nd.ndim at *; exact hi) rfl
    (by rw [e01]; omega) (by rw [hcs, e01]; omega)
  rw [hcs, e01] at d3
  rw [hcs, e01] at d4
  have ws : ((Nd.identity (a.shape.getD i 0) : Nd R).smul err).Wf := by
    have := identity_wf (R := R) (a.shape.getD i 0)
    unfold Nd.Wf Nd.smul at *
    simpa using this
  obtain ⟨e, e1, e2, e3, e4⟩ := Nd.add_ok d2 ws (by rw [d3]; rfl)
  refine ⟨d, d1, e1.trans (congrArg _ ?_)⟩
  refine Nd.ext_get e2 (Nd.ofFn_wf _ _) (by rw [e3, d3]; rfl) fun p hp => ?_
  rw [e3] at hp
  rw [e4 p hp]
  rw [d3] at hp
  obtain ⟨x, p', rfl, hx, hp'⟩ := valid_cons_iff.1 hp
  obtain ⟨y, p'', rfl, hy, hp''⟩ := valid_cons_iff.1 hp'
  obtain rfl := valid_nil_iff.1 hp''
  rw [d4 x y hx hy, smul_get, idMat_get hx hy]
  unfold densityArray
  rw [Nd.get_ofFn _ (valid2 hx hy)]
  unfold density
  congr 1
  · refine sumIdx_congr fun p _ => ?_
    rw [conj_get']
    rfl
  · simp

/-- The projection on the complement of the single-particle functions. -/
theorem projection_ok {c : Nd R} {n m : ℕ} (hs : c.shape = [n, m]) :
    ∃ w, projection n c = .ok w ∧ w.Wf ∧ w.shape = [n, n] ∧ ∀ x < n, ∀ g : ℕ → R,
      (∑ y ∈ Finset.range n, w.get [x, y] * g y) = outside c g x := by
  unfold projection
  have t := transpose_spec c hs
  obtain ⟨u, u1, u2, u3, u4⟩ := Tensor.matmul_spec c (c.transposeCore [1, 0]).conj hs (show _ = [m, n] from t.1)
  obtain ⟨w, w1, w2, w3, w4⟩ := Nd.sub_ok (identity_wf (R := R) n) u2 (by rw [u3]; rfl)
  refine ⟨w, by simp only [u1, ok_bind, w1], w2, w3, fun x hx g => ?_⟩
  have d0 : c.dim 0 = n := by unfold Nd.dim; rw [hs]; rfl
  have d1 : c.dim 1 = m := by unfold Nd.dim; rw [hs]; rfl
  have e : ∀ y ∈ Finset.range n, w.get [x, y] * g y =
      delta x y * g y - ∑ j ∈ Finset.range m, c.get [x, j] * (star (c.get [y, j]) * g y) := by
    intro y hy
    have hy := Finset.mem_range.1 hy
    rw [w4 _ (by rw [identity_shape]; exact valid2 hx hy), idMat_get hx hy, u4 x y hx hy, sub_mul, Finset.sum_mul]
    congr 1
    refine Finset.sum_congr rfl fun j hj => ?_
    rw [conj_get', t.2.2 _ _ (Finset.mem_range.1 hj) hy]
    ring
  rw [Finset.sum_congr rfl e, Finset.sum_sub_distrib, sum_delta_left hx g, Finset.sum_comm]
  unfold outside
  rw [d0, d1]
  simp only [Finset.mul_sum]

/-- The mean field of a term. -/
theorem meanField_term {cs : List (Nd R)} {a : Nd R} (hb : Blocks cs a) (ho : ∀ c ∈ cs, Orthonormal c) {term mods : Term R}
    (ht : TermOk cs term) (hm : ModsOk cs term mods) {i : ℕ} (hi : i < cs.length) {x k : ℕ} (hx : x < (block cs i).dim 0) :
    meanField cs a i (actTerm term (amplitude cs a)) x k = sumIdx (a.shape.eraseIdx i) fun j =>
      (sumIdx a.shape fun l => prodF a.shape.length (fun k p q => if k = i then
        ∑ y ∈ Finset.range ((block cs i).dim 0), opAt term i p y * (block cs i).get [y, q] else opAt mods k p q) (j.insertIdx i x) l * a.get l) *
        star (a.get (j.insertIdx i k)) := by
  unfold meanField
  refine sumIdx_congr fun j hj => ?_
  congr 1
  have hia : i < a.shape.length := by rw [hb.lenA]; exact hi
  have hjl : i ≤ j.length := by
    rw [hj.length_eq, List.length_eraseIdx_of_lt hia]; omega
  have hlen : (j.insertIdx i x).length = cs.length := by
    rw [List.length_insertIdx_of_le_length hjl, hj.length_eq, List.length_eraseIdx_of_lt hia, hb.lenA]
    omega
  have := overlap_term hb ht (fun l p y => if l = i then delta p y else star ((block cs l).get [y, p])) (j.insertIdx i x) hlen
  refine this.trans ?_
  refine sumIdx_congr fun l hl => ?_
  rw [hb.lenA]
  congr 1
  refine prodF_congr fun e he => ?_
  by_cases hei : e = i
  · subst hei
    simp only [if_true]
    rw [getD_insertIdx_self hjl, sum_delta_left hx fun z =>
      ∑ y ∈ Finset.range ((block cs e).dim 0), opAt term e z y * (block cs e).get [y, l.getD e 0]]
  · simp only [if_neg hei]
    refine (hm.opAt ho he ?_ ?_).symm
    · have hv : Valid (a.shape.set i (x + 1)) (j.insertIdx i x) := by
        rw [set_eq_insertIdx _ _ _ hia]
        exact hj.insertIdx i (by omega)
      have hes : e < (a.shape.set i (x + 1)).length := by rw [List.length_set, hb.lenA]; exact he
      have h1 := hv.getD_lt (k := e) hes 0 0
      have h2 : (a.shape.set i (x + 1)).getD e 0 = a.shape.getD e 0 := by
        rw [List.getD_eq_getElem _ _ hes, List.getElem_set_ne (Ne.symm hei), ← List.getD_eq_getElem _ 0]
      rw [← hb.dimA he, ← h2]
      exact h1
    · rw [← hb.dimA he]; exact hl.getD_lt (hb.lenA ▸ he) 0 0

theorem outside_congr {c : Nd R} {f g : ℕ → R} {x : ℕ} (hx : x < c.dim 0) (h : ∀ y < c.dim 0, f y = g y) : outside c f x = outside c g x := by
  unfold outside
  rw [h x hx]
  congr 1
  refine Finset.sum_congr rfl fun q _ => ?_
  congr 1
  refine Finset.sum_congr rfl fun y hy => ?_
  rw [h y (Finset.mem_range.1 hy)]

omit [CommRing R] [StarRing R] in
theorem filter_single : ∀ {term : Term R} {i : ℕ} {h : Nd R}, (term.map Prod.fst).Nodup → term.lookup i = some h →
    (term.filter fun p => p.1 = i) = [(i, h)] := by
  intro term i h
  induction term with
  | nil => intro _ hl; simp at hl
  | cons p term ih =>
    intro hnd hl
    rw [List.map_cons, List.nodup_cons] at hnd
    by_cases hp : p.1 = i
    · rw [List.filter_cons_of_pos (by simpa using hp)]
      obtain ⟨k, u⟩ := p
      obtain rfl : k = i := hp
      rw [List.lookup_cons, beq_self_eq_true] at hl
      obtain rfl : u = h := by simpa using hl
      congr 1
      rw [List.filter_eq_nil_iff]
      intro q hq hqi
      exact hnd.1 (by simpa using ⟨q.2, (by simpa using hqi : q.1 = k) ▸ hq⟩)
    · rw [List.filter_cons_of_neg (by simpa using hp)]
      obtain ⟨k, u⟩ := p
      rw [List.lookup_cons, beq_false_of_ne (Ne.symm hp)] at hl
      exact ih hnd.2 hl

/-- If the term does not act on coordinate `i`, its mean field has no part outside the single-particle functions. -/
theorem meanField_none {cs : List (Nd R)} {a : Nd R} (hb : Blocks cs a) (ho : ∀ c ∈ cs, Orthonormal c) {term mods : Term R}
    (ht : TermOk cs term) (hm : ModsOk cs term mods) {i : ℕ} (hi : i < cs.length) (hn : term.lookup i = none) {x k : ℕ}
    (hx : x < (block cs i).dim 0) :
    outside (block cs i) (fun y => meanField cs a i (actTerm term (amplitude cs a)) y k) x = 0 := by
  have hia : i < a.shape.length := by rw [hb.lenA]; exact hi
  have e : ∀ y < (block cs i).dim 0, meanField cs a i (actTerm term (amplitude cs a)) y k =
      sumIdx (a.shape.eraseIdx i) fun j => sumIdx a.shape fun l => (block cs i).get [y, l.getD i 0] *
        ((∏ e ∈ (Finset.range a.shape.length).erase i, opAt mods e ((j.insertIdx i 0).getD e 0) (l.getD e 0)) * a.get l *
          star (a.get (j.insertIdx i k))) := by
    intro y hy
    rw [meanField_term hb ho ht hm hi hy]
    refine sumIdx_congr fun j hj => ?_
    have hjl : i ≤ j.length := by
      rw [hj.length_eq, List.length_eraseIdx_of_lt hia]; omega
    rw [← sumIdx_mul_right]
    refine sumIdx_congr fun l hl => ?_
    unfold prodF
    rw [← Finset.mul_prod_erase _ _ (Finset.mem_range.2 hia)]
    beta_reduce
    rw [if_pos rfl, getD_insertIdx_self hjl]
    have e1 : (∑ z ∈ Finset.range ((block cs i).dim 0), opAt term i y z * (block cs i).get [z, l.getD i 0]) =
        (block cs i).get [y, l.getD i 0] := by
      rw [opAt_none hn]
      exact sum_delta_left hy fun z => (block cs i).get [z, l.getD i 0]
    have e2 : (∏ e ∈ (Finset.range a.shape.length).erase i, (if e = i then
          ∑ z ∈ Finset.range ((block cs i).dim 0), opAt term i ((j.insertIdx i y).getD e 0) z * (block cs i).get [z, l.getD e 0]
          else opAt mods e ((j.insertIdx i y).getD e 0) (l.getD e 0))) =
        ∏ e ∈ (Finset.range a.shape.length).erase i, opAt mods e ((j.insertIdx i 0).getD e 0) (l.getD e 0) := by
      refine Finset.prod_congr rfl fun e he => ?_
      have hei := Finset.ne_of_mem_erase he
      rw [if_neg hei, getD_insertIdx_of_ne j i e y 0 0 hei hjl]
    rw [e1, e2]
    ring
  have e' : outside (block cs i) (fun y => meanField cs a i (actTerm term (amplitude cs a)) y k) x =
      outside (block cs i) (fun y => sumIdx (a.shape.eraseIdx i) fun j => sumIdx a.shape fun l => (block cs i).get [y, l.getD i 0] *
        ((∏ e ∈ (Finset.range a.shape.length).erase i, opAt mods e ((j.insertIdx i 0).getD e 0) (l.getD e 0)) * a.get l *
          star (a.get (j.insertIdx i k)))) x := by
    exact outside_congr hx e
  rw [e', outside_sumIdx]
  rw [sumIdx_congr (g := fun _ => 0) fun j _ => ?_, sumIdx_zero]
  rw [outside_sumIdx, sumIdx_congr (g := fun _ => 0) fun l hl => ?_, sumIdx_zero]
  rw [outside_mul, outside_col (ho _ (Blocks.mem hi)) (by rw [← hb.dimA hi]; exact hl.getD_lt hia 0 0), zero_mul]

/-- `_sp_op` on the current state. -/
theorem spOp_ok {inv : Nd R → Res (Nd R)} {err : R} {cs : List (Nd R)} {a : Nd R} (hb : Blocks cs a) (ho : ∀ c ∈ cs, Orthonormal c)
    (htc : Dvr.TailConst 0 a.shape) {o : Obj R} (hsh : o.shapes = shapeList (cs.map fun c => (c.dim 0, c.dim 1)))
    (hv : o.vec = concatenate (cs ++ [a])) {term mods : Term R} (ht : TermOk cs term) (hm : ModsOk cs term mods) {i : ℕ}
    (hi : i < cs.length) (hinv : Inverts inv (densityArray a err i))
    (htail : term.lookup i ≠ none → ∀ p ∈ term, p.1 ≠ i → Dvr.TailConst p.1 (a.shape.set i ((block cs i).dim 0))) :
    ∃ w, spOp inv err o i (block cs i) ((term.filter fun p => p.1 = i).map Prod.snd) mods = .ok w ∧ w.Wf ∧
      w.shape = (block cs i).shape ∧
      (∀ j < (block cs i).dim 1, ∀ k < (block cs i).dim 1,
        (∑ x ∈ Finset.range ((block cs i).dim 0), star ((block cs i).get [x, j]) * w.get [x, k]) = 0) ∧
      ∀ x < (block cs i).dim 0, ∀ q < (block cs i).dim 1,
        (∑ k ∈ Finset.range ((block cs i).dim 1), w.get [x, k] * density a err i k q) =
          outside (block cs i) (fun y => meanField cs a i (actTerm term (amplitude cs a)) y q) x := by
  obtain ⟨hn, hm0, hs⟩ := hb.at hi
  have hia : i < a.shape.length := by rw [hb.lenA]; exact hi
  set c := block cs i with hc
  set n := c.dim 0 with hnn
  set m := c.dim 1 with hmm
  have ho' := ho _ (Blocks.mem hi)
  cases hlook : term.lookup i with
  | none =>
    have hf : (term.filter fun p => p.1 = i) = [] := by
      rw [List.filter_eq_nil_iff]
      intro p hp
      have := List.lookup_eq_none_iff.1 hlook p hp
      simpa [bne_iff_ne, ne_comm] using this
    unfold spOp
    rw [hf, List.map_nil, if_pos rfl]
    have z : ∀ p, (⟨c.shape, List.replicate c.shape.prod 0⟩ : Nd R).get p = 0 := by
      intro p
      unfold Nd.get
      simp [List.getD_eq_getElem?_getD, List.getElem?_replicate]
      split <;> rfl
    refine ⟨_, rfl, by unfold Nd.Wf; simp, rfl, ?_, ?_⟩
    · intro j _ k _
      simp [z]
    · intro x hx q _
      rw [meanField_none hb ho ht hm hi hlook hx]
      simp [z]
  | some h =>
    have hmem : (i, h) ∈ term := by
      have := List.lookup_eq_some_iff.1 hlook
      obtain ⟨l1, l2, e, _⟩ := this
      rw [e]
      simp
    have hh : h.shape = [n, n] := ht.shape _ hmem
    have hnda : i < a.ndim := hia
    have am : a.shape.getD i 0 = m := hb.dimA hi
    have am1 : a.shape.getD i 1 = m := by
      rw [← am, List.getD_eq_getElem _ _ hia, List.getD_eq_getElem _ _ hia]
    obtain ⟨d, d1, d2⟩ := density_ok (err := err) hnda (by rw [am]; exact hm0)
    obtain ⟨e, e1, e2, e3⟩ := hinv
    have ds : (densityArray a err i).shape = [m, m] := by rw [← am]; rfl
    have dd : (densityArray a err i).dim 0 = m := by unfold Nd.dim; rw [ds]; rfl
    rw [ds] at e2
    rw [dd] at e3
    obtain ⟨P, p1, p2, p3, p4⟩ := projection_ok hs
    have hmods : ∀ p ∈ mods, p.1 < a.ndim ∧ (p.1 ≠ i → p.2.shape = [a.shape.getD p.1 0, a.shape.getD p.1 0]) := by
      intro p hp
      refine ⟨by unfold Nd.ndim; rw [hb.lenA]; exact hm.coord ht p hp, fun _ => ?_⟩
      rw [hb.dimA (hm.coord ht p hp)]
      exact hm.shape p hp
    obtain ⟨t0, t1, t2, q0, q1, q2, q3, q4, q5⟩ := transformed a c h mods hb.wfA hb.posA hnda hs hn am1 hh hmods
      (by rw [hm.fst]; exact ht.nodup) (tailConst_all htc i) (fun p hp hpi => by
        have : p.1 ∈ term.map Prod.fst := hm.fst ▸ List.mem_map_of_mem hp
        obtain ⟨q, hq, hqe⟩ := List.mem_map.1 this
        exact hqe ▸ htail (by rw [hlook]; simp) q hq (hqe ▸ hpi))
    have hset : (a.shape.set i n).eraseIdx i = a.shape.eraseIdx i := by
      rw [set_eq_insertIdx _ _ _ hia, eraseIdx_insertIdx_self]
    have hgs : (a.shape.set i n).getD i 1 = n := by
      rw [List.getD_eq_getElem _ _ (by simpa using hia), List.getElem_set_self]
    obtain ⟨F, f1, f2, f3, f4⟩ := Tensor.partialTrace_spec t2 a.conj (i := i) (j := i)
      (by unfold Nd.ndim; rw [q4, List.length_set]; exact hia) hnda (by rw [q4, hset]; rfl)
      (by rw [q4, hgs]; omega) (by rw [show a.conj.shape = a.shape from rfl, am1]; omega)
    rw [q4, hset, hgs, show a.conj.shape = a.shape from rfl, am1] at f4
    rw [q4, hgs, show a.conj.shape = a.shape from rfl, am1] at f3
    obtain ⟨u, u1, u2, u3, u4⟩ := Tensor.matmul_spec F e f3 e2
    obtain ⟨w, w1, w2, w3, w4⟩ := Tensor.matmul_spec P u p3 u3
    have hF : ∀ y < n, ∀ q < m, F.get [y, q] = meanField cs a i (actTerm term (amplitude cs a)) y q := by
      intro y hy q hq
      rw [f4 y q hy hq, meanField_term hb ho ht hm hi hy]
      refine sumIdx_congr fun j hj => ?_
      rw [conj_get', q5 _ (by rw [set_eq_insertIdx _ _ _ hia]; exact hj.insertIdx i hy)]
      simp only [opAt_some hlook]
      rfl
    refine ⟨w, ?_, w2, by rw [w3, hs], ?_, ?_⟩
    · unfold spOp
      rw [filter_single ht.nodup hlook]
      simp only [List.map_cons, List.map_nil, List.cons_ne_nil, if_false]
      rw [hsh, hv, hb.last, ok_bind, d1, ok_bind]
      rw [show c.dim 1 = a.shape.getD i 0 from am.symm, d2, ok_bind, e1, ok_bind, hb.sub hi, ok_bind, p1, ok_bind, q0, ok_bind,
        List.foldlM_cons, q1, ok_bind, List.foldlM_nil, pure_bind]
      have q2' := q2
      simp only [ne_eq] at q2'
      simp only [ne_eq]
      rw [q2', ok_bind]
      unfold partialProduct
      rw [f1, ok_bind, u1, ok_bind, w1]
    · intro j hj k hk
      have : ∀ x ∈ Finset.range n, star (c.get [x, j]) * w.get [x, k] = star (c.get [x, j]) * outside c (fun y => u.get [y, k]) x := by
        intro x hx
        rw [w4 x k (Finset.mem_range.1 hx) hk, p4 x (Finset.mem_range.1 hx) fun y => u.get [y, k]]
      rw [Finset.sum_congr rfl this]
      exact outside_orthogonal ho' hj _
    · intro x hx q hq
      have e5 : ∀ k ∈ Finset.range m, w.get [x, k] * density a err i k q = ∑ y ∈ Finset.range n, P.get [x, y] *
          ∑ l ∈ Finset.range m, F.get [y, l] * (e.get [l, k] * (densityArray a err i).get [k, q]) := by
        intro k hk
        have hk := Finset.mem_range.1 hk
        rw [w4 x k hx hk, Finset.sum_mul]
        refine Finset.sum_congr rfl fun y hy => ?_
        rw [u4 y k (Finset.mem_range.1 hy) hk, mul_assoc, Finset.sum_mul]
        congr 1
        refine Finset.sum_congr rfl fun l _ => ?_
        unfold densityArray
        rw [Nd.get_ofFn _ (by rw [am]; exact valid2 hk hq), mul_assoc]
        rfl
      rw [Finset.sum_congr rfl e5, Finset.sum_comm]
      refine Eq.trans ?_ ((p4 x hx fun y => F.get [y, q]).trans (outside_congr hx fun y hy => hF y hy q hq))
      refine Finset.sum_congr rfl fun y hy => ?_
      rw [← Finset.mul_sum, Finset.sum_comm]
      congr 1
      have e6 : ∀ l ∈ Finset.range m, (∑ k ∈ Finset.range m, F.get [y, l] * (e.get [l, k] * (densityArray a err i).get [k, q])) =
          F.get [y, l] * delta l q := by
        intro l hl
        rw [← Finset.mul_sum, e3 l (Finset.mem_range.1 hl) q hq]
        rfl
      rw [Finset.sum_congr rfl e6, sum_delta_right hq fun l => F.get [y, l]]

end Mctdh
