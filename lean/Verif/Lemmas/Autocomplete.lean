import Verif.Model.Autocomplete
import Verif.Spec.Autocomplete
import Verif.Lemmas.Normalize
import Verif.Lemmas.Env2
import Verif.Lemmas.Overlap
import Verif.Props.C22

/-!
Lemmas about `autocomplete`.
-/

open scoped BigOperators
open Py

namespace Triangular

/-- The first `n` columns: different, in range, starting with 0. -/
theorem cols_spec {nl : List ℕ} (hp : nl.prod ≠ 0) : ∃ c : ℕ → ℕ, c 0 = 0 ∧ (∀ z < nl.prod, (triangular nl)[z]? = some (c z) ∧ c z < nl.prod) ∧
    ∀ z < nl.prod, ∀ w < nl.prod, c z = c w → z = w := by
  have hperm := C22_permutation nl
  have hlen : (triangular nl).length = nl.prod := by rw [hperm.length_eq, List.length_range]
  have hnd : (triangular nl).Nodup := hperm.nodup_iff.2 List.nodup_range
  refine ⟨fun z => (triangular nl).getD z 0, ?_, fun z hz => ?_, fun z hz w hw e => ?_⟩ <;> beta_reduce at *
  · have := C22_first hp
    rw [List.head?_eq_getElem?] at this
    simp [List.getD_eq_getElem?_getD, this]
  · have hz' : z < (triangular nl).length := by omega
    refine ⟨by rw [List.getElem?_eq_getElem hz', List.getD_eq_getElem _ _ hz'], ?_⟩
    rw [List.getD_eq_getElem _ _ hz']
    exact List.mem_range.1 (hperm.mem_iff.1 (List.getElem_mem hz'))
  · rw [List.getD_eq_getElem _ _ (by omega), List.getD_eq_getElem _ _ (by omega)] at e
    exact (hnd.getElem_inj_iff).1 e

end Triangular

namespace Heap

section
variable {R : Type}

theorem mapM_ok {α β : Type} {f : α → Res β} {g : α → β} {l : List α} (h : ∀ x ∈ l, f x = .ok (g x)) :
    l.mapM f = .ok (l.map g) := by
  induction l with
  | nil => rfl
  | cons a l ih =>
    rw [List.mapM_cons, h a (by simp), ok_bind, ih fun x hx => h x (by simp [hx]), ok_bind]; rfl

theorem children_edges {h : Heap R} {F : Forest} (hr : F.RepIn h) {a : ℕ} {e : ℕ × ℕ × ℕ × ℕ} (he : e ∈ F.edges a)
    {x : ℕ × ℕ × ℕ} (hx : x ∈ h.children e.2.2.1 (some e.2.2.2) true) : (e.2.2.1, x.1, x.2.1, x.2.2) ∈ F.edges a := by
  induction F generalizing a with
  | nil => simp [Forest.edges] at he
  | cons i j id sub rest ih1 ih2 =>
    obtain ⟨r1, r2, r3⟩ := hr
    simp only [Forest.edges, List.cons_append, List.mem_cons, List.mem_append] at he ⊢
    rcases he with rfl | he | he
    · simp only at hx
      rw [r1] at hx
      exact .inr (.inl (heads_edges hx))
    · exact .inr (.inl (ih1 r2 he))
    · exact .inr (.inr (ih2 r3 he))

theorem range_filter_ne (n k : ℕ) : ((List.range n).filter fun i => decide (i ≠ k)) = (List.range n).eraseIdx k := by
  have h1 := (List.nodup_range (n := n)).erase_eq_filter k
  have : ((List.range n).filter fun i => decide (i ≠ k)) = (List.range n).erase k := by
    rw [h1]; congr 1; funext i; by_cases h : i = k <;> simp [h]
  rw [this]
  by_cases hk : k < n
  · rw [List.erase_eq_eraseIdx_of_idxOf]
    have h2 := List.Nodup.idxOf_getElem (List.nodup_range (n := n)) k (by simpa using hk)
    simpa using h2
  · rw [List.erase_of_not_mem (by simpa using hk), List.eraseIdx_of_length_le (by simpa using hk)]

end

variable {R : Type} [Field R] [StarRing R]

/-- The slices of `A` along axis `k` are the unit vectors with number `c 0`, `c 1`, … -/
def Pick (A : Nd R) (k : ℕ) (c : ℕ → ℕ) : Prop :=
  ∀ z < A.shape.getD k 1, ∀ p, Valid (A.shape.eraseIdx k) p →
    A.get (p.insertIdx k z) = if c z = ravel (A.shape.eraseIdx k) p then 1 else 0

theorem unitRows_ok {np w : ℕ} {cols : List ℕ} (h : ∀ c ∈ cols.take np, c < w) :
    ∃ U : Nd R, unitRows np w cols = .ok U ∧ U.Wf ∧ U.shape = [np, w] ∧
      ∀ z < np, ∀ q < w, U.get [z, q] = if cols[z]? = some q then 1 else 0 := by
  refine ⟨_, if_pos h, Nd.ofFn_wf _ _, rfl, fun z hz q hq => ?_⟩
  rw [Nd.get_ofFn _ (valid2 hz hq)]
  rfl

theorem take_cols_lt {sh : List ℕ} (np : ℕ) : ∀ c ∈ (Triangular.triangular sh).take np, c < sh.prod := fun c hc =>
  List.mem_range.1 ((Triangular.C22_permutation sh).mem_iff.1 (List.mem_of_mem_take hc))

theorem init_axis {D : List ℕ} {k : ℕ} (hk : k < D.length) (hpos : ∀ d ∈ D, 0 < d)
    (hle : D.getD k 1 ≤ (D.eraseIdx k).prod) : ∃ (A : Nd R) (c : ℕ → ℕ),
      (do let a ← unitRows (R := R) (D.getD k 1) (D.eraseIdx k).prod (Triangular.triangular (D.eraseIdx k))
          let a ← a.reshape (D.getD k 1 :: D.eraseIdx k)
          a.moveaxis 0 k) = .ok A ∧ A.Wf ∧ A.shape = D ∧ Pick A k c ∧ c 0 = 0 ∧
      (∀ z < D.getD k 1, c z < (D.eraseIdx k).prod) ∧ (∀ z < D.getD k 1, ∀ w < D.getD k 1, c z = c w → z = w) ∧
      ∀ z < D.getD k 1, (Triangular.triangular (D.eraseIdx k))[z]? = some (c z) := by
  set sh := D.eraseIdx k with hsh
  set np := D.getD k 1 with hnp
  have hp : sh.prod ≠ 0 := by
    have := prod_pos_of (l := sh) fun d hd => hpos d (List.mem_of_mem_eraseIdx hd)
    omega
  obtain ⟨c, c1, c2, c3⟩ := Triangular.cols_spec hp
  obtain ⟨U, u1, u2, u3, u4⟩ := unitRows_ok (R := R) (take_cols_lt (sh := sh) np)
  have hr : U.reshape (np :: sh) = .ok ⟨np :: sh, U.data⟩ := by
    unfold Nd.reshape; rw [if_pos (by simp [u3])]
  set T : Nd R := ⟨np :: sh, U.data⟩ with hT
  have hTn : T.ndim = D.length := by
    change sh.length + 1 = _
    rw [hsh, List.length_eraseIdx_of_lt hk]; omega
  have hm : T.moveaxis 0 k = .ok (T.moveaxisCore 0 k) := by
    unfold Nd.moveaxis; rw [if_pos ⟨by omega, by omega⟩]
  have hshape : (T.moveaxisCore 0 k).shape = D := by
    rw [Nd.moveaxisCore_shape]
    simp only [hT, List.eraseIdx_cons_zero, List.getD_cons_zero]
    rw [hnp, hsh]
    exact insertIdx_eraseIdx_getD hk 1
  refine ⟨T.moveaxisCore 0 k, c, by rw [u1, ok_bind, hr, ok_bind, hm], Nd.moveaxisCore_wf _ _ _, hshape, ?_, c1,
    fun z hz => (c2 z (by omega)).2, fun z hz w hw e => c3 z (by omega) w (by omega) e,
    fun z hz => (c2 z (by omega)).1⟩
  unfold Pick
  rw [hshape, ← hnp, ← hsh]
  intro z hz p hv
  rw [Nd.get_moveaxisCore_insert T (s := 0) (d := k) (x := z) (p := p) (by omega) (by omega)
      (by simpa [hT] using hv) (by simpa [hT] using hz)]
  have e1 : T.get (p.insertIdx 0 z) = U.get [z, ravel sh p] := by
    simp only [List.insertIdx_zero, Nd.get, hT, u3, ravel, List.prod_cons, List.prod_nil, mul_one, add_zero]
  rw [e1, u4 z hz _ (ravel_lt hv), (c2 z (by omega)).1]
  simp

theorem gramSchmidt_orthonormal {sqrt : R → R} (h1 : sqrt 1 = 1) (n : ℕ) {v : ℕ → ℕ → R} {k : ℕ}
    (ho : ∀ i < k, ∀ j < k, cdot n (v i) (v j) = if i = j then 1 else 0) :
    (gramSchmidt sqrt n ((List.range k).map v)).1 = (List.range k).map v := by
  induction k with
  | zero => rfl
  | succ k ih =>
    have ih' := ih fun i hi j hj => ho i (by omega) j (by omega)
    have hor : ∀ m ≤ k, orthogonalize n ((List.range m).map v) (v k) = v k := by
      intro m hm
      induction m with
      | zero => rfl
      | succ m ihm =>
        have ihm' := ihm (by omega)
        unfold orthogonalize at ihm' ⊢
        rw [List.range_succ, List.map_append, List.foldl_append, ihm']
        funext q
        simp only [List.map_cons, List.map_nil, List.foldl_cons, List.foldl_nil]
        rw [ho m (by omega) k (by omega), if_neg (by omega)]
        ring
    have hgs : (gramSchmidt sqrt n ((List.range (k + 1)).map v)).1 =
        (gramSchmidt sqrt n ((List.range k).map v)).1 ++ [fun q =>
          orthogonalize n (gramSchmidt sqrt n ((List.range k).map v)).1 (v k) q /
            sqrt (cdot n (orthogonalize n (gramSchmidt sqrt n ((List.range k).map v)).1 (v k))
              (orthogonalize n (gramSchmidt sqrt n ((List.range k).map v)).1 (v k)))] := by
      unfold gramSchmidt
      rw [List.range_succ, List.map_append, List.foldl_append]
      rfl
    rw [hgs, ih', hor k (le_refl _), ho k (by omega) k (by omega), if_pos rfl, h1, List.range_succ, List.map_append]
    congr 1
    simp

theorem Pick.orth {A : Nd R} {k : ℕ} {c : ℕ → ℕ} (hp : Pick A k c) (h1 : ∀ z < A.shape.getD k 1, c z < (A.shape.eraseIdx k).prod)
    (h2 : ∀ z < A.shape.getD k 1, ∀ w < A.shape.getD k 1, c z = c w → z = w) {z w : ℕ} (hz : z < A.shape.getD k 1)
    (hw : w < A.shape.getD k 1) :
    sumIdx (A.shape.eraseIdx k) (fun p => A.get (p.insertIdx k z) * star (A.get (p.insertIdx k w))) =
      if z = w then 1 else 0 := by
  rw [sumIdx_eq_sum_range]
  have : ∀ q ∈ Finset.range (A.shape.eraseIdx k).prod,
      A.get ((unravel (A.shape.eraseIdx k) q).insertIdx k z) * star (A.get ((unravel (A.shape.eraseIdx k) q).insertIdx k w)) =
        if q = c z then (if z = w then 1 else 0) else 0 := by
    intro q hq
    have hq' := Finset.mem_range.1 hq
    rw [hp z hz _ (valid_unravel hq'), hp w hw _ (valid_unravel hq'), ravel_unravel hq']
    by_cases e : q = c z
    · subst e
      rw [if_pos rfl, if_pos rfl, one_mul]
      by_cases e' : z = w
      · subst e'; simp
      · rw [if_neg (fun q => e' (h2 z hz w hw q.symm)), if_neg e', star_zero]
    · rw [if_neg (fun q => e q.symm), if_neg e, zero_mul]
  rw [Finset.sum_congr rfl this, Finset.sum_ite_eq', if_pos (Finset.mem_range.2 (h1 z hz))]

/-- Normalising such an array does not change it. -/
theorem normalize_pick {sqrt : R → R} (hs : sqrt 1 = 1) {A : Nd R} {k : ℕ} {c : ℕ → ℕ} (hk : k < A.ndim) (hpos : ∀ d ∈ A.shape, 0 < d)
    (hp : Pick A k c) (h1 : ∀ z < A.shape.getD k 1, c z < (A.shape.eraseIdx k).prod)
    (h2 : ∀ z < A.shape.getD k 1, ∀ w < A.shape.getD k 1, c z = c w → z = w) :
    ∃ B norms, normalizeArray sqrt A k = .ok (B, norms) ∧ B.Wf ∧ B.shape = A.shape ∧ Pick B k c := by
  obtain ⟨v, v1, v2⟩ := normalizeArray_spec sqrt hk hpos
  obtain ⟨B, norms, b1, b2, b3, b4⟩ := v2 v (gramSchmidt_orthonormal hs _ fun i hi j hj => by
    have := hp.orth h1 h2 hj hi
    rw [sumIdx_eq_sum_range] at this
    simp only [eq_comm (a := i)]
    rw [← this]
    unfold cdot
    refine Finset.sum_congr rfl fun q hq => ?_
    have hq' := Finset.mem_range.1 hq
    rw [v1 i hi q hq', v1 j hj q hq', mul_comm])
  refine ⟨B, norms, b1, b2, b3, ?_⟩
  unfold Pick
  rw [b3]
  intro z hz p hv
  have := b4 z hz _ (ravel_lt hv)
  rw [unravel_ravel hv] at this
  rw [this, v1 z hz _ (ravel_lt hv), unravel_ravel hv, hp z hz p hv]

end Heap
