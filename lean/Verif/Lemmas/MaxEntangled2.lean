import Verif.Lemmas.MaxEntangled
import Verif.Lemmas.Autocomplete4
import Verif.Model.MaxEntangled
import Verif.Spec.MaxEntangled
import Verif.Props.C18
import Mathlib.Logic.Equiv.Fin.Basic

/-!
Lemmas for C108: the array of a tensor with a pair of leaves.
-/

open Py
open scoped BigOperators

namespace ML

open Heap Davidson

theorem maxVec_dot {n : ℕ} (hn : 0 < n) : Davidson.dot (maxVec n) (maxVec n) = 1 := by
  unfold Davidson.dot
  rw [← finProdFinEquiv.sum_comp, Fintype.sum_prod_type]
  have : ∀ (a b : Fin n), maxVec n (finProdFinEquiv (a, b)) * maxVec n (finProdFinEquiv (a, b)) = if a = b then 1 / (n : ℝ) else 0 := by
    intro a b
    have e1 : (finProdFinEquiv (a, b)).1 / n = a.1 := by
      show (b.1 + n * a.1) / n = a.1
      rw [Nat.add_mul_div_left _ _ hn, Nat.div_eq_of_lt b.2, zero_add]
    have e2 : (finProdFinEquiv (a, b)).1 % n = b.1 := by
      show (b.1 + n * a.1) % n = b.1
      rw [Nat.add_mul_mod_self_left, Nat.mod_eq_of_lt b.2]
    unfold maxVec
    rw [e1, e2]
    by_cases h : a = b
    · subst h
      rw [if_pos rfl, if_pos rfl, div_mul_div_comm, one_mul, Real.mul_self_sqrt (Nat.cast_nonneg n)]
    · rw [if_neg (fun q => h (Fin.ext q)), if_neg h, mul_zero]
  simp only [this, Finset.sum_ite_eq, Finset.mem_univ, if_true, Finset.sum_const, Finset.card_univ, Fintype.card_fin, nsmul_eq_mul]
  have : (n : ℝ) ≠ 0 := Nat.cast_ne_zero.2 (by omega)
  field_simp

theorem padRows_length {N m : ℕ} {pad : List (Vec N)} (h : padRows N m = .ok pad) : pad.length = m := by
  unfold padRows at h
  have gen : ∀ (l : List ℕ) (pad : List (Vec N)), l.mapM (fun j =>
      if j < N then (.ok (fun i => if i.1 = j then 1 else 0 : Vec N) : Res (Vec N)) else .error .indexError) = .ok pad → pad.length = l.length := by
    intro l
    induction l with
    | nil => intro pad h; cases h; rfl
    | cons a l ih =>
      intro pad h
      rw [List.mapM_cons] at h
      obtain ⟨x, -, h⟩ := bind_eq_ok.mp h
      obtain ⟨xs, hx, h⟩ := bind_eq_ok.mp h
      cases h
      simp [ih xs hx]
  simpa using gen _ _ h

theorem fitRows_ok {N m : ℕ} {v : Vec N} {rest rows : List (Vec N)} (hm : 0 < m) (h : fitRows m (v :: rest) = .ok rows) :
    rows.length = m ∧ ∃ rest', rows = v :: rest' := by
  unfold fitRows at h
  split at h
  · rename_i hl
    cases h
    obtain ⟨k, rfl⟩ : ∃ k, m = k + 1 := ⟨m - 1, by omega⟩
    exact ⟨by rw [List.length_take]; omega, rest.take k, rfl⟩
  · obtain ⟨pad, -, h⟩ := bind_eq_ok.mp h
    dsimp only at h
    split at h
    · rename_i hl
      cases h
      exact ⟨hl, _, rfl⟩
    · cases h

/-- The first row is the maximally entangled state of the pair. -/
theorem pairRows_ok {cfg : Davidson.Config} {lib : ∀ N, Lib N} {n m : ℕ} {a : Nd ℝ} {rows : List (Vec (n * n))} (h1 : OrthOk (lib (n * n)).orth)
    (h2 : EighOk (lib (n * n)).eigh) (hc : 0 < cfg.maxCycle) (hn : 0 < n) (hm : 0 < m) (h : pairRows cfg lib n m a = .ok rows) :
    rows.length = m ∧ ∃ rest, rows = maxVec n :: rest := by
  unfold pairRows at h
  obtain ⟨A, -, h⟩ := bind_eq_ok.mp h
  obtain ⟨vecs, hv, h⟩ := bind_eq_ok.mp h
  obtain ⟨rest, rfl⟩ := search_head h1 h2 (maxVec_dot hn) (by omega) hc hv
  obtain ⟨rows', hf, h⟩ := bind_eq_ok.mp h
  obtain ⟨g1, g2, rfl⟩ := fitRows_ok hm hf
  dsimp only at h
  split at h
  · cases h
    exact ⟨g1, _, rfl⟩
  · cases h

theorem pairTensor_get {n : ℕ} (rows : List (Vec (n * n))) {z i j : ℕ} (hz : z < rows.length) (hi : i < n) (hj : j < n) :
    ∃ hk : i * n + j < n * n, (pairTensor n rows).get [z, i, j] = rows.getD z 0 ⟨i * n + j, hk⟩ := by
  have hk : i * n + j < n * n := by
    calc i * n + j < i * n + n := by omega
      _ = (i + 1) * n := by ring
      _ ≤ n * n := Nat.mul_le_mul_right _ (by omega)
  refine ⟨hk, ?_⟩
  unfold pairTensor
  rw [Nd.get_ofFn _ (by simp [Valid, hz, hi, hj])]
  simp only [List.getD_cons_zero, List.getD_cons_succ]
  rw [dif_pos hk]

theorem maxVec_get {n i j : ℕ} (hj : j < n) (hk : i * n + j < n * n) : maxVec n ⟨i * n + j, hk⟩ = if i = j then 1 / Real.sqrt n else 0 := by
  have hn : 0 < n := by omega
  unfold maxVec
  have e1 : (i * n + j) / n = i := by rw [mul_comm, Nat.mul_add_div hn, Nat.div_eq_of_lt hj, add_zero]
  have e2 : (i * n + j) % n = j := by rw [mul_comm, Nat.mul_add_mod, Nat.mod_eq_of_lt hj]
  simp only [e1, e2]

/-! ### Normalisation -/

theorem cdot_self_zero {n : ℕ} {u : ℕ → ℝ} (h : cdot n u u = 0) {q : ℕ} (hq : q < n) : u q = 0 := by
  unfold cdot at h
  have := (Finset.sum_eq_zero_iff_of_nonneg fun p _ => by show 0 ≤ u p * u p; exact mul_self_nonneg _).1 h q (Finset.mem_range.2 hq)
  exact mul_self_eq_zero.1 this

theorem cdot_comm (n : ℕ) (u v : ℕ → ℝ) : cdot n u v = cdot n v u := by
  unfold cdot
  exact Finset.sum_congr rfl fun p _ => by show u p * v p = v p * u p; ring

/-- What is orthogonal to the vectors so far stays so, and the others become so, if their norms are 0 or 1. -/
theorem orthogonalize_all (n : ℕ) {U : ℕ → ℕ → ℝ} {e : ℕ → ℝ} {k : ℕ} (ho : ∀ i < k, ∀ j < k, cdot n (U i) (U j) = if i = j then e i else 0)
    (he : ∀ i < k, e i = 0 ∨ e i = 1) (v : ℕ → ℝ) : ∀ m ≤ k, ∀ i < m, cdot n (U i) (orthogonalize n ((List.range m).map U) v) = 0 := by
  intro m hm
  induction m with
  | zero => intro i hi; omega
  | succ m ih =>
    intro i hi
    have hstep : orthogonalize n ((List.range (m + 1)).map U) v = fun q => orthogonalize n ((List.range m).map U) v q -
        U m q * cdot n (U m) (orthogonalize n ((List.range m).map U) v) := by
      unfold orthogonalize
      rw [List.range_succ, List.map_append, List.foldl_append]
      rfl
    rw [hstep, cdot_sub_right, ho i (by omega) m (by omega)]
    by_cases h : i = m
    · subst h
      rw [if_pos rfl]
      rcases he i (by omega) with q | q
      · have h0 : cdot n (U i) (U i) = 0 := by rw [ho i (by omega) i (by omega), if_pos rfl, q]
        have : cdot n (U i) (orthogonalize n ((List.range i).map U) v) = 0 := by
          unfold cdot
          refine Finset.sum_eq_zero fun p hp => ?_
          rw [cdot_self_zero h0 (Finset.mem_range.1 hp), star_zero, zero_mul]
        rw [this, q]; ring
      · rw [q]; ring
    · rw [if_neg h, ih (by omega) i (by omega)]; ring

theorem orthogonalize_null (n : ℕ) {q : ℕ} (L : List (ℕ → ℝ)) : (∀ u ∈ L, u q = 0) → ∀ v : ℕ → ℝ, v q = 0 → orthogonalize n L v q = 0 := by
  unfold orthogonalize
  induction L with
  | nil => exact fun _ v hv => hv
  | cons u L ih =>
    intro hL v hv
    rw [List.foldl_cons]
    refine ih (fun w hw => hL w (by simp [hw])) _ ?_
    rw [hv, hL u (by simp)]
    ring

/-- A coordinate that vanishes in all vectors does so after orthonormalisation. -/
theorem gramSchmidt_null (n : ℕ) {q : ℕ} (v : ℕ → ℕ → ℝ) (k : ℕ) (h : ∀ i < k, v i q = 0) :
    ∀ u ∈ (gramSchmidt Real.sqrt n ((List.range k).map v)).1, u q = 0 := by
  induction k with
  | zero => intro u hu; exact (List.not_mem_nil hu).elim
  | succ k ih =>
    have ih := ih fun i hi => h i (by omega)
    have hgs : (gramSchmidt Real.sqrt n ((List.range (k + 1)).map v)).1 = (gramSchmidt Real.sqrt n ((List.range k).map v)).1 ++
        [fun p => orthogonalize n (gramSchmidt Real.sqrt n ((List.range k).map v)).1 (v k) p /
          Real.sqrt (cdot n (orthogonalize n (gramSchmidt Real.sqrt n ((List.range k).map v)).1 (v k))
            (orthogonalize n (gramSchmidt Real.sqrt n ((List.range k).map v)).1 (v k)))] := by
      unfold gramSchmidt
      rw [List.range_succ, List.map_append, List.foldl_append]
      rfl
    rw [hgs]
    intro u hu
    rcases List.mem_append.1 hu with a | a
    · exact ih u a
    · rw [List.mem_singleton.1 a]
      beta_reduce
      rw [orthogonalize_null n _ ih _ (h k (by omega)), zero_div]

theorem gramSchmidt_shape (n : ℕ) (v : ℕ → ℕ → ℝ) (k : ℕ) : ∃ (U : ℕ → ℕ → ℝ) (e : ℕ → ℝ),
    (gramSchmidt Real.sqrt n ((List.range k).map v)).1 = (List.range k).map U ∧
      (0 < k → U 0 = fun q => v 0 q / Real.sqrt (cdot n (v 0) (v 0))) ∧ (∀ i < k, e i = 0 ∨ e i = 1) ∧
      ∀ i < k, ∀ j < k, cdot n (U i) (U j) = if i = j then e i else 0 := by
  induction k with
  | zero => exact ⟨v, fun _ => 0, rfl, fun h => by omega, fun i hi => by omega, fun i hi => by omega⟩
  | succ k ih =>
    obtain ⟨U, e, u1, u2, u3, u4⟩ := ih
    set w := orthogonalize n (gramSchmidt Real.sqrt n ((List.range k).map v)).1 (v k) with hw
    have hw' : w = orthogonalize n ((List.range k).map U) (v k) := by rw [hw, u1]
    set W : ℕ → ℝ := fun q => w q / Real.sqrt (cdot n w w) with hW
    have hor : ∀ i < k, cdot n (U i) W = 0 := fun i hi => by
      rw [hW, cdot_div_right, hw', orthogonalize_all n u4 u3 (v k) k (le_refl _) i hi, zero_div]
    have hself : cdot n W W = 0 ∨ cdot n W W = 1 := by
      have hnn : 0 ≤ cdot n w w := Finset.sum_nonneg fun p _ => by show 0 ≤ w p * w p; exact mul_self_nonneg _
      have : cdot n W W = cdot n w w / (Real.sqrt (cdot n w w) * Real.sqrt (cdot n w w)) := by
        rw [hW, cdot_div_right, cdot_comm, cdot_div_right, div_div]
      rw [this, Real.mul_self_sqrt hnn]
      by_cases h : cdot n w w = 0
      · left; rw [h, div_zero]
      · right; exact div_self h
    refine ⟨fun i => if i < k then U i else W, fun i => if i < k then e i else cdot n W W, ?_, fun _ => ?_, fun i hi => ?_, fun i hi j hj => ?_⟩
    · have hgs : (gramSchmidt Real.sqrt n ((List.range (k + 1)).map v)).1 =
          (gramSchmidt Real.sqrt n ((List.range k).map v)).1 ++ [W] := by
        unfold gramSchmidt
        rw [List.range_succ, List.map_append, List.foldl_append]
        rfl
      rw [hgs, u1, List.range_succ, List.map_append]
      congr 1
      · refine List.map_congr_left fun i hi => ?_
        rw [if_pos (List.mem_range.1 hi)]
      · simp
    · rcases Nat.eq_zero_or_pos k with rfl | hk
      · show (if 0 < 0 then U 0 else W) = _
        rw [if_neg (by omega)]
        rfl
      · show (if 0 < k then U 0 else W) = _
        rw [if_pos hk]
        exact u2 hk
    · beta_reduce
      split
      · exact u3 i (by assumption)
      · exact hself
    · beta_reduce
      by_cases h1 : i < k <;> by_cases h2 : j < k
      · rw [if_pos h1, if_pos h2, if_pos h1, u4 i h1 j h2]
      · rw [if_pos h1, if_neg h2, if_neg (by omega), hor i h1]
      · rw [if_neg h1, if_pos h2, if_neg (by omega), cdot_comm, hor j h2]
      · rw [if_neg h1, if_neg h2, if_pos (by omega), if_neg h1]

/-- The products of the slices of an array along axis 0. -/
noncomputable def gram (A : Nd ℝ) (z w : ℕ) : ℝ :=
  sumIdx (A.shape.eraseIdx 0) (fun p => A.get (p.insertIdx 0 z) * star (A.get (p.insertIdx 0 w)))

/-- Normalising a tensor along axis 0 does not change its first slice, if that has norm 1. The slices become orthogonal, with norms 0 or 1. -/
theorem normalize_first {A : Nd ℝ} (hax : 0 < A.ndim) (hpos : ∀ d ∈ A.shape, 0 < d) (h1 : gram A 0 0 = 1) :
    ∃ B norms, ∃ e : ℕ → ℝ, normalizeArray Real.sqrt A 0 = .ok (B, norms) ∧ B.Wf ∧ B.shape = A.shape ∧
      (∀ p, Valid (A.shape.eraseIdx 0) p → B.get (p.insertIdx 0 0) = A.get (p.insertIdx 0 0)) ∧
      (∀ z < A.shape.getD 0 1, e z = 0 ∨ e z = 1) ∧
      (∀ z < A.shape.getD 0 1, ∀ w < A.shape.getD 0 1, gram B z w = if z = w then e z else 0) ∧
      ((∀ z < A.shape.getD 0 1, ∀ w < A.shape.getD 0 1, gram A z w = if z = w then 1 else 0) → ∀ z < A.shape.getD 0 1, e z = 1) ∧
      ∀ p, Valid (A.shape.eraseIdx 0) p → (∀ z < A.shape.getD 0 1, A.get (p.insertIdx 0 z) = 0) →
        ∀ z < A.shape.getD 0 1, B.get (p.insertIdx 0 z) = 0 := by
  obtain ⟨v, v1, v2⟩ := normalizeArray_spec Real.sqrt hax hpos
  have hd : 0 < A.shape.getD 0 1 := by
    have hax' : 0 < A.shape.length := hax
    rw [List.getD_eq_getElem _ _ hax']
    exact hpos _ (List.getElem_mem _)
  obtain ⟨U, e, u1, u2, u3, u4⟩ := gramSchmidt_shape (A.shape.eraseIdx 0).prod v (A.shape.getD 0 1)
  obtain ⟨B, norms, b1, b2, b3, b4⟩ := v2 U u1
  have hcd : ∀ z < A.shape.getD 0 1, ∀ w < A.shape.getD 0 1, cdot (A.shape.eraseIdx 0).prod (v z) (v w) = gram A z w := by
    intro z hz w hw
    unfold gram
    rw [sumIdx_eq_sum_range]
    unfold cdot
    refine Finset.sum_congr rfl fun q hq => ?_
    rw [v1 z hz q (Finset.mem_range.1 hq), v1 w hw q (Finset.mem_range.1 hq)]
    rfl
  have hcB : ∀ z < A.shape.getD 0 1, ∀ w < A.shape.getD 0 1, gram B z w = cdot (A.shape.eraseIdx 0).prod (U z) (U w) := by
    intro z hz w hw
    unfold gram
    rw [b3, sumIdx_eq_sum_range]
    unfold cdot
    refine Finset.sum_congr rfl fun q hq => ?_
    rw [b4 z hz q (Finset.mem_range.1 hq), b4 w hw q (Finset.mem_range.1 hq)]
    rfl
  refine ⟨B, norms, e, b1, b2, b3, fun p hp => ?_, u3, fun z hz w hw => by rw [hcB z hz w hw, u4 z hz w hw], fun ho z hz => ?_, fun p hp h0 z hz => ?_⟩
  · have := b4 0 hd _ (ravel_lt hp)
    rw [unravel_ravel hp, u2 hd, hcd 0 hd 0 hd, h1, Real.sqrt_one] at this
    rw [this]
    show v 0 _ / 1 = _
    rw [div_one, v1 0 hd _ (ravel_lt hp), unravel_ravel hp]
  · have hg := gramSchmidt_orthonormal (sqrt := Real.sqrt) Real.sqrt_one (A.shape.eraseIdx 0).prod (v := v) (k := A.shape.getD 0 1)
      fun i hi j hj => by rw [hcd i hi j hj, ho i hi j hj]
    rw [u1] at hg
    have hz' : U z = v z := List.map_inj_left.1 hg z (List.mem_range.2 hz)
    have := u4 z hz z hz
    rw [if_pos rfl, hz', hcd z hz z hz, ho z hz z hz, if_pos rfl] at this
    exact this.symm
  · have hb := b4 z hz _ (ravel_lt hp)
    rw [unravel_ravel hp] at hb
    rw [hb]
    refine gramSchmidt_null (A.shape.eraseIdx 0).prod v (A.shape.getD 0 1) (fun i hi => ?_) (U z) (by rw [u1]; exact List.mem_map.2 ⟨z, List.mem_range.2 hz, rfl⟩)
    rw [v1 i hi _ (ravel_lt hp), unravel_ravel hp]
    exact h0 i hi

/-- The matrix that `local_norm` returns for a tensor with orthogonal slices of norm 0 or 1. -/
theorem localNorm_gram {h : Heap ℝ} {t : ℕ} {B : Nd ℝ} (hB : h.array t = some B) (hk : 0 < B.ndim) (hpos : ∀ d ∈ B.shape, 0 < d) {e : ℕ → ℝ}
    (he : ∀ z < B.shape.getD 0 1, e z = 0 ∨ e z = 1)
    (hg : ∀ z < B.shape.getD 0 1, ∀ w < B.shape.getD 0 1, gram B z w = if z = w then e z else 0) :
    ∃ N : Nd ℝ, localNorm Real.sqrt h t 0 = .ok (h.setAux t (some B.conj), N) ∧ N.Wf ∧ N.shape = [B.shape.getD 0 1, B.shape.getD 0 1] ∧
      ∀ z < B.shape.getD 0 1, ∀ w < B.shape.getD 0 1, N.get [z, w] = if z = w then e z else 0 := by
  have hd : B.shape.getD 0 1 ≠ 0 := by
    have hk' : 0 < B.shape.length := hk
    rw [List.getD_eq_getElem _ _ hk']
    exact (hpos _ (List.getElem_mem _)).ne'
  obtain ⟨m, m1, m2, m3, m4⟩ := Tensor.partialTrace_spec B B.conj (i := 0) (j := 0) hk hk rfl hd hd
  refine ⟨⟨m.shape, m.data.map Real.sqrt⟩, ?_, ?_, by rw [m3]; rfl, fun z hz w hw => ?_⟩
  · unfold localNorm
    rw [hB]
    simp only [m1, ok_bind, pure_eq_ok]
  · unfold Nd.Wf at m2 ⊢; simpa using m2
  · rw [map_get Real.sqrt_zero]
    have : (⟨m.shape, m.data⟩ : Nd ℝ).get [z, w] = gram B z w := by
      change m.get [z, w] = _
      rw [m4 z w hz hw]
      exact sumIdx_congr fun q _ => by rw [conj_get]
    rw [this, hg z hz w hw]
    split
    · rcases he z hz with q | q <;> rw [q] <;> simp
    · exact Real.sqrt_zero

theorem pairTensor_pos {n : ℕ} {rows : List (Vec (n * n))} (hn : 0 < n) (hr : 0 < rows.length) : ∀ d ∈ (pairTensor n rows).shape, 0 < d := by
  show ∀ d ∈ [rows.length, n, n], 0 < d
  simp [hn, hr]

theorem pairTensor_first {n : ℕ} {rest : List (Vec (n * n))} {i j : ℕ} (hi : i < n) (hj : j < n) :
    (pairTensor n (maxVec n :: rest)).get [0, i, j] = if i = j then 1 / Real.sqrt n else 0 := by
  obtain ⟨hk, e⟩ := pairTensor_get (maxVec n :: rest) (z := 0) (by simp) hi hj
  rw [e, List.getD_cons_zero, maxVec_get hj]

theorem pairTensor_norm {n : ℕ} (hn : 0 < n) {rest : List (Vec (n * n))} :
    gram (pairTensor n (maxVec n :: rest)) 0 0 = 1 := by
  show sumIdx [n, n] (fun p => (pairTensor n (maxVec n :: rest)).get (p.insertIdx 0 0) * (pairTensor n (maxVec n :: rest)).get (p.insertIdx 0 0)) = 1
  have : ∀ i < n, ∀ j < n, (pairTensor n (maxVec n :: rest)).get ([i, j].insertIdx 0 0) * (pairTensor n (maxVec n :: rest)).get ([i, j].insertIdx 0 0) =
      if i = j then 1 / (n : ℝ) else 0 := by
    intro i hi j hj
    show (pairTensor n (maxVec n :: rest)).get [0, i, j] * (pairTensor n (maxVec n :: rest)).get [0, i, j] = _
    rw [pairTensor_first hi hj]
    split
    · rw [div_mul_div_comm, one_mul, Real.mul_self_sqrt (Nat.cast_nonneg n)]
    · rw [mul_zero]
  simp only [sumIdx]
  rw [Finset.sum_congr rfl fun i hi => Finset.sum_congr rfl fun j hj => this i (Finset.mem_range.1 hi) j (Finset.mem_range.1 hj)]
  rw [Finset.sum_congr rfl (g := fun _ => 1 / (n : ℝ)) fun i hi => by rw [Finset.sum_ite_eq, if_pos hi]]
  rw [Finset.sum_const, Finset.card_range, nsmul_eq_mul]
  have : (n : ℝ) ≠ 0 := Nat.cast_ne_zero.2 (by omega)
  field_simp

/-- The slices of the tensor are the rows. -/
theorem pairTensor_gram {n : ℕ} (rows : List (Vec (n * n))) {z w : ℕ} (hz : z < rows.length) (hw : w < rows.length) :
    gram (pairTensor n rows) z w = Davidson.dot (rows.getD z 0) (rows.getD w 0) := by
  rcases Nat.eq_zero_or_pos n with rfl | hn
  · show sumIdx [0, 0] _ = _
    unfold Davidson.dot
    simp [sumIdx]
  unfold gram Davidson.dot
  show sumIdx [n, n] (fun p => (pairTensor n rows).get (p.insertIdx 0 z) * (pairTensor n rows).get (p.insertIdx 0 w)) = _
  rw [← finProdFinEquiv.sum_comp, Fintype.sum_prod_type]
  simp only [sumIdx]
  rw [Finset.sum_range]
  refine Finset.sum_congr rfl fun i _ => ?_
  rw [Finset.sum_range]
  refine Finset.sum_congr rfl fun j _ => ?_
  obtain ⟨h1, e1⟩ := pairTensor_get rows hz i.2 j.2
  obtain ⟨h2, e2⟩ := pairTensor_get rows hw i.2 j.2
  show (pairTensor n rows).get [z, i, j] * (pairTensor n rows).get [w, i, j] = _
  have hf : finProdFinEquiv (i, j) = ⟨i * n + j, h1⟩ := by
    apply Fin.ext
    show j.1 + n * i.1 = i.1 * n + j.1
    ring
  rw [e1, e2, hf]

/-! ### One tensor -/

/-- What the array of a tensor with a pair of leaves is to be. -/
def PairDone (want : ℕ × ℕ → ℕ) (t : ℕ) (B : Nd ℝ) : Prop :=
  B.Wf ∧ B.shape = [want (t, 0), want (t, 1), want (t, 1)] ∧
    (∀ i < want (t, 1), ∀ j < want (t, 1), B.get [0, i, j] = if i = j then 1 / Real.sqrt (want (t, 1)) else 0) ∧
    ∀ z < want (t, 0), ∀ w < want (t, 0), gram B z w = if z = w then 1 else 0

theorem finish_eval {rank : Nd ℝ → ℕ} (hr : RankOk rank) (h : Heap ℝ) {t n : ℕ} {rest : List (Vec (n * n))} (hn : 0 < n)
    (hax : (h.node t).axis = some 0) : ∃ (B : Nd ℝ) (e : ℕ → ℝ) (h' : Heap ℝ),
      h'.next = h.next ∧ (∀ u, u ≠ t → h'.node u = h.node u) ∧ shell (h'.node t) = shell (h.node t) ∧ h'.array t = some B ∧
      B.Wf ∧ B.shape = [rest.length + 1, n, n] ∧
      (∀ i < n, ∀ j < n, B.get [0, i, j] = if i = j then 1 / Real.sqrt n else 0) ∧
      (∀ z < rest.length + 1, ∀ w < rest.length + 1, gram B z w = if z = w then e z else 0) ∧
      (∀ h'', finishOne Real.sqrt rank h t (pairTensor n (maxVec n :: rest)) = .ok h'' → h'' = h' ∧ ∀ z < rest.length + 1, e z = 1) ∧
      ((∀ z < rest.length + 1, ∀ w < rest.length + 1,
        Davidson.dot ((maxVec n :: rest).getD z 0) ((maxVec n :: rest).getD w 0) = if z = w then 1 else 0) →
        finishOne Real.sqrt rank h t (pairTensor n (maxVec n :: rest)) = .ok h') ∧
      ∀ i < n, ∀ j < n, (∀ z < rest.length + 1, (pairTensor n (maxVec n :: rest)).get [z, i, j] = 0) →
        ∀ z < rest.length + 1, B.get [z, i, j] = 0 := by
  have hA2 : ∀ z < rest.length + 1, ∀ w < rest.length + 1, gram (pairTensor n (maxVec n :: rest)) z w =
      Davidson.dot ((maxVec n :: rest).getD z 0) ((maxVec n :: rest).getD w 0) := fun z hz w hw =>
    pairTensor_gram _ (by simpa using hz) (by simpa using hw)
  have hA1 : ∀ i < n, ∀ j < n, (pairTensor n (maxVec n :: rest)).get [0, i, j] = if i = j then 1 / Real.sqrt n else 0 := fun i hi j hj =>
    pairTensor_first hi hj
  have hA3 : gram (pairTensor n (maxVec n :: rest)) 0 0 = 1 := pairTensor_norm hn
  have hA4 := pairTensor_pos (rows := maxVec n :: rest) hn (by simp)
  have hsh : (pairTensor n (maxVec n :: rest)).shape = [rest.length + 1, n, n] := rfl
  generalize pairTensor n (maxVec n :: rest) = A at *
  obtain ⟨B, norms, e, b1, b2, b3, b4, b5, b6, b7, b8⟩ := normalize_first (A := A) (by unfold Nd.ndim; rw [hsh]; simp) hA4 hA3
  rw [hsh] at b3 b4 b5 b6 b7 b8
  simp only [List.getD_cons_zero] at b5 b6 b7 b8
  have hnode : (h.setArray t (some A)).node t = { h.node t with array := some A } := by
    unfold setArray Heap.upd; simp
  have hN : normalize Real.sqrt (h.setArray t (some A)) t true = .ok ((h.setArray t (some A)).setArray t (some B), some norms) := by
    unfold normalize
    rw [show (h.setArray t (some A)).array t = some A by unfold array; rw [hnode]]
    simp only [hnode]
    rw [if_neg (by simp), hax]
    simp only
    rw [if_neg (by unfold Nd.ndim; rw [hsh]; simp), b1]
    rfl
  set h1 := (h.setArray t (some A)).setArray t (some B) with hh1
  have hn1 : h1.node t = { h.node t with array := some B } := by
    rw [hh1]; unfold setArray Heap.upd; simp
  have hu1 : ∀ u, u ≠ t → h1.node u = h.node u := fun u hu => by
    rw [hh1]; unfold setArray Heap.upd; simp [hu]
  have hB1 : h1.array t = some B := by unfold array; rw [hn1]
  obtain ⟨N, n1, n2, n3, n4⟩ := localNorm_gram hB1 (by unfold Nd.ndim; rw [b3]; simp) (by rw [b3, ← hsh]; exact hA4) (e := e)
    (by rw [b3]; exact b5) (by rw [b3]; exact b6)
  rw [b3] at n3 n4
  simp only [List.getD_cons_zero] at n3 n4
  set h2 := h1.setAux t (some B.conj) with hh2
  have hn2 : h2.node t = { h.node t with array := some B, aux := some B.conj } := by
    rw [hh2]; unfold setAux Heap.upd; simp [hn1]
  have hB2 : h2.array t = some B := by unfold array; rw [hn2]
  have heval : finishOne Real.sqrt rank h t A = if rank N = rest.length + 1 then .ok h2 else .error .assertionError := by
    unfold finishOne
    dsimp only
    rw [hN]
    simp only [ok_bind]
    rw [hn1]
    simp only [hax]
    rw [n1]
    simp only [ok_bind]
    have : h2.shapeAt t 0 = .ok (rest.length + 1) := by
      unfold shapeAt
      rw [hB2]
      simp only [b3, List.getElem?_cons_zero]
    rw [this, ok_bind]
    rfl
  refine ⟨B, e, h2, rfl, fun u hu => ?_, by rw [hn2]; rfl, hB2, b2, b3, fun i hi j hj => ?_, b6, fun h'' hf => ?_, fun ho => ?_,
    fun i hi j hj h0 => b8 [i, j] (by simp [Valid, hi, hj]) h0⟩
  · rw [hh2]
    unfold setAux Heap.upd
    simp [hu, hu1 u hu]
  · have := b4 [i, j] (by simp [Valid, hi, hj])
    exact this.trans (hA1 i hi j hj)
  · rw [heval] at hf
    split at hf
    · rename_i hrk
      cases hf
      refine ⟨rfl, fun z hz => ?_⟩
      obtain ⟨w, hw, hne⟩ := hr.row N _ n3 hrk z hz
      rw [n4 z hz w hw] at hne
      split at hne
      · rcases b5 z hz with q | q
        · exact absurd q hne
        · exact q
      · exact absurd rfl hne
    · cases hf
  · have he := b7 fun z hz w hw => by rw [hA2 z hz w hw, ho z hz w hw]
    have hNi : N = identity (rest.length + 1) := by
      refine Nd.ext_get n2 (Nd.ofFn_wf _ _) (by rw [n3]; rfl) fun p hp => ?_
      rw [n3] at hp
      rw [identity, Nd.get_ofFn _ hp]
      obtain ⟨x, p', rfl, hx, hv'⟩ := valid_cons_iff.1 hp
      obtain ⟨y, p'', rfl, hy, hv''⟩ := valid_cons_iff.1 hv'
      rw [valid_nil_iff] at hv''
      subst hv''
      rw [n4 x hx y hy]
      simp only [List.getD_cons_zero, List.getD_cons_succ]
      split
      · rw [he x hx]
      · rfl
    rw [heval, hNi, hr.id, if_pos rfl]

end ML
