import Verif.Spec.Heom
import Verif.Lemmas.Contract
import Verif.Nd.AddLemmas
import Verif.Py.Lemmas
import Mathlib.Algebra.BigOperators.Ring.Finset

/-! How the terms of the hierarchy act on the entries of an array. -/

open scoped BigOperators
open Py

namespace Heom

theorem smul_get (c : ℂ) (A : Nd ℂ) (p : List ℕ) : (Nd.smul c A).get p = c * A.get p := by
  unfold Nd.smul Nd.get
  simp only [List.getD_eq_getElem?_getD, List.getElem?_map]
  cases A.data[ravel A.shape p]? <;> simp

theorem valid_take_drop {S p : List ℕ} (h : Valid S p) (a : ℕ) : Valid (S.take a) (p.take a) ∧ Valid (S.drop a) (p.drop a) :=
  ⟨List.forall₂_take a h, List.forall₂_drop a h⟩

theorem valid_set {S p : List ℕ} (h : Valid S p) {a b : ℕ} (hb : b < S.getD a 0) : Valid S (p.set a b) := by
  induction h generalizing a with
  | nil => simp at hb
  | cons h1 h2 ih =>
    cases a with
    | zero => simpa using ⟨by simpa using hb, h2⟩
    | succ a => simpa using ⟨h1, ih (by simpa using hb)⟩

theorem split_at {p : List ℕ} {a : ℕ} (ha : a < p.length) : p.take a ++ [p.getD a 0] ++ p.drop (a + 1) = p := by
  conv_rhs => rw [← List.take_append_drop a p, List.drop_eq_getElem_cons ha]
  rw [List.getD_eq_getElem _ _ ha]
  simp

/-- A square matrix acting on one axis. -/
theorem partialProduct_mat (A M : Nd ℂ) {a n : ℕ} (ha : a < A.shape.length) (hn : A.shape.getD a 0 = n) (hM : M.shape = [n, n]) :
    ∃ c, Tensor.partialProduct A a (some M) 0 = .ok c ∧ c.Wf ∧ c.shape = A.shape ∧
      ∀ p, Valid A.shape p → c.get p = ∑ b ∈ Finset.range n, A.get (p.set a b) * M.get [b, p.getD a 0] := by
  have hn1 : A.shape.getD a 1 = n := by
    rw [List.getD_eq_getElem _ _ ha] at hn ⊢; exact hn
  obtain ⟨c, h1, h2, h3, h4⟩ := Tensor.partialProductAux_spec A M (i := a) (j := 0) ha (by simp [Nd.ndim, hM]) (by rw [hn1, hM]; rfl)
  have hsh : A.shape.take a ++ M.shape.eraseIdx 0 ++ A.shape.drop (a + 1) = A.shape := by
    rw [hM]
    have := split_at ha
    rw [hn] at this
    exact this
  refine ⟨c, h1, h2, h3.trans hsh, ?_⟩
  intro p hp
  have hl : a < p.length := by rw [hp.length_eq]; exact ha
  have hlt : p.getD a 0 < n := by
    have := hp.getD_lt (k := a) ha 0 1
    rw [hn1] at this; exact this
  have := h4 (p.take a) [p.getD a 0] (p.drop (a + 1)) (valid_take_drop hp a).1 (by rw [hM]; simpa [Valid] using hlt)
    (valid_take_drop hp (a + 1)).2
  rw [split_at hl, hn1] at this
  rw [this]
  refine Finset.sum_congr rfl fun b _ => ?_
  rw [List.set_eq_take_append_cons_drop, if_pos hl]
  rfl

/-- What a term does, on functions of the indices. -/
noncomputable def termFn (S : List ℕ) : Term → (List ℕ → ℂ) → List ℕ → ℂ
  | [], f => f
  | m :: t, f => termFn S t fun p => ∑ b ∈ Finset.range (S.getD m.1 0), f (p.set m.1 b) * m.2.get [b, p.getD m.1 0]

/-- The matrices of the term fit the axes. -/
def Fits (S : List ℕ) (t : Term) : Prop := ∀ m ∈ t, m.1 < S.length ∧ m.2.shape = [S.getD m.1 0, S.getD m.1 0]

theorem termFn_congr {S : List ℕ} (t : Term) {f g : List ℕ → ℂ} (h : ∀ p, Valid S p → f p = g p) {p : List ℕ} (hp : Valid S p) :
    termFn S t f p = termFn S t g p := by
  induction t generalizing f g with
  | nil => exact h p hp
  | cons m t ih =>
    refine ih fun q hq => Finset.sum_congr rfl fun b hb => ?_
    rw [h _ (valid_set hq (Finset.mem_range.1 hb))]

theorem applyTerm_ok {S : List ℕ} (t : Term) (hf : Fits S t) (A : Nd ℂ) (hA : A.Wf) (hs : A.shape = S) :
    ∃ c, applyTerm A t = .ok c ∧ c.Wf ∧ c.shape = S ∧ ∀ p, Valid S p → c.get p = termFn S t A.get p := by
  induction t generalizing A with
  | nil => exact ⟨A, rfl, hA, hs, fun _ _ => rfl⟩
  | cons m t ih =>
    obtain ⟨hm1, hm2⟩ := hf m (by simp)
    obtain ⟨c, h1, h2, h3, h4⟩ := partialProduct_mat A m.2 (a := m.1) (n := S.getD m.1 0) (hs ▸ hm1) (by rw [hs]) hm2
    obtain ⟨e, g1, g2, g3, g4⟩ := ih (fun x hx => hf x (by simp [hx])) c h2 (h3.trans hs)
    refine ⟨e, ?_, g2, g3, ?_⟩
    · unfold applyTerm at g1 ⊢
      rw [List.foldlM_cons, h1]
      exact g1
    · intro p hp
      rw [g4 p hp]
      exact termFn_congr t (fun q hq => h4 q (hs ▸ hq)) hp

private theorem derivative_fold {S : List ℕ} (terms : List Term) (hf : ∀ t ∈ terms, Fits S t) (A : Nd ℂ) (hA : A.Wf)
    (hs : A.shape = S) (acc : Nd ℂ) (hacc : acc.Wf) (hs' : acc.shape = S) :
    ∃ D, terms.foldlM (fun acc t => do acc.add (← applyTerm A t)) acc = .ok D ∧ D.Wf ∧ D.shape = S ∧
      ∀ p, Valid S p → D.get p = acc.get p + (terms.map fun t => termFn S t A.get p).sum := by
  induction terms generalizing acc with
  | nil => exact ⟨acc, rfl, hacc, hs', fun p _ => by simp⟩
  | cons t terms ih =>
    obtain ⟨c, h1, h2, h3, h4⟩ := applyTerm_ok t (hf t (by simp)) A hA hs
    obtain ⟨e, g1, g2, g3, g4⟩ := Nd.add_ok hacc h2 (hs'.trans h3.symm)
    obtain ⟨D, k1, k2, k3, k4⟩ := ih (fun x hx => hf x (by simp [hx])) e g2 (g3.trans hs')
    refine ⟨D, ?_, k2, k3, ?_⟩
    · rw [List.foldlM_cons, h1, ok_bind, g1]
      exact k1
    · intro p hp
      rw [k4 p hp, g4 p (hs' ▸ hp), h4 p hp, List.map_cons, List.sum_cons, add_assoc]

theorem derivativeOf_ok {S : List ℕ} (terms : List Term) (hf : ∀ t ∈ terms, Fits S t) (A : Nd ℂ) (hA : A.Wf)
    (hs : A.shape = S) :
    ∃ D, derivativeOf terms A = .ok D ∧ D.Wf ∧ D.shape = S ∧
      ∀ p, Valid S p → D.get p = (terms.map fun t => termFn S t A.get p).sum := by
  obtain ⟨D, h1, h2, h3, h4⟩ := derivative_fold terms hf A hA hs (Nd.ofFn A.shape fun _ => 0) (Nd.ofFn_wf _ _) hs
  refine ⟨D, h1, h2, h3, fun p hp => ?_⟩
  rw [h4 p hp, Nd.get_ofFn _ (hs ▸ hp), zero_add]

/-! Entries of the ladder matrices. -/

theorem eye_get {n : ℕ} (k : ℤ) {a b : ℕ} (ha : a < n) (hb : b < n) : (npEye n k).get [a, b] = if (b : ℤ) = a + k then 1 else 0 :=
  (Nd.get_ofFn _ (by simp [Valid, ha, hb])).trans rfl

theorem diag_get {v : List ℂ} {a b : ℕ} (ha : a < v.length) (hb : b < v.length) :
    (npDiag v).get [a, b] = if a = b then v.getD a 0 else 0 :=
  (Nd.get_ofFn _ (by simp [Valid, ha, hb])).trans rfl

theorem arange_diag_get {n a b : ℕ} (ha : a < n) (hb : b < n) : (npDiag (arange n)).get [a, b] = if a = b then (a : ℂ) else 0 := by
  rw [diag_get (by simpa [arange] using ha) (by simpa [arange] using hb)]
  simp [arange, ha]

theorem sqrt_diag_get {n a b : ℕ} (ha : a < n) (hb : b < n) :
    (npDiag (sqrtArange n)).get [a, b] = if a = b then ((Real.sqrt a : ℝ) : ℂ) else 0 := by
  rw [diag_get (by simpa [sqrtArange] using ha) (by simpa [sqrtArange] using hb)]
  simp [sqrtArange, ha]

theorem arange_shape (n : ℕ) : (npDiag (arange n)).shape = [n, n] := by simp [npDiag, arange]
theorem sqrt_shape (n : ℕ) : (npDiag (sqrtArange n)).shape = [n, n] := by simp [npDiag, sqrtArange]
theorem eye_shape (n : ℕ) (k : ℤ) : (npEye n k).shape = [n, n] := rfl

/-- `eye(k) @ diag(v)` -/
theorem eye_matmul {n : ℕ} (k : ℤ) {D : Nd ℂ} {v : ℕ → ℂ} (hD : D.shape = [n, n])
    (hv : ∀ a b, a < n → b < n → D.get [a, b] = if a = b then v a else 0) :
    ∃ M, (npEye n k).matmul D = .ok M ∧ M.Wf ∧ M.shape = [n, n] ∧
      ∀ a b, a < n → b < n → M.get [a, b] = if (b : ℤ) = a + k then v b else 0 := by
  obtain ⟨M, h1, h2, h3, h4⟩ := Tensor.matmul_spec (npEye n k) D (eye_shape n k) hD
  refine ⟨M, h1, h2, h3, fun a b ha hb => ?_⟩
  rw [h4 a b ha hb, Finset.sum_eq_single b]
  · rw [eye_get k ha hb, hv b b hb hb]; simp
  · intro c hc hcb
    rw [hv c b (Finset.mem_range.1 hc) hb, if_neg hcb, mul_zero]
  · intro hb'; exact absurd (Finset.mem_range.2 hb) hb'

/-- `diag(v) @ eye(k)` -/
theorem matmul_eye {n : ℕ} (k : ℤ) {D : Nd ℂ} {v : ℕ → ℂ} (hD : D.shape = [n, n])
    (hv : ∀ a b, a < n → b < n → D.get [a, b] = if a = b then v a else 0) :
    ∃ M, D.matmul (npEye n k) = .ok M ∧ M.Wf ∧ M.shape = [n, n] ∧
      ∀ a b, a < n → b < n → M.get [a, b] = if (b : ℤ) = a + k then v a else 0 := by
  obtain ⟨M, h1, h2, h3, h4⟩ := Tensor.matmul_spec D (npEye n k) hD (eye_shape n k)
  refine ⟨M, h1, h2, h3, fun a b ha hb => ?_⟩
  rw [h4 a b ha hb, Finset.sum_eq_single a]
  · rw [eye_get k ha hb, hv a a ha ha]; simp
  · intro c hc hca
    rw [hv a c ha (Finset.mem_range.1 hc), if_neg (Ne.symm hca), zero_mul]
  · intro hb'; exact absurd (Finset.mem_range.2 ha) hb'

/-- Sums against a matrix with one entry per column: the entry comes from the index below. -/
theorem sum_down {n x : ℕ} (hx : x < n) (f w : ℕ → ℂ) {M : Nd ℂ}
    (hM : ∀ a b, a < n → b < n → M.get [a, b] = if (b : ℤ) = a + 1 then w b else 0) :
    ∑ b ∈ Finset.range n, f b * M.get [b, x] = if x = 0 then 0 else w x * f (x - 1) := by
  rcases Nat.eq_zero_or_pos x with rfl | h0
  · rw [if_pos rfl]
    refine Finset.sum_eq_zero fun b hb => ?_
    rw [hM b 0 (Finset.mem_range.1 hb) hx, if_neg (by push_cast; omega), mul_zero]
  · rw [if_neg (by omega), Finset.sum_eq_single (x - 1)]
    · rw [hM _ _ (by omega) hx, if_pos (by omega), mul_comm]
    · intro b hb hne
      rw [hM b x (Finset.mem_range.1 hb) hx, if_neg (by omega), mul_zero]
    · intro h; exact absurd (Finset.mem_range.2 (by omega)) h

/-- The same, from the index above. -/
theorem sum_up {n x : ℕ} (hx : x < n) (f w : ℕ → ℂ) {M : Nd ℂ}
    (hM : ∀ a b, a < n → b < n → M.get [a, b] = if (b : ℤ) = a + -1 then w b else 0) :
    ∑ b ∈ Finset.range n, f b * M.get [b, x] = if x + 1 < n then w x * f (x + 1) else 0 := by
  by_cases h0 : x + 1 < n
  · rw [if_pos h0, Finset.sum_eq_single (x + 1)]
    · rw [hM _ _ h0 hx, if_pos (by push_cast; omega), mul_comm]
    · intro b hb hne
      rw [hM b x (Finset.mem_range.1 hb) hx, if_neg (by omega), mul_zero]
    · intro h; exact absurd (Finset.mem_range.2 h0) h
  · rw [if_neg h0]
    refine Finset.sum_eq_zero fun b hb => ?_
    have := Finset.mem_range.1 hb
    rw [hM b x this hx, if_neg (by omega), mul_zero]

/-- The same, from the index itself. -/
theorem sum_diag {n x : ℕ} (hx : x < n) (f w : ℕ → ℂ) {M : Nd ℂ}
    (hM : ∀ a b, a < n → b < n → M.get [a, b] = if a = b then w a else 0) :
    ∑ b ∈ Finset.range n, f b * M.get [b, x] = w x * f x := by
  rw [Finset.sum_eq_single x]
  · rw [hM x x hx hx, if_pos rfl, mul_comm]
  · intro b hb hne
    rw [hM b x (Finset.mem_range.1 hb) hx, if_neg hne, mul_zero]
  · intro h; exact absurd (Finset.mem_range.2 hx) h

theorem item_ok {α : Type} {l : List α} {k : ℕ} (hk : k < l.length) (d : α) : item l k = .ok (l.getD k d) := by
  unfold item
  rw [List.getElem?_eq_getElem hk, List.getD_eq_getElem _ _ hk]

theorem _root_.Corr.div_ne (a : ℂ) {b : ℂ} (h : b ≠ 0) : Corr.div a b = .ok (a / b) := by unfold Corr.div; rw [if_neg h]

namespace Hierachy

variable (H : Hierachy)

theorem raiser_ok {k : ℕ} (hk : k < H.nDims.length) : ∃ M, H.raiser k = .ok M ∧ M.Wf ∧ M.shape = [H.nDims.getD k 0, H.nDims.getD k 0] ∧
    ∀ a b, a < H.nDims.getD k 0 → b < H.nDims.getD k 0 →
      M.get [a, b] = if (b : ℤ) = a + 1 then ((Real.sqrt b : ℝ) : ℂ) else 0 := by
  unfold raiser
  rw [item_ok hk 0, ok_bind]
  exact eye_matmul 1 (sqrt_shape _) (fun a b ha hb => sqrt_diag_get ha hb)

theorem lower_ok {k : ℕ} (hk : k < H.nDims.length) : ∃ M, H.lower k = .ok M ∧ M.Wf ∧ M.shape = [H.nDims.getD k 0, H.nDims.getD k 0] ∧
    ∀ a b, a < H.nDims.getD k 0 → b < H.nDims.getD k 0 →
      M.get [a, b] = if (b : ℤ) = a + -1 then ((Real.sqrt (b + 1 : ℕ) : ℝ) : ℂ) else 0 := by
  unfold lower
  rw [item_ok hk 0, ok_bind]
  obtain ⟨M, h1, h2, h3, h4⟩ := matmul_eye (-1) (sqrt_shape (H.nDims.getD k 0)) (fun a b ha hb => sqrt_diag_get ha hb)
  refine ⟨M, h1, h2, h3, fun a b ha hb => ?_⟩
  rw [h4 a b ha hb]
  by_cases h : (b : ℤ) = a + -1
  · rw [if_pos h, if_pos h, show b + 1 = a by omega]
  · rw [if_neg h, if_neg h]

theorem numberer_ok {k : ℕ} (hk : k < H.nDims.length) : H.numberer k = .ok (npDiag (arange (H.nDims.getD k 0))) := by
  unfold numberer
  rw [item_ok hk 0, ok_bind]
  rfl

end Hierachy

/-! Terms on the shape `dims ++ [d, d]`. -/

section shape

variable {dims n : List ℕ} {d k a b : ℕ}

theorem shape_k (hk : k < dims.length) : (dims ++ [d, d]).getD k 0 = dims.getD k 0 := List.getD_append _ _ _ _ hk
theorem shape_i : (dims ++ [d, d]).getD dims.length 0 = d := by simp
theorem shape_j : (dims ++ [d, d]).getD (dims.length + 1) 0 = d := by simp

theorem set_k (hn : n.length = dims.length) (hk : k < dims.length) (x : ℕ) : (n ++ [a, b]).set k x = n.set k x ++ [a, b] := by
  rw [List.set_append_left _ _ (by omega)]
theorem set_i (hn : n.length = dims.length) (x : ℕ) : (n ++ [a, b]).set dims.length x = n ++ [x, b] := by
  rw [← hn]; simp
theorem set_j (hn : n.length = dims.length) (x : ℕ) : (n ++ [a, b]).set (dims.length + 1) x = n ++ [a, x] := by
  rw [← hn]; simp

theorem get_k (hn : n.length = dims.length) (hk : k < dims.length) : (n ++ [a, b]).getD k 0 = n.getD k 0 :=
  List.getD_append _ _ _ _ (by omega)
theorem get_i (hn : n.length = dims.length) : (n ++ [a, b]).getD dims.length 0 = a := by rw [← hn]; simp
theorem get_j (hn : n.length = dims.length) : (n ++ [a, b]).getD (dims.length + 1) 0 = b := by rw [← hn]; simp

variable (M N : Nd ℂ) (f : List ℕ → ℂ)

theorem term_i (hn : n.length = dims.length) : termFn (dims ++ [d, d]) [(dims.length, M)] f (n ++ [a, b]) =
    ∑ s ∈ Finset.range d, f (n ++ [s, b]) * M.get [s, a] := by
  simp only [termFn, shape_i, set_i hn, get_i hn]

theorem term_j (hn : n.length = dims.length) : termFn (dims ++ [d, d]) [(dims.length + 1, M)] f (n ++ [a, b]) =
    ∑ s ∈ Finset.range d, f (n ++ [a, s]) * M.get [s, b] := by
  simp only [termFn, shape_j, set_j hn, get_j hn]

theorem term_k (hn : n.length = dims.length) (hk : k < dims.length) : termFn (dims ++ [d, d]) [(k, M)] f (n ++ [a, b]) =
    ∑ x ∈ Finset.range (dims.getD k 0), f (n.set k x ++ [a, b]) * M.get [x, n.getD k 0] := by
  simp only [termFn, shape_k hk, set_k hn hk, get_k hn hk]

theorem term_ik (hn : n.length = dims.length) (hk : k < dims.length) :
    termFn (dims ++ [d, d]) [(dims.length, M), (k, N)] f (n ++ [a, b]) =
    ∑ s ∈ Finset.range d, (∑ x ∈ Finset.range (dims.getD k 0), f (n.set k x ++ [s, b]) * N.get [x, n.getD k 0]) * M.get [s, a] := by
  have hn' : ∀ x, (n.set k x).length = dims.length := fun x => by simp [hn]
  simp only [termFn, shape_i, shape_k hk, set_k hn hk, get_k hn hk, set_i (hn' _), get_i (hn' _), Finset.sum_mul]
  rw [Finset.sum_comm]
  refine Finset.sum_congr rfl fun s _ => Finset.sum_congr rfl fun x _ => by ring

theorem term_jk (hn : n.length = dims.length) (hk : k < dims.length) :
    termFn (dims ++ [d, d]) [(dims.length + 1, M), (k, N)] f (n ++ [a, b]) =
    ∑ s ∈ Finset.range d, (∑ x ∈ Finset.range (dims.getD k 0), f (n.set k x ++ [a, s]) * N.get [x, n.getD k 0]) * M.get [s, b] := by
  have hn' : ∀ x, (n.set k x).length = dims.length := fun x => by simp [hn]
  simp only [termFn, shape_j, shape_k hk, set_k hn hk, get_k hn hk, set_j (hn' _), get_j (hn' _), Finset.sum_mul]
  rw [Finset.sum_comm]
  refine Finset.sum_congr rfl fun s _ => Finset.sum_congr rfl fun x _ => by ring

theorem fits_i {t : Term} (hM : M.shape = [d, d]) (ht : Fits (dims ++ [d, d]) t) : Fits (dims ++ [d, d]) ((dims.length, M) :: t) := by
  intro m hm
  rcases List.mem_cons.1 hm with rfl | hm
  · exact ⟨by simp, by rw [shape_i]; exact hM⟩
  · exact ht m hm

theorem fits_j {t : Term} (hM : M.shape = [d, d]) (ht : Fits (dims ++ [d, d]) t) :
    Fits (dims ++ [d, d]) ((dims.length + 1, M) :: t) := by
  intro m hm
  rcases List.mem_cons.1 hm with rfl | hm
  · exact ⟨by simp, by rw [shape_j]; exact hM⟩
  · exact ht m hm

theorem fits_k {t : Term} (hk : k < dims.length) (hM : M.shape = [dims.getD k 0, dims.getD k 0]) (ht : Fits (dims ++ [d, d]) t) :
    Fits (dims ++ [d, d]) ((k, M) :: t) := by
  intro m hm
  rcases List.mem_cons.1 hm with rfl | hm
  · exact ⟨by simp; omega, by rw [shape_k hk]; exact hM⟩
  · exact ht m hm

theorem fits_nil : Fits (dims ++ [d, d]) [] := fun m hm => absurd hm (by simp)

theorem valid_split {p : List ℕ} (hp : Valid (dims ++ [d, d]) p) :
    ∃ n a b, p = n ++ [a, b] ∧ Valid dims n ∧ a < d ∧ b < d := by
  obtain ⟨n, q, rfl, hn, hq⟩ := valid_append_split hp
  obtain ⟨a, q, rfl, ha, hq⟩ := valid_cons_iff.1 hq
  obtain ⟨b, q, rfl, hb, hq⟩ := valid_cons_iff.1 hq
  obtain rfl := valid_nil_iff.1 hq
  exact ⟨n, a, b, rfl, hn, ha, hb⟩

/-- Adding what many steps of a loop give. -/
theorem mapM_terms {ι : Type} {f : ι → Res (List Term)} {G : Nd ℂ → List ℕ → ℕ → ℕ → ι → ℂ} (l : List ι)
    (h : ∀ k ∈ l, ∃ ts, f k = .ok ts ∧ (∀ t ∈ ts, Fits (dims ++ [d, d]) t) ∧
      ∀ rho n a b, Valid dims n → a < d → b < d →
        (ts.map fun t => termFn (dims ++ [d, d]) t rho.get (n ++ [a, b])).sum = G rho n a b k) :
    ∃ tss, l.mapM f = .ok tss ∧ (∀ t ∈ tss.flatten, Fits (dims ++ [d, d]) t) ∧
      ∀ rho n a b, Valid dims n → a < d → b < d →
        (tss.flatten.map fun t => termFn (dims ++ [d, d]) t rho.get (n ++ [a, b])).sum = (l.map (G rho n a b)).sum := by
  induction l with
  | nil => exact ⟨[], rfl, by simp, by simp⟩
  | cons k l ih =>
    obtain ⟨ts, h1, h2, h3⟩ := h k (by simp)
    obtain ⟨tss, g1, g2, g3⟩ := ih fun x hx => h x (by simp [hx])
    refine ⟨ts :: tss, ?_, ?_, ?_⟩
    · rw [List.mapM_cons, h1, ok_bind, g1]
      rfl
    · intro t ht
      rw [List.flatten_cons, List.mem_append] at ht
      exact ht.elim (h2 t) (g2 t)
    · intro rho n a b hn ha hb
      rw [List.flatten_cons, List.map_append, List.sum_append, h3 _ _ _ _ hn ha hb, g3 _ _ _ _ hn ha hb, List.map_cons, List.sum_cons]

theorem sum_range_list (m : ℕ) (f : ℕ → ℂ) : ((List.range m).map f).sum = ∑ k ∈ Finset.range m, f k := by
  induction m with
  | zero => rfl
  | succ m ih => rw [List.range_succ, List.map_append, List.sum_append, ih, Finset.sum_range_succ]; simp

end shape

/-- The right-hand side with different matrices from the left and from the right. -/
noncomputable def rhs2 (d : ℕ) (dims : List ℕ) (hL hR qL qR : ℕ → ℕ → ℂ) (γ c c' : ℕ → ℂ) (down up : ℕ → ℂ) (rho : Nd ℂ) (n : List ℕ)
    (a b : ℕ) : ℂ :=
  let X := fun (c : ℕ → ℂ) k a b => c k * down (n.getD k 0) * below rho n k a b + up (n.getD k 0) * above dims rho n k a b;
  -Complex.I * ((∑ s ∈ Finset.range d, hL a s * tier rho n s b) - ∑ s ∈ Finset.range d, tier rho n a s * hR s b)
  + ∑ k ∈ Finset.range dims.length,
    (γ k * n.getD k 0 * tier rho n a b
      - Complex.I * ((∑ s ∈ Finset.range d, qL a s * X c k s b) - ∑ s ∈ Finset.range d, X c' k a s * qR s b))

theorem heomRhs_eq (d : ℕ) (dims : List ℕ) (h q : ℕ → ℕ → ℂ) (γ c c' : ℕ → ℂ) (down up : ℕ → ℂ) (rho : Nd ℂ) (n : List ℕ)
    (a b : ℕ) : heomRhs d dims h q γ c c' down up rho n a b = rhs2 d dims h h q q γ c c' down up rho n a b := rfl

theorem rhs2_congr {d : ℕ} {dims : List ℕ} {hL hR qL qR hL' hR' qL' qR' : ℕ → ℕ → ℂ} (γ c c' : ℕ → ℂ) (down up : ℕ → ℂ)
    (rho : Nd ℂ) (n : List ℕ) {a b : ℕ} (ha : a < d) (hb : b < d) (h1 : ∀ a b, a < d → b < d → hL a b = hL' a b)
    (h2 : ∀ a b, a < d → b < d → hR a b = hR' a b) (h3 : ∀ a b, a < d → b < d → qL a b = qL' a b)
    (h4 : ∀ a b, a < d → b < d → qR a b = qR' a b) :
    rhs2 d dims hL hR qL qR γ c c' down up rho n a b = rhs2 d dims hL' hR' qL' qR' γ c c' down up rho n a b := by
  unfold rhs2
  dsimp only
  refine congrArg₂ (· + ·) (congrArg _ (congrArg₂ (· - ·) (Finset.sum_congr rfl fun s hs => ?_) (Finset.sum_congr rfl fun s hs => ?_)))
    (Finset.sum_congr rfl fun k _ => congrArg _ (congrArg _ (congrArg₂ (· - ·) (Finset.sum_congr rfl fun s hs => ?_)
      (Finset.sum_congr rfl fun s hs => ?_))))
  · rw [h1 a s ha (Finset.mem_range.1 hs)]
  · rw [h2 s b (Finset.mem_range.1 hs) hb]
  · rw [h3 a s ha (Finset.mem_range.1 hs)]
  · rw [h4 s b (Finset.mem_range.1 hs) hb]

/-! The ladder operators on the members. -/

theorem ladder {dims n : List ℕ} {k a b : ℕ} (hn : Valid dims n) (hk : k < dims.length) (rho : Nd ℂ) {R : Nd ℂ} {w : ℕ → ℂ}
    (hR : ∀ a b, a < dims.getD k 0 → b < dims.getD k 0 → R.get [a, b] = if (b : ℤ) = a + 1 then w b else 0) :
    ∑ x ∈ Finset.range (dims.getD k 0), rho.get (n.set k x ++ [a, b]) * R.get [x, n.getD k 0] = w (n.getD k 0) * below rho n k a b := by
  rw [sum_down (hn.getD_lt hk 0 0) (fun x => rho.get (n.set k x ++ [a, b])) w hR]
  unfold below tier
  split <;> simp

theorem ladder_up {dims n : List ℕ} {k a b : ℕ} (hn : Valid dims n) (hk : k < dims.length) (rho : Nd ℂ) {R : Nd ℂ} {w : ℕ → ℂ}
    (hR : ∀ a b, a < dims.getD k 0 → b < dims.getD k 0 → R.get [a, b] = if (b : ℤ) = a + -1 then w b else 0) :
    ∑ x ∈ Finset.range (dims.getD k 0), rho.get (n.set k x ++ [a, b]) * R.get [x, n.getD k 0] =
      w (n.getD k 0) * above dims rho n k a b := by
  rw [sum_up (hn.getD_lt hk 0 0) (fun x => rho.get (n.set k x ++ [a, b])) w hR]
  unfold above tier
  split <;> simp

theorem set_self {n : List ℕ} {k : ℕ} (hk : k < n.length) : n.set k (n.getD k 0) = n := by
  rw [List.getD_eq_getElem _ _ hk, List.set_getElem_self]

namespace Hierachy

variable (H : Hierachy)

/-- What one step of the loop of `_diff` contributes. -/
theorem diffK_ok {d k : ℕ} (h0 : H.scale ≠ 0) (hop : H.op.shape = [d, d]) (hk : k < H.nDims.length) (h1 : H.nDims.length ≤ H.corr.coeff.length)
    (h2 : H.nDims.length ≤ H.corr.conjCoeff.length) (h3 : H.nDims.length ≤ H.corr.derivative.length) :
    ∃ ts, H.diffK k = .ok ts ∧ (∀ t ∈ ts, Fits (H.nDims ++ [d, d]) t) ∧
      ∀ rho n a b, Valid H.nDims n → a < d → b < d →
        (ts.map fun t => termFn (H.nDims ++ [d, d]) t rho.get (n ++ [a, b])).sum =
        H.corr.derivative.getD k 0 * n.getD k 0 * tier rho n a b
          - Complex.I * ((∑ s ∈ Finset.range d, H.op.get [s, a] *
              (H.corr.coeff.getD k 0 * (((Real.sqrt (n.getD k 0 : ℕ) : ℝ) : ℂ) / H.scale) * below rho n k s b +
                (H.scale * ((Real.sqrt (n.getD k 0 + 1 : ℕ) : ℝ) : ℂ)) * above H.nDims rho n k s b))
            - ∑ s ∈ Finset.range d, (H.corr.conjCoeff.getD k 0 * (((Real.sqrt (n.getD k 0 : ℕ) : ℝ) : ℂ) / H.scale) * below rho n k a s +
                (H.scale * ((Real.sqrt (n.getD k 0 + 1 : ℕ) : ℝ) : ℂ)) * above H.nDims rho n k a s) * H.op.get [s, b]) := by
  obtain ⟨R, r1, r2, r3, r4⟩ := H.raiser_ok hk
  obtain ⟨L, l1, l2, l3, l4⟩ := H.lower_ok hk
  have wfs : ∀ (c : ℂ) {A : Nd ℂ}, A.Wf → (Nd.smul c A).Wf := fun c A hA => by
    unfold Nd.Wf Nd.smul at *; simpa using hA
  have mk : ∀ c : ℂ, ∃ X, (Nd.smul (c / H.scale) R).add (Nd.smul H.scale L) = .ok X ∧ X.shape = [H.nDims.getD k 0, H.nDims.getD k 0] ∧
      ∀ rho n a b, Valid H.nDims n →
        ∑ x ∈ Finset.range (H.nDims.getD k 0), rho.get (n.set k x ++ [a, b]) * X.get [x, n.getD k 0] =
          c * (((Real.sqrt (n.getD k 0 : ℕ) : ℝ) : ℂ) / H.scale) * below rho n k a b +
            (H.scale * ((Real.sqrt (n.getD k 0 + 1 : ℕ) : ℝ) : ℂ)) * above H.nDims rho n k a b := by
    intro c
    obtain ⟨X, x1, x2, x3, x4⟩ := Nd.add_ok (wfs (c / H.scale) r2) (wfs H.scale l2) (r3.trans l3.symm)
    refine ⟨X, x1, x3.trans r3, fun rho n a b hn => ?_⟩
    have hlt := hn.getD_lt hk 0 0
    have e1 := ladder (a := a) (b := b) hn hk rho r4
    have e2 := ladder_up (a := a) (b := b) hn hk rho (w := fun b => ((Real.sqrt (b + 1 : ℕ) : ℝ) : ℂ)) l4
    rw [show ∀ x y : ℂ, c * (x / H.scale) * y = c / H.scale * (x * y) from fun x y => by ring, mul_assoc H.scale, ← e1, ← e2, Finset.mul_sum,
      Finset.mul_sum, ← Finset.sum_add_distrib]
    refine Finset.sum_congr rfl fun x hx => ?_
    have hv : Valid (Nd.smul (c / H.scale) R).shape [x, n.getD k 0] := by
      show Valid R.shape _
      rw [r3]
      simpa [Valid] using ⟨Finset.mem_range.1 hx, hlt⟩
    rw [x4 _ hv, smul_get, smul_get]
    ring
  obtain ⟨X, x1, x2, x3⟩ := mk (H.corr.coeff.getD k 0)
  obtain ⟨Y, y1, y2, y3⟩ := mk (H.corr.conjCoeff.getD k 0)
  refine ⟨[[(k, Nd.smul (H.corr.derivative.getD k 0) (npDiag (arange (H.nDims.getD k 0))))], [(H.i, Nd.smul (-1 * Complex.I) H.op), (k, X)],
    [(H.j, Nd.smul (1 * Complex.I) H.op), (k, Y)]], ?_, ?_, ?_⟩
  · unfold diffK
    rw [item_ok (lt_of_lt_of_le hk h1) 0, ok_bind, item_ok (lt_of_lt_of_le hk h2) 0, ok_bind, item_ok (lt_of_lt_of_le hk h3) 0, ok_bind,
      H.numberer_ok hk, ok_bind, r1, ok_bind, l1, ok_bind, Corr.div_ne _ h0, ok_bind, Corr.div_ne _ h0, ok_bind, x1, ok_bind, y1, ok_bind]
    rfl
  · intro t ht
    simp only [List.mem_cons, List.not_mem_nil, or_false] at ht
    rcases ht with rfl | rfl | rfl
    · exact fits_k _ hk (arange_shape _) fits_nil
    · exact fits_i _ hop (fits_k _ hk x2 fits_nil)
    · exact fits_j _ hop (fits_k _ hk y2 fits_nil)
  · intro rho n a b hn ha hb
    have hl := hn.length_eq
    simp only [List.map_cons, List.map_nil, List.sum_cons, List.sum_nil]
    unfold i j
    rw [term_k _ _ hl hk, term_ik _ _ _ hl hk, term_jk _ _ _ hl hk]
    have e1 : ∑ x ∈ Finset.range (H.nDims.getD k 0), rho.get (n.set k x ++ [a, b]) *
        (Nd.smul (H.corr.derivative.getD k 0) (npDiag (arange (H.nDims.getD k 0)))).get [x, n.getD k 0] =
        H.corr.derivative.getD k 0 * n.getD k 0 * tier rho n a b := by
      rw [sum_diag (hn.getD_lt hk 0 0) (fun x => rho.get (n.set k x ++ [a, b]))
        (fun x => H.corr.derivative.getD k 0 * (x : ℂ)) (fun a b ha hb => by
          rw [smul_get, arange_diag_get ha hb]; split <;> simp)]
      rw [set_self (by omega)]
      rfl
    rw [e1]
    simp only [x3 _ _ _ _ hn, y3 _ _ _ _ hn, smul_get]
    rw [mul_sub, Finset.mul_sum, Finset.mul_sum]
    have e2 : ∀ (F G : ℕ → ℂ), (∑ s ∈ Finset.range d, F s * (-1 * Complex.I * G s)) = -∑ s ∈ Finset.range d, Complex.I * (G s * F s) := by
      intro F G
      rw [← Finset.sum_neg_distrib]
      exact Finset.sum_congr rfl fun s _ => by ring
    have e3 : ∀ (F G : ℕ → ℂ), (∑ s ∈ Finset.range d, F s * (1 * Complex.I * G s)) = ∑ s ∈ Finset.range d, Complex.I * (F s * G s) := by
      intro F G
      exact Finset.sum_congr rfl fun s _ => by ring
    rw [e2, e3]
    ring

/-- The whole derivative. -/
theorem diff_all {d : ℕ} (h0 : H.scale ≠ 0) (hh : H.h.shape = [d, d]) (hop : H.op.shape = [d, d]) (h1 : H.nDims.length ≤ H.corr.coeff.length)
    (h2 : H.nDims.length ≤ H.corr.conjCoeff.length) (h3 : H.nDims.length ≤ H.corr.derivative.length) :
    ∃ ts, H.diff = .ok ts ∧ (∀ t ∈ ts, Fits (H.nDims ++ [d, d]) t) ∧ ∀ (rho : Nd ℂ), rho.Wf → rho.shape = H.nDims ++ [d, d] →
      ∃ D, derivativeOf ts rho = .ok D ∧ D.Wf ∧ D.shape = rho.shape ∧
      ∀ n a b, Valid H.nDims n → a < d → b < d → tier D n a b =
        rhs2 d H.nDims (fun a b => H.h.get [b, a]) (entries H.h) (fun a b => H.op.get [b, a]) (entries H.op)
          (H.corr.derivative.getD · 0) (H.corr.coeff.getD · 0) (H.corr.conjCoeff.getD · 0)
          (fun m => ((Real.sqrt m : ℝ) : ℂ) / H.scale) (fun m => H.scale * ((Real.sqrt (m + 1 : ℕ) : ℝ) : ℂ)) rho n a b := by
  obtain ⟨tss, t1, t2, t3⟩ := mapM_terms (List.range H.nDims.length) (dims := H.nDims) (d := d) (f := H.diffK)
    fun k hk => H.diffK_ok h0 hop (List.mem_range.1 hk) h1 h2 h3
  have hall : ∀ t ∈ ([[(H.i, Nd.smul (-1 * Complex.I) H.h)], [(H.j, Nd.smul (1 * Complex.I) H.h)]] : List Term) ++ tss.flatten,
      Fits (H.nDims ++ [d, d]) t := by
    intro t ht
    rcases List.mem_append.1 ht with ht | ht
    · simp only [List.mem_cons, List.not_mem_nil, or_false] at ht
      rcases ht with rfl | rfl
      · exact fits_i _ hh fits_nil
      · exact fits_j _ hh fits_nil
    · exact t2 t ht
  refine ⟨_, by unfold diff; rw [t1, ok_bind]; rfl, hall, fun rho hw hs => ?_⟩
  obtain ⟨D, d1, d2, d3, d4⟩ := derivativeOf_ok _ hall rho hw hs
  refine ⟨D, d1, d2, d3.trans hs.symm, ?_⟩
  intro n a b hn ha hb
  unfold tier
  rw [d4 _ (valid_append hn (by simpa [Valid] using ⟨ha, hb⟩)), List.map_append, List.sum_append, t3 _ _ _ _ hn ha hb, sum_range_list]
  unfold rhs2
  dsimp only
  congr 1
  simp only [List.map_cons, List.map_nil, List.sum_cons, List.sum_nil]
  unfold i j
  rw [term_i _ _ hn.length_eq, term_j _ _ hn.length_eq, mul_sub, Finset.mul_sum, Finset.mul_sum, add_zero, sub_eq_add_neg,
    ← Finset.sum_neg_distrib]
  simp only [smul_get]
  congr 1
  · exact Finset.sum_congr rfl fun s _ => by unfold tier; ring
  · exact Finset.sum_congr rfl fun s _ => by unfold tier entries; ring

theorem diff_ok' {d : ℕ} (h0 : H.scale ≠ 0) (hh : H.h.shape = [d, d]) (hop : H.op.shape = [d, d]) (h1 : H.nDims.length ≤ H.corr.coeff.length)
    (h2 : H.nDims.length ≤ H.corr.conjCoeff.length) (h3 : H.nDims.length ≤ H.corr.derivative.length)
    (rho : Nd ℂ) (hw : rho.Wf) (hs : rho.shape = H.nDims ++ [d, d]) :
    ∃ ts D, H.diff = .ok ts ∧ derivativeOf ts rho = .ok D ∧ D.Wf ∧ D.shape = rho.shape ∧
      ∀ n a b, Valid H.nDims n → a < d → b < d → tier D n a b =
        rhs2 d H.nDims (fun a b => H.h.get [b, a]) (entries H.h) (fun a b => H.op.get [b, a]) (entries H.op)
          (H.corr.derivative.getD · 0) (H.corr.coeff.getD · 0) (H.corr.conjCoeff.getD · 0)
          (fun m => ((Real.sqrt m : ℝ) : ℂ) / H.scale) (fun m => H.scale * ((Real.sqrt (m + 1 : ℕ) : ℝ) : ℂ)) rho n a b := by
  obtain ⟨ts, e1, -, e2⟩ := H.diff_all h0 hh hop h1 h2 h3
  obtain ⟨D, e3⟩ := e2 rho hw hs
  exact ⟨ts, D, e1, e3⟩

/-- With the default scale. -/
theorem diff_ok {d : ℕ} (e : H.scale = 1) (hh : H.h.shape = [d, d]) (hop : H.op.shape = [d, d]) (h1 : H.nDims.length ≤ H.corr.coeff.length)
    (h2 : H.nDims.length ≤ H.corr.conjCoeff.length) (h3 : H.nDims.length ≤ H.corr.derivative.length)
    (rho : Nd ℂ) (hw : rho.Wf) (hs : rho.shape = H.nDims ++ [d, d]) :
    ∃ ts D, H.diff = .ok ts ∧ derivativeOf ts rho = .ok D ∧ D.Wf ∧ D.shape = rho.shape ∧
      ∀ n a b, Valid H.nDims n → a < d → b < d → tier D n a b =
        rhs2 d H.nDims (fun a b => H.h.get [b, a]) (entries H.h) (fun a b => H.op.get [b, a]) (entries H.op)
          (H.corr.derivative.getD · 0) (H.corr.coeff.getD · 0) (H.corr.conjCoeff.getD · 0)
          (fun m => ((Real.sqrt m : ℝ) : ℂ)) (fun m => ((Real.sqrt (m + 1 : ℕ) : ℝ) : ℂ)) rho n a b := by
  have h := H.diff_ok' (by rw [e]; exact one_ne_zero) hh hop h1 h2 h3 rho hw hs
  simp only [e, div_one, one_mul] at h
  exact h

end Hierachy

end Heom
