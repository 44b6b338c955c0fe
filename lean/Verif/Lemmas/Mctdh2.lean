import Verif.Lemmas.Mctdh

/-!
The operations of MCTDH on arrays, and expectation values of products.
-/

open Py
open scoped BigOperators

namespace Mctdh

variable {R : Type} [CommRing R] [StarRing R]

omit [StarRing R] in
theorem actOn_congr (s : List ℕ) (p : ℕ × Nd R) (hp : p.1 < s.length ∧ p.2.dim 1 = s.getD p.1 0) {f g : List ℕ → R}
    (h : ∀ x, Valid s x → f x = g x) {x : List ℕ} (hx : Valid s x) : actOn p f x = actOn p g x := by
  obtain ⟨i, h'⟩ := p
  rw [actOn_eq s i h' hp.1 hp.2 x hx, actOn_eq s i h' hp.1 hp.2 x hx]
  exact sumIdx_congr fun y hy => by rw [h y hy]

omit [StarRing R] in
theorem actTerm_congr (s : List ℕ) (term : Term R) (hc : ∀ p ∈ term, p.1 < s.length ∧ p.2.dim 1 = s.getD p.1 0) :
    ∀ {f g : List ℕ → R}, (∀ x, Valid s x → f x = g x) → ∀ {x : List ℕ}, Valid s x → actTerm term f x = actTerm term g x := by
  induction term with
  | nil => intro f g h x hx; exact h x hx
  | cons p term ih =>
    intro f g h x hx
    exact ih (fun q hq => hc q (List.mem_cons_of_mem _ hq)) (fun y hy => actOn_congr s p (hc p List.mem_cons_self) h hy) hx

theorem tailConst_all {s : List ℕ} (hc : Dvr.TailConst 0 s) (i : ℕ) : Dvr.TailConst i s := by
  intro x hx y hy
  have : ∀ z, z ∈ s.drop (i + 1) → z ∈ s.drop (0 + 1) := by
    intro z hz
    rw [show i + 1 = 0 + 1 + i by omega, ← List.drop_drop] at hz
    exact List.mem_of_mem_drop hz
  exact hc x (this x hx) y (this y hy)

omit [StarRing R] in
/-- Applying a term to the coefficient tensor. -/
theorem coeffOp_spec (term : Term R) : ∀ (t : Nd R), t.Wf → (∀ d ∈ t.shape, 0 < d) → (∀ p ∈ term, Dvr.TailConst p.1 t.shape) →
    (∀ p ∈ term, p.1 < t.ndim ∧ p.2.shape = [t.shape.getD p.1 0, t.shape.getD p.1 0]) →
    ∃ w, coeffOp t term = .ok w ∧ w.Wf ∧ w.shape = t.shape ∧ ∀ x, Valid t.shape x → w.get x = actTerm term t.get x := by
  induction term with
  | nil => intro t ht _ _ _; exact ⟨t, rfl, ht, rfl, fun _ _ => rfl⟩
  | cons p term ih =>
    intro t ht hpos hc hp
    obtain ⟨hi, hs⟩ := hp p List.mem_cons_self
    have hg : t.shape.getD p.1 0 = t.shape.getD p.1 1 := by
      rw [List.getD_eq_getElem _ _ hi, List.getD_eq_getElem _ _ hi]
    obtain ⟨w, w1, w2⟩ := Dvr.C38_transform_partial p.1 t p.2 hi hpos (by rw [hs, hg]) (hc p List.mem_cons_self)
    have d0 : p.2.dim 0 = t.shape.getD p.1 0 := by unfold Nd.dim; rw [hs]; rfl
    have d1 : p.2.dim 1 = t.shape.getD p.1 0 := by unfold Nd.dim; rw [hs]; rfl
    have hw : w.shape = t.shape := by
      rw [w2.shape, d0, List.getD_eq_getElem _ _ hi]
      simp
    obtain ⟨z, z1, z2, z3, z4⟩ := ih w w2.wf (hw ▸ hpos) (fun q hq => hw ▸ hc q (List.mem_cons_of_mem _ hq))
      (fun q hq => by unfold Nd.ndim; rw [hw]; exact hp q (List.mem_cons_of_mem _ hq))
    refine ⟨z, ?_, z2, z3.trans hw, fun x hx => ?_⟩
    · unfold coeffOp at z1 ⊢
      rw [List.foldlM_cons, w1, ok_bind, z1]
    · rw [z4 x (hw ▸ hx)]
      refine (actTerm_congr t.shape term (fun q hq => ?_) (fun y hy => ?_) hx : _ = actTerm term (actOn p t.get) x)
      · obtain ⟨h1, h2⟩ := hp q (List.mem_cons_of_mem _ hq)
        exact ⟨h1, by unfold Nd.dim; rw [h2]; rfl⟩
      · rw [w2.get y (hw ▸ hy)]
        rfl

omit [StarRing R] in
theorem transpose_spec (c : Nd R) {n m : ℕ} (hs : c.shape = [n, m]) :
    (c.transposeCore [1, 0]).shape = [m, n] ∧ (c.transposeCore [1, 0]).Wf ∧
      ∀ a b, a < m → b < n → (c.transposeCore [1, 0]).get [a, b] = c.get [b, a] := by
  have hsh : (c.transposeCore [1, 0]).shape = [m, n] := by simp [Nd.transposeCore, Nd.ofFn, hs]
  refine ⟨hsh, Nd.transposeCore_wf _ _, fun a b ha hb => ?_⟩
  rw [Nd.get_transposeCore]
  · unfold Nd.ndim
    rw [hs]
    rfl
  · rw [hsh]
    exact List.Forall₂.cons ha (List.Forall₂.cons hb List.Forall₂.nil)

theorem conj_get' (A : Nd R) (p : List ℕ) : A.conj.get p = star (A.get p) := by
  unfold Nd.conj Nd.get
  simp only [List.getD_eq_getElem?_getD, List.getElem?_map]
  cases A.data[ravel A.shape p]? <;> simp

omit [StarRing R] in
theorem part_get {f : R → R} (hf : f 0 = 0) (A : Nd R) (p : List ℕ) : (part f A).get p = f (A.get p) := by
  unfold part Nd.get
  simp only [List.getD_eq_getElem?_getD, List.getElem?_map]
  cases A.data[ravel A.shape p]? <;> simp [hf]

/-- `_eval(op, vec)` is `vec† op vec`. -/
theorem evalOp_spec (op c : Nd R) {n m : ℕ} (ho : op.shape = [n, n]) (hs : c.shape = [n, m]) :
    ∃ w, evalOp op c = .ok w ∧ w.Wf ∧ w.shape = [m, m] ∧ ∀ j k, j < m → k < m →
      w.get [j, k] = ∑ x ∈ Finset.range n, star (c.get [x, j]) * ∑ y ∈ Finset.range n, op.get [x, y] * c.get [y, k] := by
  obtain ⟨u, u1, u2, u3, u4⟩ := Tensor.matmul_spec op c ho hs
  obtain ⟨t1, t2, t3⟩ := transpose_spec c hs
  obtain ⟨w, w1, w2, w3, w4⟩ := Tensor.matmul_spec (c.transposeCore [1, 0]).conj u (n := m) (l := n) (m := m) t1 u3
  refine ⟨w, ?_, w2, w3, fun j k hj hk => ?_⟩
  · unfold evalOp
    rw [u1]
    exact w1
  · rw [w4 j k hj hk]
    refine Finset.sum_congr rfl fun x hx => ?_
    have hx := Finset.mem_range.1 hx
    rw [conj_get', t3 j x hj hx, u4 x k hx hk]

theorem Cartesian.reZero {i : R} {re im : R → R} (hC : Cartesian i re im) : re 0 = 0 := by
  have := hC.reOf 0 0 (star_zero R) (star_zero R)
  rwa [mul_zero, add_zero] at this

theorem Cartesian.imZero {i : R} {re im : R → R} (hC : Cartesian i re im) : im 0 = 0 := by
  have := hC.imOf 0 0 (star_zero R) (star_zero R)
  rwa [mul_zero, add_zero] at this

/-- The entries of the projected matrix that the program computes. -/
theorem modOne_spec {i : R} {re im : R → R} (hC : Cartesian i re im) (shapes : List (List ℕ)) (vec : List R) (k : ℕ)
    (h c : Nd R) {n m : ℕ} (hk : getSubVec shapes (k : ℤ) vec = .ok c) (ho : h.shape = [n, n]) (hs : c.shape = [n, m]) :
    ∃ w, modOne re im shapes vec (k, h) = .ok (k, w) ∧ w.Wf ∧ w.shape = [m, m] ∧ ∀ a b, a < m → b < m →
      w.get [a, b] = (∑ x ∈ Finset.range n, re (c.get [x, a]) * ∑ y ∈ Finset.range n, h.get [x, y] * re (c.get [y, b])) +
        ∑ x ∈ Finset.range n, im (c.get [x, a]) * ∑ y ∈ Finset.range n, h.get [x, y] * im (c.get [y, b]) := by
  obtain ⟨u, u1, u2, u3, u4⟩ := evalOp_spec h (part re c) ho hs
  obtain ⟨v, v1, v2, v3, v4⟩ := evalOp_spec h (part im c) ho hs
  obtain ⟨w, w1, w2, w3, w4⟩ := Nd.add_ok u2 v2 (u3.trans v3.symm)
  refine ⟨w, ?_, w2, w3.trans u3, fun a b ha hb => ?_⟩
  · unfold modOne
    dsimp only
    rw [hk, ok_bind, u1, ok_bind, v1, ok_bind, w1]
    rfl
  · rw [w4 [a, b] (by rw [u3]; exact List.Forall₂.cons ha (List.Forall₂.cons hb List.Forall₂.nil)), u4 a b ha hb, v4 a b ha hb]
    simp only [part_get hC.reZero, part_get hC.imZero, hC.reReal, hC.imReal]

/-! ### Expectation values of products -/

theorem prodF_star (n : ℕ) (M : ℕ → ℕ → ℕ → R) (x y : List ℕ) :
    star (prodF n M x y) = prodF n (fun i a b => star (M i b a)) y x := by
  unfold prodF
  rw [star_prod]

theorem sumIdx_star (s : List ℕ) (f : List ℕ → R) : star (sumIdx s f) = sumIdx s fun x => star (f x) := by
  rw [sumIdx_eq_sum_range, sumIdx_eq_sum_range, star_sum]

/-- The matrix element of a product of operators between two states with the same single-particle functions. -/
theorem matrix_element (s t : List ℕ) (hl : t.length = s.length) (C O : ℕ → ℕ → ℕ → R) (A B : List ℕ → R) :
    sumIdx s (fun x => star (sumIdx t fun j => prodF s.length C x j * A j) *
      sumIdx s (fun y => prodF s.length O x y * sumIdx t fun j => prodF s.length C y j * B j)) =
    sumIdx t (fun j => star (A j) * sumIdx t fun k => prodF s.length (fun i a b => ∑ x ∈ Finset.range (s.getD i 0),
      star (C i x a) * ∑ y ∈ Finset.range (s.getD i 0), O i x y * C i y b) j k * B k) := by
  have e1 : ∀ x, Valid s x → sumIdx s (fun y => prodF s.length O x y * sumIdx t fun j => prodF s.length C y j * B j) =
      sumIdx t fun k => prodF s.length (fun i a b => ∑ y ∈ Finset.range (s.getD i 0), O i a y * C i y b) x k * B k := by
    intro x hx
    have : ∀ y, prodF s.length O x y * (sumIdx t fun j => prodF s.length C y j * B j) =
        sumIdx t fun j => prodF s.length O x y * prodF s.length C y j * B j := by
      intro y
      rw [← sumIdx_mul_left]
      exact sumIdx_congr fun j _ => by ring
    simp only [this]
    rw [sumIdx_comm]
    refine sumIdx_congr fun k hk => ?_
    rw [sumIdx_mul_right, prodF_comp s O C x k hx.length_eq (hk.length_eq.trans hl)]
  rw [sumIdx_congr fun x hx => by rw [e1 x hx]]
  have e2 : ∀ x, star (sumIdx t fun j => prodF s.length C x j * A j) *
      (sumIdx t fun k => prodF s.length (fun i a b => ∑ y ∈ Finset.range (s.getD i 0), O i a y * C i y b) x k * B k) =
      sumIdx t fun j => sumIdx t fun k => star (A j) * (prodF s.length (fun i a b => star (C i b a)) j x *
        prodF s.length (fun i a b => ∑ y ∈ Finset.range (s.getD i 0), O i a y * C i y b) x k * B k) := by
    intro x
    rw [sumIdx_star, ← sumIdx_mul_right]
    refine sumIdx_congr fun j _ => ?_
    rw [← sumIdx_mul_left]
    refine sumIdx_congr fun k _ => ?_
    rw [star_mul, prodF_star]
    ring
  simp only [e2]
  rw [sumIdx_comm]
  refine sumIdx_congr fun j hj => ?_
  rw [sumIdx_comm, ← sumIdx_mul_left]
  refine sumIdx_congr fun k hk => ?_
  rw [sumIdx_mul_left, sumIdx_mul_right,
    prodF_comp s _ _ j k (hj.length_eq.trans hl) (hk.length_eq.trans hl)]

end Mctdh
