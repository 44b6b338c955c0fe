import Verif.Lemmas.Normalize
import Verif.Spec.Network
import Mathlib.Algebra.Star.Rat

/-!
C19: `Tensor.projector`.

`P` has the shape of the tensor without its axis, twice; `P.get (p ++ q)` is its entry in row `p` and column `q`.
-/

open scoped BigOperators

namespace Heap

open Py

variable {R : Type} [Field R] [StarRing R]

private theorem conj_get' (A : Nd R) (p : List ℕ) : A.conj.get p = star (A.get p) := by
  unfold Nd.conj Nd.get
  simp only [List.getD_eq_getElem?_getD, List.getElem?_map]
  cases A.data[ravel A.shape p]? <;> simp

private theorem pos_of {A : Nd R} {axis : ℕ} (hax : axis < A.ndim) (hpos : ∀ d ∈ A.shape, 0 < d) :
    0 < A.shape.getD axis 1 := by
  have hax' : axis < A.shape.length := hax
  rw [List.getD_eq_getElem _ _ hax']
  exact hpos _ (List.getElem_mem _)

/-- The entries. -/
private theorem projector_spec {h : Heap R} {t axis : ℕ} {A : Nd R} (hA : h.array t = some A)
    (hx : (h.node t).axis = some axis) (hax : axis < A.ndim) (hpos : ∀ d ∈ A.shape, 0 < d) (comp : Bool) :
    ∃ P, projector h t comp = .ok P ∧ P.Wf ∧ P.shape = A.shape.eraseIdx axis ++ A.shape.eraseIdx axis ∧
      ∀ p q, Valid (A.shape.eraseIdx axis) p → Valid (A.shape.eraseIdx axis) q → P.get (p ++ q) =
        if comp then (if p = q then 1 else 0) - ∑ i ∈ Finset.range (A.shape.getD axis 1),
          A.get (p.insertIdx axis i) * star (A.get (q.insertIdx axis i))
        else ∑ i ∈ Finset.range (A.shape.getD axis 1), A.get (p.insertIdx axis i) * star (A.get (q.insertIdx axis i)) := by
  have hd := pos_of hax hpos
  obtain ⟨a, a1, a2, a3, a4⟩ := Tensor.moveaxis_reshape_last A hax (by omega)
  obtain ⟨a0, b1, b2⟩ := bind_eq_ok.1 a1
  set d := A.shape.getD axis 1 with hdd
  set sh := A.shape.eraseIdx axis with hsh
  have hts : (a.transposeCore [1, 0]).shape = [d, sh.prod] := by
    simp only [Nd.transposeCore_shape, a3]; rfl
  have htg : ∀ x < d, ∀ y < sh.prod, (a.transposeCore [1, 0]).conj.get [x, y] = star (a.get [y, x]) := by
    intro x hx y hy
    rw [conj_get', Nd.get_transposeCore a (by rw [hts]; exact valid2 hx hy)]
    have : a.ndim = 2 := by unfold Nd.ndim; rw [a3]; rfl
    rw [this]
    rfl
  obtain ⟨c, c1, c2, c3, c4⟩ := Tensor.matmul_spec a (a.transposeCore [1, 0]).conj a3 (show _ = [d, sh.prod] from hts)
  have hcg : ∀ x < sh.prod, ∀ y < sh.prod, c.get [x, y] = ∑ i ∈ Finset.range d,
      A.get ((unravel sh x).insertIdx axis i) * star (A.get ((unravel sh y).insertIdx axis i)) := by
    intro x hx y hy
    rw [c4 x y hx hy]
    refine Finset.sum_congr rfl fun i hi => ?_
    have hi' := Finset.mem_range.1 hi
    rw [htg i hi' y hy, a4 i x hi' hx, a4 i y hi' hy]
  have key : ∀ (C : Nd R), C.Wf → C.shape = [sh.prod, sh.prod] → ∃ P, C.reshape (sh ++ sh) = .ok P ∧ P.Wf ∧
      P.shape = sh ++ sh ∧ ∀ p q, Valid sh p → Valid sh q → P.get (p ++ q) = C.get [ravel sh p, ravel sh q] := by
    intro C hC hCs
    refine ⟨⟨sh ++ sh, C.data⟩, ?_, ?_, rfl, fun p q hp hq => ?_⟩
    · unfold Nd.reshape
      rw [if_pos (by rw [hCs]; simp)]
    · unfold Nd.Wf at hC ⊢
      rw [hC, hCs]; simp
    · unfold Nd.get
      simp only [hCs]
      rw [ravel_append hp.length_eq]
      simp [ravel]
  have hpq : ∀ p q, Valid sh p → Valid sh q → (p = q ↔ ravel sh p = ravel sh q) := by
    intro p q hp hq
    refine ⟨fun e => by rw [e], fun e => ?_⟩
    rw [← unravel_ravel hp, ← unravel_ravel hq, e]
  cases comp with
  | false =>
    obtain ⟨P, p1, p2, p3, p4⟩ := key c c2 c3
    refine ⟨P, ?_, p2, p3, fun p q hp hq => ?_⟩
    · unfold projector
      rw [hx, hA]
      simp only
      rw [if_neg (by omega)]
      simp only [← hdd, ← hsh, b1, ok_bind, b2, c1]
      simpa using p1
    · rw [p4 p q hp hq, hcg _ (ravel_lt hp) _ (ravel_lt hq), unravel_ravel hp, unravel_ravel hq]
      simp
  | true =>
    have hI : (identity sh.prod : Nd R).Wf := Nd.ofFn_wf _ _
    set e : Nd R := ⟨[sh.prod, sh.prod], List.zipWith (· - ·) (identity sh.prod : Nd R).data c.data⟩ with he
    have hsub : (identity sh.prod : Nd R).sub c = .ok e := by
      unfold Nd.sub
      rw [if_pos (by rw [c3]; rfl)]
      rfl
    have hew : e.Wf := by
      unfold Nd.Wf at hI c2 ⊢
      rw [he]
      simp only [List.length_zipWith, hI, c2, c3]
      simp [identity, Nd.ofFn]
    have heg : ∀ x < sh.prod, ∀ y < sh.prod, e.get [x, y] = (if x = y then 1 else 0) - c.get [x, y] := by
      intro x hx y hy
      have hi : (identity sh.prod : Nd R).get [x, y] = if x = y then 1 else 0 := Nd.get_ofFn _ (valid2 hx hy)
      have hlt := ravel_lt (valid2 hx hy)
      have l1 : (identity sh.prod : Nd R).data.length = [sh.prod, sh.prod].prod := hI
      have l2 : c.data.length = [sh.prod, sh.prod].prod := by rw [← c3]; exact c2
      rw [← hi]
      unfold Nd.get
      simp only [c3, he]
      rw [List.getD_eq_getElem _ _ (by rw [List.length_zipWith, l1, l2]; simpa using hlt),
        List.getElem_zipWith, List.getD_eq_getElem _ _ (by rw [l1]; exact hlt),
        List.getD_eq_getElem _ _ (by rw [l2]; exact hlt)]
      rfl
    obtain ⟨P, p1, p2, p3, p4⟩ := key e hew rfl
    refine ⟨P, ?_, p2, p3, fun p q hp hq => ?_⟩
    · unfold projector
      rw [hx, hA]
      simp only
      rw [if_neg (by omega)]
      simp only [← hdd, ← hsh, b1, ok_bind, b2, c1, hsub, if_true]
      exact p1
    · rw [p4 p q hp hq, heg _ (ravel_lt hp) _ (ravel_lt hq), hcg _ (ravel_lt hp) _ (ravel_lt hq), unravel_ravel hp,
        unravel_ravel hq]
      simp only [if_true, hpq p q hp hq]

/-- An orthogonal projector: Hermitian and idempotent, on the indices of shape `sh`. -/
structure IsProjector (sh : List ℕ) (P : Nd R) : Prop where
  wf : P.Wf
  shape : P.shape = sh ++ sh
  hermitian : ∀ p q, Valid sh p → Valid sh q → P.get (p ++ q) = star (P.get (q ++ p))
  idempotent : ∀ p q, Valid sh p → Valid sh q → sumIdx sh (fun s => P.get (p ++ s) * P.get (s ++ q)) = P.get (p ++ q)

private theorem sumIdx_fin_sum (sh : List ℕ) (d : ℕ) (f : List ℕ → ℕ → R) :
    sumIdx sh (fun s => ∑ i ∈ Finset.range d, f s i) = ∑ i ∈ Finset.range d, sumIdx sh (fun s => f s i) :=
  sumIdx_sum sh (Finset.range d) f

private theorem sumIdx_delta {sh : List ℕ} {p : List ℕ} (hp : Valid sh p) (f : List ℕ → R) :
    sumIdx sh (fun s => (if p = s then 1 else 0) * f s) = f p := by
  rw [sumIdx_eq_sum_range, Finset.sum_eq_single (ravel sh p)]
  · rw [unravel_ravel hp, if_pos rfl, one_mul]
  · intro k hk hne
    rw [if_neg, zero_mul]
    intro e
    apply hne
    rw [e, ravel_unravel (Finset.mem_range.1 hk)]
  · intro hk
    exact absurd (Finset.mem_range.2 (ravel_lt hp)) hk

/-- For a tensor with orthonormal slices along its axis, `projector()` is an orthogonal projector that fixes every
slice. -/
theorem C19_projector {h : Heap R} {t axis : ℕ} {A : Nd R} (hA : h.array t = some A)
    (hx : (h.node t).axis = some axis) (hpos : ∀ d ∈ A.shape, 0 < d) (hc : h.Canonical t axis) :
    ∃ P, projector h t false = .ok P ∧ IsProjector (A.shape.eraseIdx axis) P ∧
      ∀ i < A.shape.getD axis 1, ∀ p, Valid (A.shape.eraseIdx axis) p →
        sumIdx (A.shape.eraseIdx axis) (fun q => P.get (p ++ q) * A.get (q.insertIdx axis i)) =
          A.get (p.insertIdx axis i) := by
  obtain ⟨A', hA', hax, hon⟩ := hc
  obtain rfl : A = A' := Option.some.inj (hA.symm.trans hA')
  obtain ⟨P, p1, p2, p3, p4⟩ := projector_spec hA hx hax hpos false
  simp only [Bool.false_eq_true, if_false] at p4
  set sh := A.shape.eraseIdx axis with hsh
  set d := A.shape.getD axis 1 with hd
  have hfix : ∀ i < d, ∀ p, Valid sh p → sumIdx sh (fun q => P.get (p ++ q) * A.get (q.insertIdx axis i)) =
      A.get (p.insertIdx axis i) := by
    intro i hi p hp
    rw [sumIdx_congr (g := fun q => ∑ j ∈ Finset.range d,
      A.get (p.insertIdx axis j) * (A.get (q.insertIdx axis i) * star (A.get (q.insertIdx axis j))))
      (fun q hq => by rw [p4 p q hp hq, Finset.sum_mul]; exact Finset.sum_congr rfl fun j _ => by ring)]
    rw [sumIdx_fin_sum]
    have : ∀ j ∈ Finset.range d, sumIdx sh (fun q => A.get (p.insertIdx axis j) *
        (A.get (q.insertIdx axis i) * star (A.get (q.insertIdx axis j)))) =
        A.get (p.insertIdx axis j) * (if i = j then 1 else 0) := by
      intro j hj
      rw [sumIdx_mul_left, hon i j hi (Finset.mem_range.1 hj)]
    rw [Finset.sum_congr rfl this]
    simp [hi]
  refine ⟨P, p1, ⟨p2, p3, fun p q hp hq => ?_, fun p q hp hq => ?_⟩, hfix⟩
  · rw [p4 p q hp hq, p4 q p hq hp, star_sum]
    refine Finset.sum_congr rfl fun i _ => ?_
    rw [star_mul, star_star]
  · rw [sumIdx_congr (g := fun s => ∑ i ∈ Finset.range d,
      (P.get (p ++ s) * A.get (s.insertIdx axis i)) * star (A.get (q.insertIdx axis i)))
      (fun s hs => by rw [p4 s q hs hq, Finset.mul_sum]; exact Finset.sum_congr rfl fun j _ => by ring)]
    rw [sumIdx_fin_sum, p4 p q hp hq]
    refine Finset.sum_congr rfl fun i hi => ?_
    rw [sumIdx_mul_right, hfix i (Finset.mem_range.1 hi) p hp]

/-- `projector(comp=True)` is the complementary one: identity minus `projector()`; it is an orthogonal projector too,
and maps every slice to zero. -/
theorem C19_comp {h : Heap R} {t axis : ℕ} {A : Nd R} (hA : h.array t = some A)
    (hx : (h.node t).axis = some axis) (hpos : ∀ d ∈ A.shape, 0 < d) (hc : h.Canonical t axis) :
    ∃ P Q, projector h t false = .ok P ∧ projector h t true = .ok Q ∧ IsProjector (A.shape.eraseIdx axis) Q ∧
      (∀ p q, Valid (A.shape.eraseIdx axis) p → Valid (A.shape.eraseIdx axis) q →
        Q.get (p ++ q) = (if p = q then 1 else 0) - P.get (p ++ q)) ∧
      ∀ i < A.shape.getD axis 1, ∀ p, Valid (A.shape.eraseIdx axis) p →
        sumIdx (A.shape.eraseIdx axis) (fun q => Q.get (p ++ q) * A.get (q.insertIdx axis i)) = 0 := by
  obtain ⟨P, p1, p2, p3⟩ := C19_projector hA hx hpos hc
  obtain ⟨A', hA', hax, hon⟩ := hc
  obtain rfl : A = A' := Option.some.inj (hA.symm.trans hA')
  obtain ⟨P', e1, e2, e3, e4⟩ := projector_spec hA hx hax hpos false
  rw [p1] at e1
  cases e1
  obtain ⟨Q, q1, q2, q3, q4⟩ := projector_spec hA hx hax hpos true
  simp only [Bool.false_eq_true, if_false] at e4
  simp only [if_true] at q4
  set sh := A.shape.eraseIdx axis with hsh
  have hQ : ∀ p q, Valid sh p → Valid sh q → Q.get (p ++ q) = (if p = q then 1 else 0) - P.get (p ++ q) := by
    intro p q hp hq
    rw [q4 p q hp hq, e4 p q hp hq]
  have hsub : ∀ f g : List ℕ → R, sumIdx sh (fun s => f s - g s) = sumIdx sh f - sumIdx sh g := by
    intro f g
    rw [sumIdx_eq_sum_range, sumIdx_eq_sum_range, sumIdx_eq_sum_range, Finset.sum_sub_distrib]
  refine ⟨P, Q, p1, q1, ⟨q2, q3, fun p q hp hq => ?_, fun p q hp hq => ?_⟩, hQ, fun i hi p hp => ?_⟩
  · rw [hQ p q hp hq, hQ q p hq hp, star_sub, ← p2.hermitian p q hp hq]
    by_cases e : p = q
    · subst e; simp
    · rw [if_neg e, if_neg (fun h => e h.symm)]; simp
  · rw [sumIdx_congr (g := fun s => (if p = s then 1 else 0) * Q.get (s ++ q) - (P.get (p ++ s) * (if s = q then 1 else 0) -
      P.get (p ++ s) * P.get (s ++ q))) (fun s hs => by rw [hQ p s hp hs, hQ s q hs hq]; ring)]
    rw [hsub, sumIdx_delta hp, hsub, p2.idempotent p q hp hq]
    rw [sumIdx_congr (g := fun s => (if q = s then 1 else 0) * P.get (p ++ s))
      (fun s _ => by rw [mul_comm]; simp only [eq_comm])]
    rw [sumIdx_delta hq]
    ring
  · rw [sumIdx_congr (g := fun s => (if p = s then 1 else 0) * A.get (s.insertIdx axis i) -
      P.get (p ++ s) * A.get (s.insertIdx axis i)) (fun s hs => by rw [hQ p s hp hs]; ring)]
    rw [hsub, sumIdx_delta hp, p3 i hi p hp, sub_self]

/-- A tensor without axis raises `RuntimeError`. -/
theorem C19_no_axis (h : Heap R) (t : ℕ) (comp : Bool) (hx : (h.node t).axis = none) :
    projector h t comp = .error .runtimeError := by
  unfold projector
  rw [hx]

/-! ### A case, over the rationals: two orthonormal slices `(3/5, 0, 4/5)` and `(0, 1, 0)` along axis 1. -/

def exProj : Heap ℚ :=
  ⟨fun _ => Node.tensor none (some ⟨[3, 2], [3 / 5, 0, 0, 1, 4 / 5, 0]⟩) (some 1), 1⟩

example : ∃ P, projector exProj 0 false = .ok P ∧ IsProjector [3] P := by
  obtain ⟨P, h1, h2, -⟩ := C19_projector (h := exProj) (t := 0) (axis := 1) rfl rfl (by decide)
    ⟨_, rfl, by decide, fun z w hz hw => by
      change z < 2 at hz
      change w < 2 at hw
      obtain rfl | rfl : z = 0 ∨ z = 1 := by omega
      all_goals obtain rfl | rfl : w = 0 ∨ w = 1 := by omega
      all_goals decide +kernel⟩
  exact ⟨P, h1, h2⟩

example : (projector exProj 0 false).toOption.map (fun p => (p.shape, p.data)) =
    some ([3, 3], [9 / 25, 0, 12 / 25, 0, 1, 0, 12 / 25, 0, 16 / 25]) := by decide +kernel

end Heap
