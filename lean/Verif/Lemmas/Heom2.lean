import Verif.Lemmas.Heom
import Mathlib.Algebra.BigOperators.Ring.List

/-! How the terms of `eom2.py` and `eom.py` act. -/

open scoped BigOperators
open Py

namespace Heom

theorem transpose_shape {M : Nd ℂ} {d : ℕ} (hM : M.shape = [d, d]) : (transpose M).shape = [d, d] := by
  simp [transpose, hM]

theorem transpose_get {M : Nd ℂ} {d a b : ℕ} (hM : M.shape = [d, d]) (ha : a < d) (hb : b < d) : (transpose M).get [a, b] = M.get [b, a] := by
  unfold transpose
  rw [Nd.get_transposeCore _ (by simp [Valid, hM, ha, hb])]
  simp [Nd.ndim, hM, List.range_succ, List.idxOf_cons]

theorem sum_left (d : ℕ) (z : ℂ) (F G : ℕ → ℂ) :
    (∑ s ∈ Finset.range d, F s * (z * G s)) = z * ∑ s ∈ Finset.range d, G s * F s := by
  rw [Finset.mul_sum]
  exact Finset.sum_congr rfl fun s _ => by ring

theorem sum_right (d : ℕ) (z : ℂ) (F G : ℕ → ℂ) :
    (∑ s ∈ Finset.range d, F s * (z * G s)) = z * ∑ s ∈ Finset.range d, F s * G s := by
  rw [Finset.mul_sum]
  exact Finset.sum_congr rfl fun s _ => by ring

namespace Hierachy2

variable (H : Hierachy2)

theorem num_ok {k : ℕ} (hk : k < H.nDims.length) : H.numberer k = .ok (npDiag (arange (H.nDims.getD k 0))) := by
  unfold numberer; rw [item_ok hk 0, ok_bind]; rfl
theorem sqrtNum_ok {k : ℕ} (hk : k < H.nDims.length) : H.sqrtNumberer k = .ok (npDiag (sqrtArange (H.nDims.getD k 0))) := by
  unfold sqrtNumberer; rw [item_ok hk 0, ok_bind]; rfl
theorem raiser_ok {k : ℕ} (hk : k < H.nDims.length) : H.raiser k = .ok (npEye (H.nDims.getD k 0) 1) := by
  unfold raiser; rw [item_ok hk 0, ok_bind]; rfl
theorem lower_ok {k : ℕ} (hk : k < H.nDims.length) : H.lower k = .ok (npEye (H.nDims.getD k 0) (-1)) := by
  unfold lower; rw [item_ok hk 0, ok_bind]; rfl
theorem raiser1_ok {k : ℕ} (hk : k < H.nDims.length) : H.raiser1 k = .ok (npEye (H.nDims.getD k 0) (-1)) := by
  unfold raiser1; rw [item_ok hk 0, ok_bind]; rfl
theorem lower1_ok {k : ℕ} (hk : k < H.nDims.length) : H.lower1 k = .ok (npEye (H.nDims.getD k 0) 1) := by
  unfold lower1; rw [item_ok hk 0, ok_bind]; rfl

/-- The number operator on the members. -/
theorem number_term {k d a b : ℕ} {n : List ℕ} (hn : Valid H.nDims n) (hk : k < H.nDims.length) (rho : Nd ℂ) (z : ℂ) :
    termFn (H.nDims ++ [d, d]) [(k, Nd.smul z (npDiag (arange (H.nDims.getD k 0))))] rho.get (n ++ [a, b]) =
      z * n.getD k 0 * tier rho n a b := by
  rw [term_k _ _ hn.length_eq hk, sum_diag (hn.getD_lt hk 0 0) (fun x => rho.get (n.set k x ++ [a, b]))
    (fun x => z * (x : ℂ)) (fun a b ha hb => by rw [smul_get, arange_diag_get ha hb]; split <;> simp)]
  rw [set_self (by have := hn.length_eq; omega)]
  rfl

theorem diffIJ_ok {d : ℕ} (hh : H.h.shape = [d, d]) : (∀ t ∈ H.diffIJ, Fits (H.nDims ++ [d, d]) t) ∧
    ∀ rho n a b, Valid H.nDims n → a < d → b < d →
      (H.diffIJ.map fun t => termFn (H.nDims ++ [d, d]) t rho.get (n ++ [a, b])).sum =
        -Complex.I * ((∑ s ∈ Finset.range d, H.h.get [a, s] * tier rho n s b) - ∑ s ∈ Finset.range d, tier rho n a s * H.h.get [s, b]) := by
  refine ⟨?_, ?_⟩
  · intro t ht
    simp only [diffIJ, List.mem_cons, List.not_mem_nil, or_false] at ht
    rcases ht with rfl | rfl
    · exact fits_i _ (transpose_shape hh) fits_nil
    · exact fits_j _ hh fits_nil
  · intro rho n a b hn ha hb
    simp only [diffIJ, List.map_cons, List.map_nil, List.sum_cons, List.sum_nil]
    unfold i j
    rw [term_i _ _ hn.length_eq, term_j _ _ hn.length_eq]
    simp only [smul_get]
    rw [sum_left, sum_right, Finset.sum_congr (s₁ := Finset.range d) (g := fun s => H.h.get [a, s] * rho.get (n ++ [s, b])) rfl
      fun s hs => by rw [transpose_get hh (Finset.mem_range.1 hs) ha]]
    unfold tier
    ring

theorem diffK_ok {d k : ℕ} (hop : H.op.shape = [d, d]) (hk : k < H.nDims.length) (h1 : H.nDims.length ≤ H.corr.symm.length)
    (h2 : H.nDims.length ≤ H.corr.asymm.length) :
    ∃ ts, H.diffK k = .ok ts ∧ (∀ t ∈ ts, Fits (H.nDims ++ [d, d]) t) ∧
      ∀ rho n a b, Valid H.nDims n → a < d → b < d →
        (ts.map fun t => termFn (H.nDims ++ [d, d]) t rho.get (n ++ [a, b])).sum =
          - Complex.I * ((∑ s ∈ Finset.range d, H.op.get [a, s] *
              ((H.corr.symm.getD k 0 + Complex.I * H.corr.asymm.getD k 0) * (n.getD k 0 : ℂ) * below rho n k s b +
                1 * above H.nDims rho n k s b))
            - ∑ s ∈ Finset.range d, ((starRingEnd ℂ) (H.corr.symm.getD k 0 + Complex.I * H.corr.asymm.getD k 0) * (n.getD k 0 : ℂ) *
                below rho n k a s + 1 * above H.nDims rho n k a s) * H.op.get [s, b]) := by
  obtain ⟨M, m1, m2, m3, m4⟩ := eye_matmul 1 (arange_shape (H.nDims.getD k 0)) (fun a b ha hb => arange_diag_get ha hb)
  have hl4 : ∀ a b, a < H.nDims.getD k 0 → b < H.nDims.getD k 0 →
      (npEye (H.nDims.getD k 0) (-1)).get [a, b] = if (b : ℤ) = a + -1 then (fun _ => (1 : ℂ)) b else 0 := fun a b ha hb => eye_get _ ha hb
  refine ⟨[[(H.i, Nd.smul (-1 * Complex.I / hbar) (transpose H.op)), (k, npEye (H.nDims.getD k 0) (-1))],
    [(H.j, Nd.smul (1 * Complex.I / hbar) H.op), (k, npEye (H.nDims.getD k 0) (-1))],
    [(H.i, Nd.smul (-1 * Complex.I / hbar * (H.corr.symm.getD k 0 + Complex.I * H.corr.asymm.getD k 0)) (transpose H.op)), (k, M)],
    [(H.j, Nd.smul (1 * Complex.I / hbar * (starRingEnd ℂ) (H.corr.symm.getD k 0 + Complex.I * H.corr.asymm.getD k 0)) H.op), (k, M)]],
    ?_, ?_, ?_⟩
  · unfold diffK
    rw [item_ok (lt_of_lt_of_le hk h1) 0, ok_bind, item_ok (lt_of_lt_of_le hk h2) 0, ok_bind]
    dsimp only
    rw [H.num_ok hk, ok_bind, H.raiser_ok hk, ok_bind, H.lower_ok hk, ok_bind, m1, ok_bind]
    rfl
  · intro t ht
    simp only [List.mem_cons, List.not_mem_nil, or_false] at ht
    rcases ht with rfl | rfl | rfl | rfl
    · exact fits_i _ (transpose_shape hop) (fits_k _ hk (eye_shape _ _) fits_nil)
    · exact fits_j _ hop (fits_k _ hk (eye_shape _ _) fits_nil)
    · exact fits_i _ (transpose_shape hop) (fits_k _ hk m3 fits_nil)
    · exact fits_j _ hop (fits_k _ hk m3 fits_nil)
  · intro rho n a b hn ha hb
    have hl := hn.length_eq
    simp only [List.map_cons, List.map_nil, List.sum_cons, List.sum_nil]
    unfold i j
    rw [term_ik _ _ _ hl hk, term_jk _ _ _ hl hk, term_ik _ _ _ hl hk, term_jk _ _ _ hl hk]
    simp only [ladder hn hk rho m4, ladder_up hn hk rho hl4, smul_get]
    rw [mul_sub, Finset.mul_sum, Finset.mul_sum, ← Finset.sum_sub_distrib, add_zero, ← Finset.sum_add_distrib, ← Finset.sum_add_distrib,
      ← Finset.sum_add_distrib]
    refine Finset.sum_congr rfl fun s hs => ?_
    rw [transpose_get hop (Finset.mem_range.1 hs) ha]
    unfold hbar
    ring

/-- The exponents `eom2.py` uses: those that are almost zero are dropped. -/
noncomputable def rate (close : ℂ → Bool) (k : ℕ) : ℂ := if close (H.corr.exp.getD k 0) then 0 else -H.corr.exp.getD k 0

theorem diffN_ok {d : ℕ} {close : ℂ → Bool} (hc : close 0 = true) (h1 : H.nDims.length ≤ H.corr.exp.length) :
    ∃ ts, H.diffN close = .ok ts ∧ (∀ t ∈ ts, Fits (H.nDims ++ [d, d]) t) ∧
      ∀ rho n a b, Valid H.nDims n → a < d → b < d →
        (ts.map fun t => termFn (H.nDims ++ [d, d]) t rho.get (n ++ [a, b])).sum =
          ∑ k ∈ Finset.range H.nDims.length, H.rate close k * n.getD k 0 * tier rho n a b := by
  obtain ⟨tss, t1, t2, t3⟩ := mapM_terms (dims := H.nDims) (d := d)
    ((List.range H.nDims.length).flatMap fun i => (List.range H.nDims.length).map fun j => (i, j))
    (f := fun p : ℕ × ℕ => H.diffNPair close p.1 p.2)
    (G := fun rho n a b (p : ℕ × ℕ) => if p.1 = p.2 then H.rate close p.1 * n.getD p.1 0 * tier rho n a b else 0) (by
      rintro ⟨i, j⟩ hp
      simp only [List.mem_flatMap, List.mem_map, List.mem_range, Prod.mk.injEq] at hp
      obtain ⟨i', hi, j', hj, rfl, rfl⟩ := hp
      dsimp only
      unfold diffNPair
      rw [if_neg (by push Not; omega)]
      by_cases hij : i' = j'
      · subst hij
        simp only [if_true, pure_bind]
        by_cases hcl : close (H.corr.exp.getD i' 0)
        · rw [if_pos hcl]
          refine ⟨[], rfl, by simp, ?_⟩
          intro rho n a b _ _ _
          simp [rate, -List.getD_eq_getElem?_getD, hcl]
        · rw [if_neg hcl, H.num_ok hi, ok_bind]
          refine ⟨_, rfl, ?_, ?_⟩
          · intro t ht
            obtain rfl := List.mem_singleton.1 ht
            exact fits_k _ hi (arange_shape _) fits_nil
          · intro rho n a b hn _ _
            simp only [List.map_cons, List.map_nil, List.sum_cons, List.sum_nil, add_zero]
            rw [H.number_term hn hi]
            unfold rate
            rw [if_neg hcl]
      · simp only [if_neg hij, pure_bind, hc, if_true]
        exact ⟨[], rfl, by simp, by simp⟩)
  refine ⟨tss.flatten, ?_, t2, ?_⟩
  · unfold diffN
    dsimp only
    rw [t1, ok_bind]
    rfl
  · intro rho n a b hn ha hb
    rw [t3 rho n a b hn ha hb]
    generalize H.nDims.length = m
    have key : ∀ l : List ℕ, ((l.flatMap fun i => (List.range m).map fun j => (i, j)).map fun p : ℕ × ℕ =>
        if p.1 = p.2 then H.rate close p.1 * n.getD p.1 0 * tier rho n a b else 0).sum =
        (l.map fun k => if k < m then H.rate close k * n.getD k 0 * tier rho n a b else 0).sum := by
      intro l
      induction l with
      | nil => rfl
      | cons k l ih =>
        rw [List.flatMap_cons, List.map_append, List.sum_append, ih, List.map_cons, List.sum_cons, List.map_map]
        congr 1
        rw [show ((fun p : ℕ × ℕ => if p.1 = p.2 then H.rate close p.1 * n.getD p.1 0 * tier rho n a b else 0) ∘ fun j => (k, j)) =
          fun j => if k = j then H.rate close k * n.getD k 0 * tier rho n a b else 0 from rfl, sum_range_list, Finset.sum_ite_eq]
        simp
    rw [key, sum_range_list]
    exact Finset.sum_congr rfl fun k hk => if_pos (Finset.mem_range.1 hk)

/-- The whole derivative of `eom2.py`. -/
theorem diff_ok {d : ℕ} {close : ℂ → Bool} (hc : close 0 = true) (hh : H.h.shape = [d, d]) (hop : H.op.shape = [d, d])
    (h1 : H.nDims.length ≤ H.corr.symm.length)
    (h2 : H.nDims.length ≤ H.corr.asymm.length) (h3 : H.nDims.length ≤ H.corr.exp.length)
    (rho : Nd ℂ) (hw : rho.Wf) (hs : rho.shape = H.nDims ++ [d, d]) :
    ∃ ts D, H.diff close = .ok ts ∧ derivativeOf ts rho = .ok D ∧ D.Wf ∧ D.shape = rho.shape ∧
      ∀ n a b, Valid H.nDims n → a < d → b < d → tier D n a b =
        heomRhs d H.nDims (entries H.h) (entries H.op) (H.rate close)
          (fun k => H.corr.symm.getD k 0 + Complex.I * H.corr.asymm.getD k 0)
          (fun k => (starRingEnd ℂ) (H.corr.symm.getD k 0 + Complex.I * H.corr.asymm.getD k 0))
          (fun m => (m : ℂ)) (fun _ => 1) rho n a b := by
  obtain ⟨tss, t1, t2, t3⟩ := mapM_terms (List.range H.nDims.length) (dims := H.nDims) (d := d) (f := H.diffK)
    fun k hk => H.diffK_ok hop (List.mem_range.1 hk) h1 h2
  obtain ⟨tn, n1, n2, n3⟩ := H.diffN_ok (d := d) hc h3
  obtain ⟨i1, i2⟩ := H.diffIJ_ok hh
  have hall : ∀ t ∈ H.diffIJ ++ tn ++ tss.flatten, Fits (H.nDims ++ [d, d]) t := by
    intro t ht
    rcases List.mem_append.1 ht with ht | ht
    · exact (List.mem_append.1 ht).elim (i1 t) (n2 t)
    · exact t2 t ht
  obtain ⟨D, d1, d2, d3, d4⟩ := derivativeOf_ok _ hall rho hw hs
  refine ⟨_, D, by unfold diff; rw [n1, ok_bind, t1, ok_bind]; rfl, d1, d2, d3.trans hs.symm, ?_⟩
  intro n a b hn ha hb
  conv_lhs => unfold tier
  rw [d4 _ (valid_append hn (by simpa [Valid] using ⟨ha, hb⟩)), List.map_append, List.sum_append, List.map_append, List.sum_append,
    t3 _ _ _ _ hn ha hb, sum_range_list, i2 _ _ _ _ hn ha hb, n3 _ _ _ _ hn ha hb, add_assoc, ← Finset.sum_add_distrib]
  unfold heomRhs entries
  dsimp only
  congr 1
  exact Finset.sum_congr rfl fun k _ => by ring

theorem diffN1_ok {d : ℕ} (h1 : H.corr.exp.length = H.nDims.length) :
    ∃ ts, H.diffN1 = .ok ts ∧ (∀ t ∈ ts, Fits (H.nDims ++ [d, d]) t) ∧
      ∀ rho n a b, Valid H.nDims n → a < d → b < d →
        (ts.map fun t => termFn (H.nDims ++ [d, d]) t rho.get (n ++ [a, b])).sum =
          ∑ k ∈ Finset.range H.nDims.length, -H.corr.exp.getD k 0 * n.getD k 0 * tier rho n a b := by
  have hz : H.corr.exp.zipIdx = (List.range H.nDims.length).map fun k => (H.corr.exp.getD k 0, k) := by
    rw [← h1]
    apply List.ext_getElem?
    intro k
    rw [List.getElem?_zipIdx, List.getElem?_map]
    by_cases hk : k < H.corr.exp.length
    · simp [hk]
    · simp [hk]
  obtain ⟨tss, t1, t2, t3⟩ := mapM_terms (dims := H.nDims) (d := d) H.corr.exp.zipIdx
    (f := fun x : ℂ × ℕ => do
      let num ← H.numberer x.2
      pure [[(x.2, Nd.smul (-x.1) num)]])
    (G := fun rho n a b x => -x.1 * n.getD x.2 0 * tier rho n a b) (by
      rintro ⟨g, k⟩ hp
      rw [hz] at hp
      simp only [List.mem_map, List.mem_range, Prod.mk.injEq] at hp
      obtain ⟨k', hk, rfl, rfl⟩ := hp
      dsimp only
      rw [H.num_ok hk, ok_bind]
      refine ⟨_, rfl, ?_, ?_⟩
      · intro t ht
        obtain rfl := List.mem_singleton.1 ht
        exact fits_k _ hk (arange_shape _) fits_nil
      · intro rho n a b hn _ _
        simp only [List.map_cons, List.map_nil, List.sum_cons, List.sum_nil, add_zero]
        rw [H.number_term hn hk])
  refine ⟨tss.flatten, ?_, t2, ?_⟩
  · unfold diffN1
    rw [t1, ok_bind]
    rfl
  · intro rho n a b hn ha hb
    rw [t3 rho n a b hn ha hb, hz, List.map_map, ← sum_range_list]
    rfl

theorem diffK1_ok {d k : ℕ} (hop : H.op.shape = [d, d]) (hk : k < H.nDims.length) (h1 : H.nDims.length ≤ H.corr.symm.length)
    (h2 : H.nDims.length ≤ H.corr.asymm.length) :
    ∃ ts, H.diffK1 k = .ok ts ∧ (∀ t ∈ ts, Fits (H.nDims ++ [d, d]) t) ∧
      ∀ rho n a b, Valid H.nDims n → a < d → b < d →
        (ts.map fun t => termFn (H.nDims ++ [d, d]) t rho.get (n ++ [a, b])).sum =
          - Complex.I * ((∑ s ∈ Finset.range d, H.op.get [s, a] *
              (((Real.sqrt (n.getD k 0 - 1 : ℕ) : ℝ) : ℂ) * below rho n k s b +
                (H.corr.symm.getD k 0 + Complex.I * H.corr.asymm.getD k 0) * (((Real.sqrt (n.getD k 0 : ℕ) : ℝ) : ℂ) *
                  above H.nDims rho n k s b)))
            - ∑ s ∈ Finset.range d, (((Real.sqrt (n.getD k 0 - 1 : ℕ) : ℝ) : ℂ) * below rho n k a s +
                (starRingEnd ℂ) (H.corr.symm.getD k 0 + Complex.I * H.corr.asymm.getD k 0) *
                  (((Real.sqrt (n.getD k 0 : ℕ) : ℝ) : ℂ) * above H.nDims rho n k a s)) * H.op.get [s, b]) := by
  obtain ⟨M, m1, m2, m3, m4⟩ := eye_matmul (-1) (sqrt_shape (H.nDims.getD k 0)) (fun a b ha hb => sqrt_diag_get ha hb)
  obtain ⟨L, l1, l2, l3, l4⟩ := matmul_eye 1 (sqrt_shape (H.nDims.getD k 0)) (fun a b ha hb => sqrt_diag_get ha hb)
  have l4' : ∀ a b, a < H.nDims.getD k 0 → b < H.nDims.getD k 0 →
      L.get [a, b] = if (b : ℤ) = a + 1 then (fun b : ℕ => ((Real.sqrt (b - 1 : ℕ) : ℝ) : ℂ)) b else 0 := by
    intro a b ha hb
    rw [l4 a b ha hb]
    by_cases h : (b : ℤ) = a + 1
    · rw [if_pos h, if_pos h]
      beta_reduce
      rw [show b - 1 = a by omega]
    · rw [if_neg h, if_neg h]
  refine ⟨[[(H.i, Nd.smul (-1 * Complex.I / hbar) H.op), (k, L)],
    [(H.j, Nd.smul (1 * Complex.I / hbar) H.op), (k, L)],
    [(H.i, Nd.smul (-1 * Complex.I / hbar * (H.corr.symm.getD k 0 + Complex.I * H.corr.asymm.getD k 0)) H.op), (k, M)],
    [(H.j, Nd.smul (1 * Complex.I / hbar * (starRingEnd ℂ) (H.corr.symm.getD k 0 + Complex.I * H.corr.asymm.getD k 0)) H.op), (k, M)]],
    ?_, ?_, ?_⟩
  · unfold diffK1
    rw [item_ok (lt_of_lt_of_le hk h1) 0, ok_bind, item_ok (lt_of_lt_of_le hk h2) 0, ok_bind]
    dsimp only
    rw [H.sqrtNum_ok hk, ok_bind, H.raiser1_ok hk, ok_bind, H.lower1_ok hk, ok_bind, l1, ok_bind, m1, ok_bind]
    rfl
  · intro t ht
    simp only [List.mem_cons, List.not_mem_nil, or_false] at ht
    rcases ht with rfl | rfl | rfl | rfl
    · exact fits_i _ hop (fits_k _ hk l3 fits_nil)
    · exact fits_j _ hop (fits_k _ hk l3 fits_nil)
    · exact fits_i _ hop (fits_k _ hk m3 fits_nil)
    · exact fits_j _ hop (fits_k _ hk m3 fits_nil)
  · intro rho n a b hn ha hb
    have hl := hn.length_eq
    simp only [List.map_cons, List.map_nil, List.sum_cons, List.sum_nil]
    unfold i j
    rw [term_ik _ _ _ hl hk, term_jk _ _ _ hl hk, term_ik _ _ _ hl hk, term_jk _ _ _ hl hk]
    simp only [ladder_up hn hk rho m4, ladder hn hk rho l4', smul_get]
    rw [mul_sub, Finset.mul_sum, Finset.mul_sum, ← Finset.sum_sub_distrib, add_zero, ← Finset.sum_add_distrib, ← Finset.sum_add_distrib,
      ← Finset.sum_add_distrib]
    refine Finset.sum_congr rfl fun s hs => ?_
    unfold hbar
    ring

/-- The whole derivative of `eom.py`. -/
theorem diff1_ok {d : ℕ} (hh : H.h.shape = [d, d]) (hop : H.op.shape = [d, d])
    (h1 : H.nDims.length ≤ H.corr.symm.length)
    (h2 : H.nDims.length ≤ H.corr.asymm.length) (h3 : H.corr.exp.length = H.nDims.length)
    (rho : Nd ℂ) (hw : rho.Wf) (hs : rho.shape = H.nDims ++ [d, d]) :
    ∃ ts D, H.diff1 = .ok ts ∧ derivativeOf ts rho = .ok D ∧ D.Wf ∧ D.shape = rho.shape ∧
      ∀ n a b, Valid H.nDims n → a < d → b < d → tier D n a b =
        -Complex.I * ((∑ s ∈ Finset.range d, H.h.get [a, s] * tier rho n s b) - ∑ s ∈ Finset.range d, tier rho n a s * H.h.get [s, b]) +
        ∑ k ∈ Finset.range H.nDims.length, (-H.corr.exp.getD k 0 * n.getD k 0 * tier rho n a b
          - Complex.I * ((∑ s ∈ Finset.range d, H.op.get [s, a] *
              (((Real.sqrt (n.getD k 0 - 1 : ℕ) : ℝ) : ℂ) * below rho n k s b +
                (H.corr.symm.getD k 0 + Complex.I * H.corr.asymm.getD k 0) * (((Real.sqrt (n.getD k 0 : ℕ) : ℝ) : ℂ) *
                  above H.nDims rho n k s b)))
            - ∑ s ∈ Finset.range d, (((Real.sqrt (n.getD k 0 - 1 : ℕ) : ℝ) : ℂ) * below rho n k a s +
                (starRingEnd ℂ) (H.corr.symm.getD k 0 + Complex.I * H.corr.asymm.getD k 0) *
                  (((Real.sqrt (n.getD k 0 : ℕ) : ℝ) : ℂ) * above H.nDims rho n k a s)) * H.op.get [s, b])) := by
  obtain ⟨tss, t1, t2, t3⟩ := mapM_terms (List.range H.nDims.length) (dims := H.nDims) (d := d) (f := H.diffK1)
    fun k hk => H.diffK1_ok hop (List.mem_range.1 hk) h1 h2
  obtain ⟨tn, n1, n2, n3⟩ := H.diffN1_ok (d := d) h3
  obtain ⟨i1, i2⟩ := H.diffIJ_ok hh
  have hall : ∀ t ∈ H.diffIJ ++ tn ++ tss.flatten, Fits (H.nDims ++ [d, d]) t := by
    intro t ht
    rcases List.mem_append.1 ht with ht | ht
    · exact (List.mem_append.1 ht).elim (i1 t) (n2 t)
    · exact t2 t ht
  obtain ⟨D, d1, d2, d3, d4⟩ := derivativeOf_ok _ hall rho hw hs
  refine ⟨_, D, by unfold diff1; rw [n1, ok_bind, t1, ok_bind]; rfl, d1, d2, d3.trans hs.symm, ?_⟩
  intro n a b hn ha hb
  conv_lhs => unfold tier
  rw [d4 _ (valid_append hn (by simpa [Valid] using ⟨ha, hb⟩)), List.map_append, List.sum_append, List.map_append, List.sum_append,
    t3 _ _ _ _ hn ha hb, sum_range_list, i2 _ _ _ _ hn ha hb, n3 _ _ _ _ hn ha hb, add_assoc, ← Finset.sum_add_distrib]
  congr 1
  exact Finset.sum_congr rfl fun k _ => by ring

end Hierachy2

theorem prod_pos {dims : List ℕ} (hpos : ∀ m ∈ dims, 0 < m) : 0 < dims.prod :=
  Nat.pos_of_ne_zero fun h0 => by
    have := List.prod_eq_zero_iff.1 h0
    exact absurd (hpos 0 this) (by omega)

theorem valid_zeros {dims : List ℕ} (hpos : ∀ m ∈ dims, 0 < m) : Valid dims (List.replicate dims.length 0) := by
  induction dims with
  | nil => simp
  | cons m dims ih =>
    rw [List.length_cons, List.replicate_succ, valid_cons_cons]
    exact ⟨hpos m (by simp), ih fun x hx => hpos x (by simp [hx])⟩

theorem ravel_zero_iff {dims n : List ℕ} (hpos : ∀ m ∈ dims, 0 < m) (hn : Valid dims n) :
    ravel dims n = 0 ↔ n = List.replicate dims.length 0 := by
  have hz : ravel dims (List.replicate dims.length 0) = 0 := by
    clear hn
    induction dims with
    | nil => rfl
    | cons m dims ih =>
      rw [List.length_cons, List.replicate_succ, ravel, ih fun x hx => hpos x (by simp [hx])]
      simp
  constructor
  · intro h
    have h1 := unravel_ravel (valid_zeros hpos)
    rw [hz] at h1
    rw [← unravel_ravel hn, h, h1]
  · rintro rfl
    exact hz

/-! Consequences of the equations of motion. -/

section rhs

variable {d : ℕ} {dims : List ℕ} {h q : ℕ → ℕ → ℂ} {γ c c' down up : ℕ → ℂ} {rho : Nd ℂ}

theorem trace_comm (d : ℕ) (F G : ℕ → ℕ → ℂ) : (∑ a ∈ Finset.range d, ((∑ s ∈ Finset.range d, F a s * G s a) -
    ∑ s ∈ Finset.range d, G a s * F s a)) = 0 := by
  rw [Finset.sum_sub_distrib, sub_eq_zero]
  conv_rhs => rw [Finset.sum_comm]
  exact Finset.sum_congr rfl fun a _ => Finset.sum_congr rfl fun s _ => mul_comm _ _

theorem rhs_trace : (∑ a ∈ Finset.range d, heomRhs d dims h q γ c c' down up rho (List.replicate dims.length 0) a a) = 0 := by
  have hz : ∀ k, (List.replicate dims.length 0).getD k 0 = 0 := fun k => by
    rw [List.getD_eq_getElem?_getD, List.getElem?_replicate]; split <;> rfl
  have hb : ∀ k a b, below rho (List.replicate dims.length 0) k a b = 0 := fun k a b => if_pos (hz k)
  unfold heomRhs
  dsimp only
  simp only [hb, mul_zero, zero_add, hz, Nat.cast_zero, zero_mul, zero_sub]
  rw [Finset.sum_add_distrib, ← Finset.mul_sum, trace_comm, mul_zero, zero_add, Finset.sum_comm]
  refine Finset.sum_eq_zero fun k _ => ?_
  rw [Finset.sum_neg_distrib, ← Finset.mul_sum, trace_comm, mul_zero, neg_zero]

theorem star_sum_mul (d : ℕ) (F G : ℕ → ℂ) : (starRingEnd ℂ) (∑ s ∈ Finset.range d, F s * G s) =
    ∑ s ∈ Finset.range d, (starRingEnd ℂ) (G s) * (starRingEnd ℂ) (F s) := by
  rw [map_sum]
  exact Finset.sum_congr rfl fun s _ => by rw [map_mul, mul_comm]

theorem rhs_hermitian (hh : ∀ a b, a < d → b < d → h b a = (starRingEnd ℂ) (h a b))
    (hq : ∀ a b, a < d → b < d → q b a = (starRingEnd ℂ) (q a b)) (hγ : ∀ k, k < dims.length → (starRingEnd ℂ) (γ k) = γ k)
    (hc : ∀ k, k < dims.length → c' k = (starRingEnd ℂ) (c k)) (hd : ∀ m, (starRingEnd ℂ) (down m) = down m)
    (hu : ∀ m, (starRingEnd ℂ) (up m) = up m) (hr : AllHermitian d dims rho) {n : List ℕ} (hn : Valid dims n) {a b : ℕ} (ha : a < d)
    (hb : b < d) :
    heomRhs d dims h q γ c c' down up rho n b a = (starRingEnd ℂ) (heomRhs d dims h q γ c c' down up rho n a b) := by
  have hbelow : ∀ k a b, k < dims.length → a < d → b < d → below rho n k b a = (starRingEnd ℂ) (below rho n k a b) := by
    intro k a b hk ha hb
    unfold below
    split
    · simp
    · exact hr _ (valid_set hn (by have := hn.getD_lt hk 0 0; omega)) a b ha hb
  have habove : ∀ k a b, k < dims.length → a < d → b < d → above dims rho n k b a = (starRingEnd ℂ) (above dims rho n k a b) := by
    intro k a b hk ha hb
    unfold above
    split
    · rename_i hlt
      exact hr _ (valid_set hn hlt) a b ha hb
    · simp
  unfold heomRhs
  dsimp only
  rw [map_add, map_mul, map_neg, Complex.conj_I, map_sub, star_sum_mul, star_sum_mul, map_sum]
  refine congrArg₂ (· + ·) ?_ (Finset.sum_congr rfl fun k hk => ?_)
  · rw [Finset.sum_congr (s₁ := Finset.range d) (f := fun s => (starRingEnd ℂ) (tier rho n s b) * (starRingEnd ℂ) (h a s))
      (g := fun s => tier rho n b s * h s a) rfl fun s hs => by
        rw [hr n hn s b (Finset.mem_range.1 hs) hb, hh a s ha (Finset.mem_range.1 hs)],
      Finset.sum_congr (s₁ := Finset.range d) (f := fun s => (starRingEnd ℂ) (h s b) * (starRingEnd ℂ) (tier rho n a s))
      (g := fun s => h b s * tier rho n s a) rfl fun s hs => by
        rw [hr n hn a s ha (Finset.mem_range.1 hs), hh s b (Finset.mem_range.1 hs) hb]]
    ring
  · have hk := Finset.mem_range.1 hk
    rw [map_sub, map_mul, map_mul, hγ k hk, Complex.conj_natCast, hr n hn a b ha hb, map_mul, Complex.conj_I, map_sub, star_sum_mul,
      star_sum_mul]
    rw [Finset.sum_congr (s₁ := Finset.range d) (f := fun s => (starRingEnd ℂ) (c k * down (n.getD k 0) * below rho n k s b +
        up (n.getD k 0) * above dims rho n k s b) * (starRingEnd ℂ) (q a s))
      (g := fun s => (c' k * down (n.getD k 0) * below rho n k b s + up (n.getD k 0) * above dims rho n k b s) * q s a) rfl fun s hs => by
        have hs := Finset.mem_range.1 hs
        rw [map_add, map_mul, map_mul, map_mul, hd, hu, hc k hk, hbelow k s b hk hs hb, habove k s b hk hs hb, hq a s ha hs],
      Finset.sum_congr (s₁ := Finset.range d) (f := fun s => (starRingEnd ℂ) (q s b) *
        (starRingEnd ℂ) (c' k * down (n.getD k 0) * below rho n k a s + up (n.getD k 0) * above dims rho n k a s))
      (g := fun s => q b s * (c k * down (n.getD k 0) * below rho n k s a + up (n.getD k 0) * above dims rho n k s a)) rfl fun s hs => by
        have hs := Finset.mem_range.1 hs
        rw [map_add, map_mul, map_mul, map_mul, hd, hu, hc k hk, hbelow k a s hk ha hs, habove k a s hk ha hs, hq s b hs hb,
          Complex.conj_conj]]
    ring

end rhs

end Heom
