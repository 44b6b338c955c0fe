import Verif.Lemmas.Pade

/-!
Lemmas for C71: the poles and the residues of `Drude.pade`, and the error of the approximation.
-/

open scoped BigOperators Nat
open Polynomial Py

namespace Pade

/-- A list as a function of the index. -/
theorem list_range (l : List ℝ) : l = (List.range l.length).map fun i => l.getD i 0 := by
  apply List.ext_getElem
  · simp
  · intro i h1 h2
    simp [List.getElem?_eq_getElem h1]

theorem sub_ne {b : ℕ → ℝ} (hb : ∀ i, 0 < b i) (i : ℕ) : sub b i ≠ 0 := by
  unfold sub
  have := mul_pos (hb i) (hb (i + 1))
  positivity

theorem odd_prod (m : ℕ) : ∏ i ∈ Finset.range m, (2 * (i : ℝ) + 3) = (2 * m + 1)‼ := by
  induction m with
  | zero => simp [Nat.doubleFactorial]
  | succ m ih =>
    rw [Finset.prod_range_succ, ih, show 2 * (m + 1) + 1 = (2 * m + 1) + 2 by ring, Nat.doubleFactorial_add_two]
    push_cast
    ring

theorem odd_sum (N : ℕ) : ∑ i ∈ Finset.range (N + 1), (2 * ((2 * i : ℕ) : ℝ) + 5) = ((N + 1 : ℕ) : ℝ) * (2 * ((N + 1 : ℕ) : ℝ) + 3) := by
  induction N with
  | zero => norm_num
  | succ N ih =>
    rw [Finset.sum_range_succ, ih]
    push_cast
    ring

/-- The partial denominators. -/
noncomputable def bb (i : ℕ) : ℝ := 2 * i + 3

theorem bb_pos (i : ℕ) : 0 < bb i := by unfold bb; positivity

/-- The positive eigenvalues, the largest first, as a function of the index; their doubled inverses. -/
theorem half {m n : ℕ} {a : ℕ → ℝ} (ha : ∀ i, a i ≠ 0) {L : List ℝ} (hL : fromRoots L = jac m a) (hs : L.Pairwise (· ≥ ·)) (hm : 2 * n ≤ m) :
    ∃ p : ℕ → ℝ, (∀ i < n, 0 < p i) ∧ (∀ i j, i < j → j < n → p i < p j) ∧ L.take n = (List.range n).map fun i => 2 / p i := by
  have hlen := length_of_jac hL
  have hl : (L.take n).length = n := by rw [List.length_take, hlen]; omega
  have hn := jac_nodup ha hL
  have hp := take_pos hs hn (symm hL hs) (n := n) (by omega)
  have hr := list_range (L.take n)
  rw [hl] at hr
  have hget : ∀ i (h : i < n), (L.take n).getD i 0 = (L.take n)[i]'(by omega) := fun i h => List.getD_eq_getElem _ _ (by omega)
  have hpos : ∀ i < n, 0 < (L.take n).getD i 0 := fun i hi => by
    rw [hget i hi]; exact hp _ (List.getElem_mem _)
  refine ⟨fun i => 2 / (L.take n).getD i 0, fun i hi => div_pos two_pos (hpos i hi), fun i j hij hj => ?_, ?_⟩
  · have h1 : (L.take n)[i]'(by omega) ≥ (L.take n)[j]'(by omega) :=
      List.pairwise_iff_getElem.1 (hs.sublist (List.take_sublist n L)) i j _ _ hij
    have h2 : (L.take n)[i]'(by omega) ≠ (L.take n)[j]'(by omega) := fun h => by
      have := (List.Nodup.getElem_inj_iff (hn.sublist (List.take_sublist n L))).1 h
      omega
    rw [← hget i (by omega), ← hget j hj] at h1 h2
    exact div_lt_div_of_pos_left two_pos (hpos j hj) (lt_of_le_of_ne h1 h2.symm)
  · conv_lhs => rw [hr]
    refine List.map_congr_left fun i hi => ?_
    rw [div_div_cancel₀ two_ne_zero]

/-- The sign of the residues, by the Wronskian. -/
theorem weight_pos {n N : ℕ} {f g : ℝ[X]} {e e' : ℕ} {p q : ℕ → ℝ} (hp : ∀ i < n, 0 < p i) (hq : ∀ i < N, 0 < q i)
    (hf : ∀ x : ℝ, f.eval x = x ^ e * ∏ i ∈ Finset.range n, (x ^ 2 - (2 / p i) ^ 2)) (hg : ∀ x : ℝ, g.eval x = x ^ e' * ∏ i ∈ Finset.range N, (x ^ 2 - (2 / q i) ^ 2))
    (hw : ∀ x : ℝ, 0 < (derivative f).eval x * g.eval x - f.eval x * (derivative g).eval x) {j : ℕ} (hj : j < n) :
    0 < (∏ k ∈ Finset.range N, (q k ^ 2 - p j ^ 2)) / ∏ l ∈ (Finset.range n).erase j, (p l ^ 2 - p j ^ 2) := by
  have hpj := hp j hj
  have hjm := Finset.mem_range.2 hj
  have h := hw (2 / p j)
  have hfp : f = (X ^ 2 - C ((2 / p j) ^ 2)) * (X ^ e * ∏ i ∈ (Finset.range n).erase j, (X ^ 2 - C ((2 / p i) ^ 2))) := by
    apply Polynomial.funext
    intro x
    rw [hf, ← Finset.mul_prod_erase _ _ hjm]
    simp only [eval_mul, eval_sub, eval_pow, eval_X, eval_C, eval_prod]
    ring
  have h0 : f.eval (2 / p j) = 0 := by rw [hfp]; simp
  have hd : (derivative f).eval (2 / p j) = 2 * (2 / p j) * ((2 / p j) ^ e * ∏ i ∈ (Finset.range n).erase j, ((2 / p j) ^ 2 - (2 / p i) ^ 2)) := by
    rw [hfp, derivative_mul]
    simp only [derivative_sub, derivative_C, derivative_X_pow, sub_zero, eval_add, eval_mul, eval_sub, eval_pow, eval_X, eval_C, eval_prod, sub_self, zero_mul,
      add_zero]
    norm_num
  rw [h0, zero_mul, sub_zero, hd, hg] at h
  have hx : 0 < 2 / p j := div_pos two_pos hpj
  have e1 : ∏ i ∈ (Finset.range n).erase j, ((2 / p j) ^ 2 - (2 / p i) ^ 2) =
      (∏ i ∈ (Finset.range n).erase j, 4 / (p i ^ 2 * p j ^ 2)) * ∏ i ∈ (Finset.range n).erase j, (p i ^ 2 - p j ^ 2) := by
    rw [← Finset.prod_mul_distrib]
    refine Finset.prod_congr rfl fun i hi => ?_
    have := hp i (Finset.mem_range.1 (Finset.mem_of_mem_erase hi))
    field_simp
    ring
  have e2 : ∏ i ∈ Finset.range N, ((2 / p j) ^ 2 - (2 / q i) ^ 2) =
      (∏ i ∈ Finset.range N, 4 / (q i ^ 2 * p j ^ 2)) * ∏ i ∈ Finset.range N, (q i ^ 2 - p j ^ 2) := by
    rw [← Finset.prod_mul_distrib]
    refine Finset.prod_congr rfl fun i hi => ?_
    have := hq i (Finset.mem_range.1 hi)
    field_simp
    ring
  have p1 : 0 < ∏ i ∈ (Finset.range n).erase j, 4 / (p i ^ 2 * p j ^ 2) := Finset.prod_pos fun i hi => by
    have := hp i (Finset.mem_range.1 (Finset.mem_of_mem_erase hi))
    positivity
  have p2 : 0 < ∏ i ∈ Finset.range N, 4 / (q i ^ 2 * p j ^ 2) := Finset.prod_pos fun i hi => by
    have := hq i (Finset.mem_range.1 hi)
    positivity
  rw [e1, e2] at h
  generalize ∏ i ∈ (Finset.range n).erase j, 4 / (p i ^ 2 * p j ^ 2) = c1 at p1 h
  generalize ∏ i ∈ Finset.range N, 4 / (q i ^ 2 * p j ^ 2) = c2 at p2 h
  generalize ∏ i ∈ (Finset.range n).erase j, (p i ^ 2 - p j ^ 2) = A at h ⊢
  generalize ∏ i ∈ Finset.range N, (q i ^ 2 - p j ^ 2) = B at h ⊢
  have hk : 0 < 2 * (2 / p j) * (2 / p j) ^ e * c1 * ((2 / p j) ^ e' * c2) := by positivity
  have hAB : 0 < A * B := by
    by_contra hn
    have := mul_nonneg hk.le (neg_nonneg.2 (not_lt.1 hn))
    nlinarith
  have hA : A ≠ 0 := fun h => by rw [h, zero_mul] at hAB; exact lt_irrefl _ hAB
  rw [show B / A = A * B / A ^ 2 by field_simp]
  positivity

/-- The result of the code. -/
theorem setup {eigvals : List ℝ → List ℝ → List ℝ} (hS : PadeSpec.Solver eigvals) (N : ℕ) :
    ∃ p q : ℕ → ℝ, (∀ i < N + 1, 0 < p i) ∧ (∀ i j, i < j → j < N + 1 → p i < p j) ∧
      Corr.pade eigvals (N + 1) = .ok (((List.range (N + 1)).map p).map (fun x : ℝ => (x : ℂ)),
        ((List.range (N + 1)).map fun i => 0.5 * ((N + 1 : ℕ) : ℝ) * (2 * ((N + 1 : ℕ) : ℝ) + 3) *
          ((∏ k ∈ Finset.range N, (q k ^ 2 - p i ^ 2)) / ∏ l ∈ (Finset.range (N + 1)).erase i, (p l ^ 2 - p i ^ 2))).map (fun x : ℝ => (x : ℂ))) ∧
      (∀ i < N + 1, 0 < (∏ k ∈ Finset.range N, (q k ^ 2 - p i ^ 2)) / ∏ l ∈ (Finset.range (N + 1)).erase i, (p l ^ 2 - p i ^ 2)) ∧
      (∀ w : ℂ, cont w (2 * (N + 1)) (fun i => (bb i : ℂ)) = ∏ i ∈ Finset.range (N + 1), (w + (p i : ℂ) ^ 2 / 4)) ∧
      (∀ w : ℂ, cont w (2 * N + 1) (fun i => (bb (i + 1) : ℂ)) =
        ((N + 1 : ℕ) : ℂ) * (2 * ((N + 1 : ℕ) : ℂ) + 3) * ∏ k ∈ Finset.range N, (w + (q k : ℂ) ^ 2 / 4)) := by
  set L := eigvals (List.replicate (2 * (N + 1)) 0) ((List.range (2 * (N + 1) - 1)).map fun i : ℕ => 1 / Real.sqrt ((3 + 2 * i) * (5 + 2 * i))) with hLdef
  set M := eigvals (List.replicate (2 * (N + 1) - 1) 0) ((List.range (2 * (N + 1) - 2)).map fun i : ℕ => 1 / Real.sqrt ((5 + 2 * i) * (7 + 2 * i))) with hMdef
  have hLs : L.Pairwise (· ≥ ·) := hS.sorted _ _
  have hMs : M.Pairwise (· ≥ ·) := hS.sorted _ _
  have fQ : (fun i : ℕ => 1 / Real.sqrt ((3 + 2 * (i : ℝ)) * (5 + 2 * i))) = sub bb := by
    funext i; unfold sub bb; push_cast; ring_nf
  have fP : (fun i : ℕ => 1 / Real.sqrt ((5 + 2 * (i : ℝ)) * (7 + 2 * i))) = sub (fun i => bb (i + 1)) := by
    funext i; unfold sub bb; push_cast; ring_nf
  have hb' : ∀ i, 0 < bb (i + 1) := fun i => bb_pos _
  have hL : fromRoots L = jac (2 * (N + 1)) (sub bb) := by
    rw [fromRoots, ← hS.all, tri, fQ]
  have hM : fromRoots M = jac (2 * N + 1) (sub fun i => bb (i + 1)) := by
    rw [fromRoots, ← hS.all, show 2 * (N + 1) - 2 = 2 * (N + 1) - 1 - 1 by omega, tri, fP, show 2 * (N + 1) - 1 = 2 * N + 1 by omega]
  obtain ⟨p, hp, hpm, hpt⟩ := half (n := N + 1) (sub_ne bb_pos) hL hLs (by omega)
  obtain ⟨q, hq, hqm, hqt⟩ := half (n := N) (sub_ne hb') hM hMs (by omega)
  refine ⟨p, q, hp, hpm, ?_, fun i hi => ?_, fun w => ?_, fun w => ?_⟩
  · unfold Corr.pade
    rw [if_neg (by omega)]
    simp only [← hLdef, ← hMdef, Nat.add_sub_cancel]
    rw [hpt, hqt]
    have m1 : ((List.range (N + 1)).map fun i => 2 / p i).mapM (Corr.rdiv 2) = .ok ((List.range (N + 1)).map p) := by
      rw [Heap.mapM_ok (g := fun x => 2 / x)]
      · rw [List.map_map]
        congr 1
        refine List.map_congr_left fun i hi => ?_
        simp [div_div_cancel₀]
      · intro x hx
        obtain ⟨i, hi, rfl⟩ := List.mem_map.1 hx
        unfold Corr.rdiv
        rw [if_neg (div_pos two_pos (hp i (List.mem_range.1 hi))).ne']
    have m2 : ((List.range N).map fun i => 2 / q i).mapM (Corr.rdiv 2) = .ok ((List.range N).map q) := by
      rw [Heap.mapM_ok (g := fun x => 2 / x)]
      · rw [List.map_map]
        congr 1
        refine List.map_congr_left fun i hi => ?_
        simp [div_div_cancel₀]
      · intro x hx
        obtain ⟨i, hi, rfl⟩ := List.mem_map.1 hx
        unfold Corr.rdiv
        rw [if_neg (div_pos two_pos (hq i (List.mem_range.1 hi))).ne']
    rw [m1, ok_bind, m2, ok_bind, List.map_map, List.map_map]
    have hinj : ∀ i < N + 1, ∀ j < N + 1, p i ^ 2 = p j ^ 2 → i = j := by
      intro i hi j hj h
      have := (sq_eq_sq₀ (hp i hi).le (hp j hj).le).1 h
      rcases lt_trichotomy i j with h1 | h1 | h1
      · exact absurd this (hpm i j h1 hj).ne
      · exact h1
      · exact absurd this (hpm j i h1 hi).ne'
    have m3 := Heap.mapM_ok (f := Corr.padeResidue (N + 1) ((List.range N).map ((· ^ 2) ∘ q)) ((List.range (N + 1)).map ((· ^ 2) ∘ p)))
      (l := List.range (N + 1)) fun i hi => residue_ok (P := (· ^ 2) ∘ p) ((· ^ 2) ∘ q) hinj (List.mem_range.1 hi)
    rw [m3]
    rfl
  · refine weight_pos (f := jac (2 * (N + 1)) (sub bb)) (g := jac (2 * N + 1) (sub fun i => bb (i + 1))) (e := 0) (e' := 1) hp hq ?_ ?_
      (fun x => jac_wronskian (2 * N + 1) (sub_ne bb_pos) x) hi
    · intro x
      have := eval_even hL hLs x
      simp only [coe_aeval_eq_eval, Algebra.algebraMap_self, RingHom.id_apply] at this
      rw [this, hpt, List.map_map, prod_range_list, pow_zero, one_mul]
      rfl
    · intro x
      have := eval_odd hM hMs x
      simp only [coe_aeval_eq_eval, Algebra.algebraMap_self, RingHom.id_apply] at this
      rw [this, hqt, List.map_map, prod_range_list, pow_one]
      rfl
  · have h := cont_even bb_pos hL hLs w
    have hr := roots_even bb_pos hL hLs
    rw [hpt, List.map_map, prod_range_list] at h hr
    have hr' : (∏ i ∈ Finset.range (N + 1), (2 / (p i : ℂ)) ^ 2) * ∏ i ∈ Finset.range (2 * (N + 1)), (bb i : ℂ) = 1 := by
      have := congrArg (fun x : ℝ => (x : ℂ)) hr
      push_cast at this
      simpa using this
    have hfac : ∏ i ∈ Finset.range (N + 1), (w + (p i : ℂ) ^ 2 / 4) * (2 / (p i : ℂ)) ^ 2 = ∏ i ∈ Finset.range (N + 1), (1 + w * ((2 / p i : ℝ) : ℂ) ^ 2) := by
      refine Finset.prod_congr rfl fun i hi => ?_
      have : (p i : ℂ) ≠ 0 := by exact_mod_cast (hp i (Finset.mem_range.1 hi)).ne'
      push_cast
      field_simp
      ring
    rw [Finset.prod_mul_distrib] at hfac
    rw [h]
    change _ * ∏ i ∈ Finset.range (N + 1), (1 + w * ((2 / p i : ℝ) : ℂ) ^ 2) = _
    rw [← hfac, mul_left_comm, mul_comm (∏ i ∈ Finset.range (2 * (N + 1)), (bb i : ℂ)), hr', mul_one]
  · have h := cont_odd hb' hM hMs w
    have hr := roots_odd hb' hM hMs
    rw [hqt, List.map_map, prod_range_list] at h hr
    have hr' : (∏ i ∈ Finset.range N, (2 / (q i : ℂ)) ^ 2) * ∏ i ∈ Finset.range (2 * N + 1), (bb (i + 1) : ℂ) =
        ((N + 1 : ℕ) : ℂ) * (2 * ((N + 1 : ℕ) : ℂ) + 3) := by
      have e : ∑ i ∈ Finset.range (N + 1), bb (2 * i + 1) = ((N + 1 : ℕ) : ℝ) * (2 * ((N + 1 : ℕ) : ℝ) + 3) := by
        rw [← odd_sum]
        refine Finset.sum_congr rfl fun i _ => ?_
        unfold bb; push_cast; ring
      rw [e] at hr
      have := congrArg (fun x : ℝ => (x : ℂ)) hr
      push_cast at this ⊢
      simpa using this
    have hfac : ∏ i ∈ Finset.range N, (w + (q i : ℂ) ^ 2 / 4) * (2 / (q i : ℂ)) ^ 2 = ∏ i ∈ Finset.range N, (1 + w * ((2 / q i : ℝ) : ℂ) ^ 2) := by
      refine Finset.prod_congr rfl fun i hi => ?_
      have : (q i : ℂ) ≠ 0 := by exact_mod_cast (hq i (Finset.mem_range.1 hi)).ne'
      push_cast
      field_simp
      ring
    rw [Finset.prod_mul_distrib] at hfac
    rw [h]
    change _ * ∏ i ∈ Finset.range N, (1 + w * ((2 / q i : ℝ) : ℂ) ^ 2) = _
    rw [← hfac, ← hr']
    ring

end Pade
