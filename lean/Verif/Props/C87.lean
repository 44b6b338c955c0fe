import Verif.Lemmas.Seom
import Mathlib.Algebra.BigOperators.Field

/-! C87: the hierarchy of wave functions of `minitn/heom/seom.py`. -/

open scoped BigOperators
open Py

namespace Seom

open Heom SeomSpec

variable {d e : ℕ} {dims : List ℕ} {h op : Nd ℂ} {corr : Noise} {close : ℂ → Bool}

/-- `diff` returns a sum of products that acts as the generator of the hierarchy on every wave function `q`. Exponents that are almost zero
(`close`) are dropped. -/
theorem C87_generator (hc : close 0 = true) (hk : dims.length = corr.kMax) (hh : h.shape = [d, d]) (hop : op.shape = [d, d])
    (h1 : dims.length ≤ corr.symm.length) (h2 : dims.length ≤ corr.asymm.length) (h3 : dims.length ≤ corr.exp.length)
    {psi : Nd ℂ} (hw : psi.Wf) (hs : psi.shape = dims ++ [e, d]) :
    ∃ H ts D, init dims h op corr = .ok H ∧ H.diff close = .ok ts ∧ derivativeOf ts psi = .ok D ∧ D.Wf ∧ D.shape = dims ++ [e, d] ∧
      ∀ n q a, Valid dims n → q < e → a < d → D.get (n ++ [q, a]) =
        generator d dims (fun a b => h.get [a, b]) (fun a b => op.get [a, b])
          (fun k => if close (corr.exp.getD k 0) then 0 else Complex.I / 2 * corr.exp.getD k 0)
          (fun k => corr.symm.getD k 0 + Complex.I * corr.asymm.getD k 0) (fun n a => psi.get (n ++ [q, a])) n a := by
  set H : Hierachy := ⟨dims, transpose h, transpose op, corr⟩ with hH
  have hi : init dims h op corr = .ok H := by
    unfold init
    simp [hk, Nd.ndim, hop, hh, hH]
  obtain ⟨tss, t1, t2, t3⟩ := Sbm.mapM_sum (List.range H.nDims.length) (f := H.diffK)
    (Q := fun p : (List ℕ → ℂ) × List ℕ × ℕ × ℕ => Valid H.nDims p.2.1)
    fun k hk => H.diffK_ok (e := e) (transpose_shape hop) (List.mem_range.1 hk) h1 h2
  obtain ⟨tn, n1, n2, n3⟩ := H.diffN_ok (d := d) (e := e) hc h3
  have hall : ∀ t ∈ H.diffH ++ tn ++ tss.flatten, Fits (H.nDims ++ [e, d]) t := by
    intro t ht
    rcases List.mem_append.1 ht with ht | ht
    · rcases List.mem_append.1 ht with ht | ht
      · obtain rfl := List.mem_singleton.1 ht
        exact fitP _ (transpose_shape hh) fitNil
      · exact n2 t ht
    · exact t2 t ht
  obtain ⟨D, d1, d2, d3, d4⟩ := derivativeOf_ok _ hall psi hw hs
  refine ⟨H, _, D, hi, by unfold Hierachy.diff; rw [n1, ok_bind, t1, ok_bind]; rfl, d1, d2, d3, ?_⟩
  intro n q a hn hq ha
  have hl := hn.length_eq
  have hv : Valid (dims ++ [e, d]) (n ++ [q, a]) := valid_append hn (by simpa [Valid] using ⟨hq, ha⟩)
  rw [d4 _ hv, List.map_append, List.map_append, List.sum_append, List.sum_append, n3 (psi.get, n, q, a) hn, t3 (psi.get, n, q, a) hn,
    sum_range_list]
  unfold generator Hierachy.diffH Hierachy.p
  simp only [List.map_cons, List.map_nil, List.sum_cons, List.sum_nil, add_zero]
  rw [termP _ _ hl, add_assoc, ← Finset.sum_add_distrib]
  refine congrArg₂ (· + ·) (Finset.sum_congr rfl fun s hs => ?_) (Finset.sum_congr rfl fun k _ => congrArg₂ (· + ·) rfl
    (Finset.sum_congr rfl fun s hs => ?_))
  · show psi.get (n ++ [q, s]) * (transpose h).get [s, a] = _
    rw [transpose_get hh (Finset.mem_range.1 hs) ha, mul_comm]
  · show (transpose op).get [s, a] * _ = _
    rw [transpose_get hop (Finset.mem_range.1 hs) ha]

/-- With the `MultiLayer` propagator, for which the derivative of the wave function is `-i` times this action, the members of the hierarchy
do not decay with the exponents of the noise: without any coupling every member but the lowest grows, with half the sum of its exponents. -/
theorem C87_decay_violated {gamma : List ℝ} (hc : close 0 = true) (hk : dims.length = corr.kMax)
    (h1 : dims.length ≤ corr.symm.length) (h2 : dims.length ≤ corr.asymm.length) (h3 : dims.length ≤ gamma.length)
    (he : corr.exp = gamma.map fun x : ℝ => (x : ℂ)) (hg : ∀ k, k < dims.length → close (gamma.getD k 0 : ℝ) = false)
    {psi : Nd ℂ} (hw : psi.Wf) (hs : psi.shape = dims ++ [e, d]) :
    ∃ H ts D, init dims (Nd.ofFn [d, d] fun _ => 0) (Nd.ofFn [d, d] fun _ => 0) corr = .ok H ∧ H.diff close = .ok ts ∧
      derivativeOf ts psi = .ok D ∧ ∀ n q a, Valid dims n → q < e → a < d →
        -Complex.I * D.get (n ++ [q, a]) = ((∑ k ∈ Finset.range dims.length, gamma.getD k 0 * n.getD k 0) / 2 : ℝ) * psi.get (n ++ [q, a]) := by
  obtain ⟨H, ts, D, g1, g2, g3, -, -, g4⟩ := C87_generator (h := Nd.ofFn [d, d] fun _ => 0) (op := Nd.ofFn [d, d] fun _ => 0) hc hk rfl rfl h1 h2
    (by rw [he, List.length_map]; exact h3) hw hs
  refine ⟨H, ts, D, g1, g2, g3, fun n q a hn hq ha => ?_⟩
  rw [g4 n q a hn hq ha]
  unfold generator
  beta_reduce
  have hz : ∀ s ∈ Finset.range d, (Nd.ofFn [d, d] fun _ => (0 : ℂ)).get [a, s] = 0 := fun s hs =>
    Nd.get_ofFn _ (by simpa [Valid] using ⟨ha, Finset.mem_range.1 hs⟩)
  rw [Finset.sum_eq_zero fun s hs => by rw [hz s hs, zero_mul], zero_add, Finset.mul_sum]
  push_cast
  rw [Finset.sum_div, Finset.sum_mul]
  refine Finset.sum_congr rfl fun k hk => ?_
  have hk := Finset.mem_range.1 hk
  rw [Finset.sum_eq_zero fun s hs => by rw [hz s hs, zero_mul], add_zero]
  have e1 : corr.exp.getD k 0 = ((gamma.getD k 0 : ℝ) : ℂ) := by
    rw [he, List.getD_eq_getElem _ _ (by simp; omega), List.getD_eq_getElem _ _ (by omega), List.getElem_map]
  rw [e1, hg k hk]
  simp only [Bool.false_eq_true, if_false]
  linear_combination (-(1 / 2 * ((gamma.getD k 0 : ℝ) : ℂ) * (n.getD k 0 : ℂ) * psi.get (n ++ [q, a]))) * Complex.I_sq

/-- The hypotheses hold for two modes with three and two members, two wave functions and the exponents 1 and 2. -/
example : ∃ (close : ℂ → Bool) (corr : Noise) (psi : Nd ℂ), close 0 = true ∧ [3, 2].length = corr.kMax ∧ [3, 2].length ≤ corr.symm.length ∧
    [3, 2].length ≤ corr.asymm.length ∧ [3, 2].length ≤ [(1 : ℝ), 2].length ∧ corr.exp = [(1 : ℝ), 2].map (fun x : ℝ => (x : ℂ)) ∧
    (∀ k, k < [3, 2].length → close ([(1 : ℝ), 2].getD k 0 : ℝ) = false) ∧ psi.Wf ∧ psi.shape = [3, 2] ++ [2, 2] := by
  classical
  refine ⟨fun z => decide (z = 0), ⟨2, [1, 2], [3, 0], [1, 2]⟩, Nd.ofFn ([3, 2] ++ [2, 2]) fun _ => 1, by simp, rfl, by simp, by simp, by simp, by simp, ?_,
    Nd.ofFn_wf _ _, rfl⟩
  intro k hk
  match k, hk with
  | 0, _ => simp
  | 1, _ => simp

end Seom
