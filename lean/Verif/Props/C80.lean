import Verif.Lemmas.Sbm3
import Verif.Props.C42

/-!
C80: `wfn_h_list` of the spin-boson model gives the Schrödinger equation of its Hamiltonian.
C81: `do_l_list` of the spin-boson model gives the von Neumann equation of the same Hamiltonian.
-/

open scoped BigOperators
open Py

namespace Sbm

open SbmSpec Heom

variable {L : Type} [DecidableEq L]

/-- The arguments of the model fit: system operators on `d` states, as many dimensions as oscillators, none of them zero. -/
structure Fit (S : SpinBoson) (d : ℕ) : Prop where
  h : S.h.shape = [d, d]
  op : S.op.shape = [d, d]
  ph : S.phDims.length = S.ph.length
  pos : ∀ m ∈ S.phDims, 1 ≤ m

variable {S : SpinBoson} {d : ℕ}

private theorem idxOf_at {order : List L} (hn : order.Nodup) {k : ℕ} {l : L} (hk : k < order.length) (e : order[k] = l) : order.idxOf l = k := by
  subst e
  exact hn.idxOf_getElem k hk

private theorem wfn_ok (hS : Fit S d) {sys : L} {phs : List L} (hl : phs.length = S.ph.length) (hn : (sys :: phs).Nodup) :
    ∃ terms, S.wfnHList sys phs = .ok terms ∧ ∀ psi : Nd ℂ, psi.Wf → psi.shape = d :: S.phDims →
      ∃ D, derivativeOf (onAxes (sys :: phs) terms) psi = .ok D ∧ D.Wf ∧ D.shape = psi.shape ∧
        ∀ a n, a < d → Valid S.phDims n → D.get (a :: n) =
          -Complex.I * hamiltonian d S.phDims S.ph (fun a b => S.h.get [b, a]) (fun a b => S.op.get [b, a]) (fun a n => psi.get (a :: n)) a n := by
  have hE : Emb (d :: S.phDims) d S.phDims 0 1 (fun a n => a :: n) := by
    refine ⟨fun a n s _ => rfl, fun a n k v _ _ => ?_, fun a n _ => rfl, fun a n k _ _ => ?_⟩
    · rw [Nat.add_comm]; rfl
    · rw [Nat.add_comm]; rfl
  obtain ⟨ts, t1, t2, t3⟩ := phLoop_ok S hS.op hS.ph hS.pos (order := sys :: phs) (sys := sys) (phs := phs) hl (Sh := d :: S.phDims) (x := 0) (y := 1)
    (by simp) (fun k hk => idxOf_at hn (by simp; omega) (by simp [Nat.add_comm])) (by simp) (by simp; omega) rfl
    (fun k _ => by rw [Nat.add_comm]; rfl) (-1 * Complex.I)
  refine ⟨[(sys, Nd.smul (-1 * Complex.I) S.h)] :: ts, by unfold SpinBoson.wfnHList; rw [t1]; rfl, fun psi hw hs => ?_⟩
  have e0 : onAxes (sys :: phs) ([(sys, Nd.smul (-1 * Complex.I) S.h)] :: ts) =
      [(0, Nd.smul (-1 * Complex.I) S.h)] :: onAxes (sys :: phs) ts := by simp [onAxes]
  obtain ⟨D, d1, d2, d3, d4⟩ := derivativeOf_ok (S := d :: S.phDims) (onAxes (sys :: phs) ([(sys, Nd.smul (-1 * Complex.I) S.h)] :: ts)) (by
    rw [e0]
    intro t ht
    rcases List.mem_cons.1 ht with rfl | ht
    · intro m hm
      rw [List.mem_singleton.1 hm]
      exact ⟨by simp, hS.h⟩
    · exact t2 t ht) psi hw hs
  refine ⟨D, d1, d2, d3.trans hs.symm, fun a n ha hv => ?_⟩
  rw [d4 (a :: n) (List.Forall₂.cons ha hv), e0, List.map_cons, List.sum_cons, t3 (fun a n => a :: n) psi.get a n hE hv]
  unfold hamiltonian
  rw [mul_add]
  congr 1
  · simp only [termFn, List.set_cons_zero, List.getD_cons_zero, smul_get]
    rw [Finset.mul_sum]
    exact Finset.sum_congr rfl fun s _ => by ring
  · ring

private theorem ham_congr {dims : List ℕ} {modes : List (ℝ × ℝ)} {h h' q q' : ℕ → ℕ → ℂ} (psi : ℕ → List ℕ → ℂ) {a : ℕ} (ha : a < d) (n : List ℕ)
    (e1 : ∀ b, b < d → h a b = h' a b) (e2 : ∀ b, b < d → q a b = q' a b) :
    hamiltonian d dims modes h q psi a n = hamiltonian d dims modes h' q' psi a n := by
  unfold hamiltonian
  rw [Finset.sum_congr rfl fun s hs => by rw [e1 s (Finset.mem_range.1 hs)]]
  congr 1
  refine Finset.sum_congr rfl fun k _ => ?_
  congr 2
  exact Finset.sum_congr rfl fun s hs => by rw [e2 s (Finset.mem_range.1 hs)]

/-! ### C80 -/

/-- For symmetric system operators: with one distinct label per oscillator, `wfn_h_list` succeeds, and its terms, acting on an array whose
axes are the system and the oscillators, give `-i H ψ` with the Hamiltonian of the model. -/
theorem C80_wfn_partial (hS : Fit S d) (sh : Symmetric d S.h) (sop : Symmetric d S.op) {sys : L} {phs : List L}
    (hl : phs.length = S.ph.length) (hn : (sys :: phs).Nodup) :
    ∃ terms, S.wfnHList sys phs = .ok terms ∧ ∀ psi : Nd ℂ, psi.Wf → psi.shape = d :: S.phDims →
      ∃ D, derivativeOf (onAxes (sys :: phs) terms) psi = .ok D ∧ D.Wf ∧ D.shape = psi.shape ∧
        ∀ a n, a < d → Valid S.phDims n → D.get (a :: n) =
          -Complex.I * hamiltonian d S.phDims S.ph (entries S.h) (entries S.op) (fun a n => psi.get (a :: n)) a n := by
  obtain ⟨terms, h1, h2⟩ := wfn_ok hS hl hn
  refine ⟨terms, h1, fun psi hw hs => ?_⟩
  obtain ⟨D, d1, d2, d3, d4⟩ := h2 psi hw hs
  refine ⟨D, d1, d2, d3, fun a n ha hv => ?_⟩
  rw [d4 a n ha hv, ham_congr (h' := entries S.h) (q' := entries S.op) _ ha n (fun b hb => sh a b ha hb) (fun b hb => sop a b ha hb)]

/-- For Hermitian system operators the norm does not change: the derivative of `Σ |ψ|²` is 0. -/
theorem C80_norm (hS : Fit S d) (sh : Hermitian d S.h) (sop : Hermitian d S.op) {sys : L} {phs : List L}
    (hl : phs.length = S.ph.length) (hn : (sys :: phs).Nodup) :
    ∃ terms, S.wfnHList sys phs = .ok terms ∧ ∀ psi : Nd ℂ, psi.Wf → psi.shape = d :: S.phDims →
      ∃ D, derivativeOf (onAxes (sys :: phs) terms) psi = .ok D ∧
        sumIdx (d :: S.phDims) (fun x => (starRingEnd ℂ) (psi.get x) * D.get x + (starRingEnd ℂ) (D.get x) * psi.get x) = 0 := by
  obtain ⟨terms, h1, h2⟩ := wfn_ok hS hl hn
  refine ⟨terms, h1, fun psi hw hs => ?_⟩
  obtain ⟨D, d1, d2, d3, d4⟩ := h2 psi hw hs
  refine ⟨D, d1, ?_⟩
  set Q : List ℕ → List ℕ → ℂ := fun x y =>
    element S.ph (fun a b => S.h.get [b, a]) (fun a b => S.op.get [b, a]) (x.headD 0) x.tail (y.headD 0) y.tail with hQ
  have herm : ∀ x y, Valid (d :: S.phDims) x → Valid (d :: S.phDims) y → Q y x = (starRingEnd ℂ) (Q x y) := by
    intro x y hx hy
    cases hx with
    | cons ha hn =>
      cases hy with
      | cons hb hm =>
        exact element_hermitian hS.ph.symm (fun a b ha hb => sh b a hb ha) (fun a b ha hb => sop b a hb ha) ha hb hn hm
  have hD : ∀ x, Valid (d :: S.phDims) x → D.get x = -Complex.I * sumIdx (d :: S.phDims) fun y => Q x y * psi.get y := by
    intro x hx
    cases hx with
    | cons ha hn =>
      rw [d4 _ _ ha hn, hamiltonian_eq hS.ph.symm _ _ _ ha hn]
      rfl
  have e1 : (sumIdx (d :: S.phDims) fun x => (starRingEnd ℂ) (psi.get x) * D.get x) =
      -Complex.I * sumIdx (d :: S.phDims) fun x => (starRingEnd ℂ) (psi.get x) * sumIdx (d :: S.phDims) fun y => Q x y * psi.get y := by
    rw [← sumIdx_mul_left]
    exact sumIdx_congr fun x hx => by rw [hD x hx]; ring
  have e2 : (sumIdx (d :: S.phDims) fun x => (starRingEnd ℂ) (D.get x) * psi.get x) =
      (starRingEnd ℂ) (sumIdx (d :: S.phDims) fun x => (starRingEnd ℂ) (psi.get x) * D.get x) := by
    rw [sumIdx_eq_sum_range, sumIdx_eq_sum_range, map_sum]
    exact Finset.sum_congr rfl fun k _ => by rw [map_mul, Complex.conj_conj, mul_comm]
  rw [sumIdx_add, e2, e1, map_mul, form_real herm, map_neg, Complex.conj_I]
  ring

/-- A label that is missing is not noticed: without labels for the oscillators there is no error, and they are left out. -/
theorem C80_labels_violated (S : SpinBoson) (sys : L) : S.wfnHList sys [] = .ok [[(sys, Nd.smul (-1 * Complex.I) S.h)]] := rfl

/-! ### C81 -/

private theorem do_ok (hS : Fit S d) {i j : L} {is js : List L} (hi : is.length = S.ph.length) (hj : js.length = S.ph.length)
    (hn : (i :: is ++ j :: js).Nodup) :
    ∃ terms, S.doLList i j is js = .ok terms ∧ ∀ rho : Nd ℂ, rho.Wf → rho.shape = d :: S.phDims ++ d :: S.phDims →
      ∃ D, derivativeOf (onAxes (i :: is ++ j :: js) terms) rho = .ok D ∧ D.Wf ∧ D.shape = rho.shape ∧
        ∀ a n b m, a < d → Valid S.phDims n → b < d → Valid S.phDims m → D.get (a :: n ++ b :: m) =
          -Complex.I * (hamiltonian d S.phDims S.ph (fun a b => S.h.get [b, a]) (fun a b => S.op.get [b, a])
              (fun a n => rho.get (a :: n ++ b :: m)) a n -
            hamiltonian d S.phDims S.ph (fun a b => S.h.get [b, a]) (fun a b => S.op.get [b, a]) (fun b m => rho.get (a :: n ++ b :: m)) b m) := by
  have hlen := hS.ph
  have ni : ∀ k (hk : k < is.length), (i :: is ++ j :: js).idxOf is[k] = 1 + k := fun k hk =>
    idxOf_at hn (by simp; omega) (by simp [Nat.add_comm 1 k, List.getElem_append_left hk])
  have nj0 : (i :: is ++ j :: js).idxOf j = S.phDims.length + 1 :=
    idxOf_at hn (by simp; omega) (by rw [List.getElem_append_right (by simp; omega)]; simp [hi, hlen])
  have nj : ∀ k (hk : k < js.length), (i :: is ++ j :: js).idxOf js[k] = S.phDims.length + 2 + k := fun k hk =>
    idxOf_at hn (by simp; omega) (by
      rw [List.getElem_append_right (by simp; omega)]
      have : S.phDims.length + 2 + k - (i :: is).length = k + 1 := by simp; omega
      simp only [this, List.getElem_cons_succ])
  obtain ⟨ti, i1, i2, i3⟩ := phLoop_ok S hS.op hS.ph hS.pos (order := i :: is ++ j :: js) (sys := i) (phs := is) hi
    (Sh := d :: S.phDims ++ d :: S.phDims) (x := 0) (y := 1) (by simp) ni (by simp) (by simp; omega) rfl
    (fun k hk => by rw [Nat.add_comm, List.cons_append, List.getD_cons_succ, List.getD_append _ _ _ _ hk]) (-1 * Complex.I)
  obtain ⟨tj, j1, j2, j3⟩ := phLoop_ok S hS.op hS.ph hS.pos (order := i :: is ++ j :: js) (sys := j) (phs := js) hj
    (Sh := d :: S.phDims ++ d :: S.phDims) (x := S.phDims.length + 1) (y := S.phDims.length + 2) nj0 nj (by simp) (by simp; omega)
    (by rw [List.getD_append_right _ _ _ _ (by simp)]; simp)
    (fun k hk => by
      rw [List.getD_append_right _ _ _ _ (by simp; omega)]
      have : S.phDims.length + 2 + k - (d :: S.phDims).length = k + 1 := by simp; omega
      rw [this, List.getD_cons_succ]) (1 * Complex.I)
  set t0 : List (LTerm L) := [[(i, Nd.smul (-1 * Complex.I) S.h)], [(j, Nd.smul (1 * Complex.I) S.h)]] with ht0
  refine ⟨t0 ++ ti ++ tj, by unfold SpinBoson.doLList; rw [i1, ok_bind, j1]; rfl, fun rho hw hs => ?_⟩
  have e0 : onAxes (i :: is ++ j :: js) (t0 ++ ti ++ tj) = [[(0, Nd.smul (-1 * Complex.I) S.h)], [(S.phDims.length + 1, Nd.smul (1 * Complex.I) S.h)]] ++
      onAxes (i :: is ++ j :: js) ti ++ onAxes (i :: is ++ j :: js) tj := by
    unfold onAxes
    rw [List.map_append, List.map_append, ht0]
    simp only [List.map_cons, List.map_nil, nj0]
    simp
  have sj : (d :: S.phDims ++ d :: S.phDims).getD (S.phDims.length + 1) 0 = d := by
    rw [List.getD_append_right _ _ _ _ (by simp)]; simp
  obtain ⟨D, d1, d2, d3, d4⟩ := derivativeOf_ok (S := d :: S.phDims ++ d :: S.phDims) (onAxes (i :: is ++ j :: js) (t0 ++ ti ++ tj)) (by
    rw [e0]
    intro t ht
    rw [List.mem_append, List.mem_append] at ht
    rcases ht with (ht | ht) | ht
    · simp only [List.mem_cons, List.not_mem_nil, or_false] at ht
      rcases ht with rfl | rfl
      · intro m hm
        rw [List.mem_singleton.1 hm]
        exact ⟨by simp, hS.h⟩
      · intro m hm
        rw [List.mem_singleton.1 hm]
        exact ⟨by simp, by rw [sj]; exact hS.h⟩
    · exact i2 t ht
    · exact j2 t ht) rho hw hs
  refine ⟨D, d1, d2, d3.trans hs.symm, fun a n b m ha hv hb hv' => ?_⟩
  have hnl := hv.length_eq
  have hEi : Emb (d :: S.phDims ++ d :: S.phDims) d S.phDims 0 1 (fun a n => a :: n ++ b :: m) := by
    refine ⟨fun a n s _ => rfl, fun a n k v h1 h2 => ?_, fun a n _ => rfl, fun a n k h1 h2 => ?_⟩
    · rw [Nat.add_comm, List.cons_append, List.set_cons_succ, List.set_append_left _ _ (by omega), List.cons_append]
    · rw [Nat.add_comm, List.cons_append, List.getD_cons_succ, List.getD_append _ _ _ _ (by omega)]
  have hEj : Emb (d :: S.phDims ++ d :: S.phDims) d S.phDims (S.phDims.length + 1) (S.phDims.length + 2) (fun b m => a :: n ++ b :: m) := by
    have q : ∀ k, S.phDims.length + 2 + k - (a :: n).length = k + 1 := fun k => by simp only [List.length_cons]; omega
    have q0 : S.phDims.length + 1 - (a :: n).length = 0 := by simp only [List.length_cons]; omega
    have l1 : (a :: n).length = S.phDims.length + 1 := by simp only [List.length_cons]; omega
    refine ⟨fun b m s _ => ?_, fun b m k v h1 h2 => ?_, fun b m _ => ?_, fun b m k h1 h2 => ?_⟩
    · rw [List.set_append_right _ _ (by omega), q0]; rfl
    · rw [List.set_append_right _ _ (by omega), q]; rfl
    · rw [List.getD_append_right _ _ _ _ (by omega), q0]; rfl
    · rw [List.getD_append_right _ _ _ _ (by omega), q]; rfl
  rw [d4 (a :: n ++ b :: m) (List.rel_append (List.Forall₂.cons ha hv) (List.Forall₂.cons hb hv')), e0, List.map_append, List.map_append,
    List.sum_append, List.sum_append, i3 _ rho.get a n hEi hv, j3 _ rho.get b m hEj hv']
  have k1 : termFn (d :: S.phDims ++ d :: S.phDims) [(0, Nd.smul (-1 * Complex.I) S.h)] rho.get (a :: n ++ b :: m) =
      -Complex.I * ∑ s ∈ Finset.range d, S.h.get [s, a] * rho.get (s :: n ++ b :: m) := by
    simp only [termFn, hEi.setX a n _ hnl, hEi.getX a n hnl, smul_get]
    rw [Finset.mul_sum]
    exact Finset.sum_congr rfl fun s _ => by ring
  have k2 : termFn (d :: S.phDims ++ d :: S.phDims) [(S.phDims.length + 1, Nd.smul (1 * Complex.I) S.h)] rho.get (a :: n ++ b :: m) =
      Complex.I * ∑ s ∈ Finset.range d, S.h.get [s, b] * rho.get (a :: n ++ s :: m) := by
    simp only [termFn, hEj.setX b m _ hv'.length_eq, hEj.getX b m hv'.length_eq, smul_get, sj]
    rw [Finset.mul_sum]
    exact Finset.sum_congr rfl fun s _ => by ring
  simp only [List.map_cons, List.map_nil, List.sum_cons, List.sum_nil, add_zero]
  rw [k1, k2]
  unfold hamiltonian
  ring

/-- For symmetric system operators: with one distinct label per oscillator and side, `do_l_list` succeeds, and its terms, acting on an array
whose axes are the system and the oscillators, first those of the left and then those of the right index, give `-i (H ρ - ρ H)` with the
Hamiltonian of the model (which acts with the transposed operators on the right index). -/
theorem C81_do_partial (hS : Fit S d) (sh : Symmetric d S.h) (sop : Symmetric d S.op) {i j : L} {is js : List L}
    (hi : is.length = S.ph.length) (hj : js.length = S.ph.length) (hn : (i :: is ++ j :: js).Nodup) :
    ∃ terms, S.doLList i j is js = .ok terms ∧ ∀ rho : Nd ℂ, rho.Wf → rho.shape = d :: S.phDims ++ d :: S.phDims →
      ∃ D, derivativeOf (onAxes (i :: is ++ j :: js) terms) rho = .ok D ∧ D.Wf ∧ D.shape = rho.shape ∧
        ∀ a n b m, a < d → Valid S.phDims n → b < d → Valid S.phDims m → D.get (a :: n ++ b :: m) =
          -Complex.I * (hamiltonian d S.phDims S.ph (entries S.h) (entries S.op) (fun a n => rho.get (a :: n ++ b :: m)) a n -
            hamiltonian d S.phDims S.ph (fun a b => entries S.h b a) (fun a b => entries S.op b a)
              (fun b m => rho.get (a :: n ++ b :: m)) b m) := by
  obtain ⟨terms, h1, h2⟩ := do_ok hS hi hj hn
  refine ⟨terms, h1, fun rho hw hs => ?_⟩
  obtain ⟨D, d1, d2, d3, d4⟩ := h2 rho hw hs
  refine ⟨D, d1, d2, d3, fun a n b m ha hv hb hv' => ?_⟩
  rw [d4 a n b m ha hv hb hv', ham_congr (h' := entries S.h) (q' := entries S.op) _ ha n (fun b hb => sh a b ha hb) (fun b hb => sop a b ha hb)]
  rfl

/-- The trace is conserved, for symmetric system operators. -/
theorem C81_trace_partial (hS : Fit S d) (sh : Symmetric d S.h) (sop : Symmetric d S.op) {i j : L} {is js : List L}
    (hi : is.length = S.ph.length) (hj : js.length = S.ph.length) (hn : (i :: is ++ j :: js).Nodup) :
    ∃ terms, S.doLList i j is js = .ok terms ∧ ∀ rho : Nd ℂ, rho.Wf → rho.shape = d :: S.phDims ++ d :: S.phDims →
      ∃ D, derivativeOf (onAxes (i :: is ++ j :: js) terms) rho = .ok D ∧ sumIdx (d :: S.phDims) (fun x => D.get (x ++ x)) = 0 := by
  obtain ⟨terms, h1, h2⟩ := C81_do_partial hS sh sop hi hj hn
  refine ⟨terms, h1, fun rho hw hs => ?_⟩
  obtain ⟨D, d1, d2, d3, d4⟩ := h2 rho hw hs
  refine ⟨D, d1, ?_⟩
  set Q : List ℕ → List ℕ → ℂ := fun x y =>
    element S.ph (entries S.h) (entries S.op) (x.headD 0) x.tail (y.headD 0) y.tail with hQ
  have hD : ∀ x, Valid (d :: S.phDims) x → D.get (x ++ x) = -Complex.I * (sumIdx (d :: S.phDims) (fun y => Q x y * rho.get (y ++ x)) +
      -1 * sumIdx (d :: S.phDims) fun y => Q y x * rho.get (x ++ y)) := by
    intro x hx
    cases hx with
    | @cons a _ n _ ha hn =>
      rw [d4 a n a n ha hn ha hn, hamiltonian_eq hS.ph.symm _ _ _ ha hn, hamiltonian_eq hS.ph.symm _ _ _ ha hn, neg_one_mul, sub_eq_add_neg]
      have : (sumIdx (d :: S.phDims) fun y => Q y (a :: n) * rho.get (a :: n ++ y)) = ∑ b ∈ Finset.range d, sumIdx S.phDims fun m =>
          element S.ph (fun a b => entries S.h b a) (fun a b => entries S.op b a) a n b m * rho.get (a :: n ++ b :: m) :=
        Finset.sum_congr rfl fun b hb => sumIdx_congr fun m hm => by
          rw [← element_transpose hS.ph.symm (entries S.h) (entries S.op) a b hn hm]
          rfl
      rw [this]
      rfl
  rw [sumIdx_congr hD, sumIdx_mul_left, sumIdx_add, sumIdx_mul_left, sumIdx_comm (d :: S.phDims) (d :: S.phDims) fun x y => Q y x * rho.get (x ++ y)]
  ring

/-- For Hermitian operators that are not symmetric the derivative is not that of the von Neumann equation, and the trace is not conserved. -/
theorem C81_violated : ∃ (S : SpinBoson) (rho : Nd ℂ) (terms : List (LTerm String)) (D : Nd ℂ), Fit S 2 ∧ Hermitian 2 S.h ∧ Hermitian 2 S.op ∧
    rho.Wf ∧ rho.shape = [2, 2] ∧ S.doLList "i" "j" [] [] = .ok terms ∧ derivativeOf (onAxes ["i", "j"] terms) rho = .ok D ∧
    D.get [0, 0] + D.get [1, 1] ≠ 0 := by
  let h : Nd ℂ := ⟨[2, 2], [0, -Complex.I, Complex.I, 0]⟩
  let S : SpinBoson := ⟨h, h, [], [], none, []⟩
  have g00 : h.get [0, 0] = 0 := rfl
  have g01 : h.get [0, 1] = -Complex.I := rfl
  have g10 : h.get [1, 0] = Complex.I := rfl
  have g11 : h.get [1, 1] = 0 := rfl
  have hF : Fit S 2 := ⟨rfl, rfl, rfl, by simp [S]⟩
  have hH : Hermitian 2 h := by
    intro a b ha hb
    have : (a = 0 ∨ a = 1) ∧ (b = 0 ∨ b = 1) := ⟨by omega, by omega⟩
    rcases this with ⟨rfl | rfl, rfl | rfl⟩ <;> simp [g00, g01, g10, g11]
  have hw : h.Wf := by simp [Nd.Wf, h]
  obtain ⟨terms, h1, h2⟩ := do_ok hF (i := "i") (j := "j") (is := []) (js := []) rfl rfl (by decide)
  obtain ⟨D, d1, -, -, d4⟩ := h2 h hw rfl
  refine ⟨S, h, terms, D, hF, hH, hH, hw, rfl, h1, d1, ?_⟩
  have v0 := d4 0 [] 0 [] (by omega) List.Forall₂.nil (by omega) List.Forall₂.nil
  have v1 := d4 1 [] 1 [] (by omega) List.Forall₂.nil (by omega) List.Forall₂.nil
  simp only [List.cons_append, List.nil_append] at v0 v1
  rw [v0, v1]
  unfold hamiltonian
  simp only [S, List.length_nil, Finset.sum_range_zero, add_zero, Finset.sum_range_succ, zero_add, List.cons_append, List.nil_append, g00, g01, g10,
    g11]
  ring_nf
  simp [pow_succ]

/-! A two-level system with an oscillator of two and one of three states meets the hypotheses. -/

private def exSpin : SpinBoson := ⟨⟨[2, 2], [0, 1, 1, 0]⟩, ⟨[2, 2], [1, 0, 0, -1]⟩, [(1, 1), (2, 1)], [2, 3], none, []⟩

example : Fit exSpin 2 ∧ Symmetric 2 exSpin.h ∧ Symmetric 2 exSpin.op ∧ Hermitian 2 exSpin.h ∧ Hermitian 2 exSpin.op ∧
    (["p", "q"] : List String).length = exSpin.ph.length ∧ (["s", "p", "q"] : List String).Nodup ∧
    (["s", "p", "q"] ++ ["s'", "p'", "q'"] : List String).Nodup := by
  have h00 : exSpin.h.get [0, 0] = 0 := rfl
  have h01 : exSpin.h.get [0, 1] = 1 := rfl
  have h10 : exSpin.h.get [1, 0] = 1 := rfl
  have h11 : exSpin.h.get [1, 1] = 0 := rfl
  have o00 : exSpin.op.get [0, 0] = 1 := rfl
  have o01 : exSpin.op.get [0, 1] = 0 := rfl
  have o10 : exSpin.op.get [1, 0] = 0 := rfl
  have o11 : exSpin.op.get [1, 1] = -1 := rfl
  refine ⟨⟨rfl, rfl, rfl, by simp [exSpin]⟩, ?_, ?_, ?_, ?_, rfl, by decide, by decide⟩ <;>
  · intro a b ha hb
    have : (a = 0 ∨ a = 1) ∧ (b = 0 ∨ b = 1) := ⟨by omega, by omega⟩
    rcases this with ⟨rfl | rfl, rfl | rfl⟩ <;> simp [h00, h01, h10, h11, o00, o01, o10, o11]

end Sbm
