import Verif.Model.SbmDense
import Verif.Lemmas.Sbm
import Verif.Lemmas.MultiLayer
import Verif.Props.C42
import Mathlib.Tactic.IntervalCases

/-!
C130: the matrix of `dense_h` is that of the generator of the hierarchy.
-/

open scoped BigOperators
open Py

namespace Sbm

open SbmSpec Heom

variable {L : Type} [DecidableEq L]

/-- The matrices of the terms fit the axes with their labels. -/
def FitTerms (indices : List L) (shape : List ℕ) (terms : List (LTerm L)) : Prop :=
  ∀ t ∈ terms, ∀ m ∈ t, m.1 ∈ indices ∧ m.2.shape = [shape.getD (indices.idxOf m.1) 0, shape.getD (indices.idxOf m.1) 0]

/-- The matrix `M`, of the size of an array of this shape, turns every such array into what the terms make of it. -/
def IsMatrixOf (M : Nd ℂ) (shape : List ℕ) (terms : List Heom.Term) : Prop :=
  M.shape = [shape.prod, shape.prod] ∧ ∀ rho : Nd ℂ, rho.Wf → rho.shape = shape →
    ∃ D, derivativeOf terms rho = .ok D ∧ D.shape = shape ∧
      ∀ p, Valid shape p → sumIdx shape (fun q => M.get [ravel shape p, ravel shape q] * rho.get q) = D.get p

private theorem flat_fold (indices : List L) (ii : Nd ℂ) (terms : List (LTerm L)) (acc : Nd ℂ) :
    terms.foldlM (fun h t => t.foldlM (denseFactor indices ii) h) acc = terms.flatten.foldlM (denseFactor indices ii) acc := by
  induction terms generalizing acc with
  | nil => rfl
  | cons t terms ih =>
    rw [List.foldlM_cons, List.flatten_cons, List.foldlM_append]
    congr 1
    exact funext fun x => ih x

private theorem factor_eq {indices : List L} {m : L × Nd ℂ} (hm : m.1 ∈ indices) (ii h : Nd ℂ) :
    denseFactor indices ii h m = (do h.add (← applyTerm ii [(indices.idxOf m.1, m.2)])) := by
  unfold denseFactor indexOf applyTerm
  rw [if_pos hm, ok_bind, List.foldlM_cons]
  cases Tensor.partialProduct ii (indices.idxOf m.1) (some m.2) 0 <;> rfl

private theorem fold_eq {indices : List L} (ms : List (L × Nd ℂ)) (hm : ∀ m ∈ ms, m.1 ∈ indices) (ii acc : Nd ℂ) :
    ms.foldlM (denseFactor indices ii) acc =
      (ms.map fun m => [(indices.idxOf m.1, m.2)]).foldlM (fun acc t => do acc.add (← applyTerm ii t)) acc := by
  induction ms generalizing acc with
  | nil => rfl
  | cons m ms ih =>
    rw [List.foldlM_cons, List.map_cons, List.foldlM_cons, factor_eq (hm m (by simp))]
    congr 1
    exact funext fun x => ih (fun y hy => hm y (by simp [hy])) x

private theorem ravel_inj {s p q : List ℕ} (hp : Valid s p) (hq : Valid s q) (h : ravel s p = ravel s q) : p = q := by
  rw [← unravel_ravel hp, h, unravel_ravel hq]

private theorem reshaped_get {n : ℕ} {s p q : List ℕ} (hn : n = s.prod) (data : List ℂ) (hp : Valid s p) (hq : Valid s q) :
    (⟨s ++ s, data⟩ : Nd ℂ).get (p ++ q) = (⟨[n, n], data⟩ : Nd ℂ).get [ravel s p, ravel s q] := by
  subst hn
  unfold Nd.get
  dsimp only
  rw [ravel_append hp.length_eq]
  simp [ravel]

private theorem eye_delta {s p q : List ℕ} (hp : Valid s p) (hq : Valid s q) :
    (⟨s ++ s, (Nd.identity s.prod : Nd ℂ).data⟩ : Nd ℂ).get (p ++ q) = if p = q then 1 else 0 := by
  rw [reshaped_get rfl _ hp hq]
  refine (ML.identity_get (ravel_lt hp) (ravel_lt hq)).trans ?_
  by_cases e : p = q
  · rw [if_pos e, if_pos (by rw [e])]
  · rw [if_neg e, if_neg fun h => e (ravel_inj hp hq h)]

private theorem sum_delta {s p : List ℕ} (hp : Valid s p) (f : List ℕ → ℂ) : sumIdx s (fun q => (if p = q then 1 else 0) * f q) = f p := by
  rw [sumIdx_eq_sum_range, Finset.sum_eq_single (ravel s p)]
  · rw [unravel_ravel hp, if_pos rfl, one_mul]
  · intro k hk hne
    rw [if_neg, zero_mul]
    intro e
    apply hne
    rw [e, ravel_unravel (Finset.mem_range.1 hk)]
  · intro h
    exact absurd (Finset.mem_range.2 (ravel_lt hp)) h

/-- The loop of `dense_h`, for all terms: what it returns is the matrix of the sum of all factors, each of them alone. -/
theorem C130_loop {indices : List L} {shape : List ℕ} {terms : List (LTerm L)} (hl : indices.length = shape.length)
    (hf : FitTerms indices shape terms) :
    ∃ M, denseLoop indices shape terms = .ok M ∧ IsMatrixOf M shape (onAxes indices (terms.flatten.map fun m => [m])) := by
  obtain ⟨ii, hii⟩ : ∃ ii : Nd ℂ, ii = ⟨shape ++ shape, (Nd.identity shape.prod : Nd ℂ).data⟩ := ⟨_, rfl⟩
  obtain ⟨ms, hms⟩ : ∃ ms, ms = terms.flatten := ⟨_, rfl⟩
  have fit : ∀ m ∈ ms, m.1 ∈ indices ∧ m.2.shape = [shape.getD (indices.idxOf m.1) 0, shape.getD (indices.idxOf m.1) 0] := by
    intro m hm
    rw [hms] at hm
    obtain ⟨t, ht, hmt⟩ := List.mem_flatten.1 hm
    exact hf t ht m hmt
  have e0 : onAxes indices (ms.map fun m => [m]) = ms.map fun m => [(indices.idxOf m.1, m.2)] := by
    unfold onAxes; rw [List.map_map]; rfl
  have lt : ∀ m ∈ ms, indices.idxOf m.1 < shape.length := fun m hm => hl ▸ List.idxOf_lt_length_of_mem (fit m hm).1
  have hw : ii.Wf := by
    rw [hii]
    unfold Nd.Wf Nd.identity
    dsimp only [Nd.ofFn]
    simp
  have hs : ii.shape = shape ++ shape := by rw [hii]
  obtain ⟨D, d1, d2, d3, d4⟩ := derivativeOf_ok (S := shape ++ shape) (ms.map fun m => [(indices.idxOf m.1, m.2)]) (by
    intro t ht
    obtain ⟨m, hm, rfl⟩ := List.mem_map.1 ht
    intro x hx
    rw [List.mem_singleton.1 hx]
    refine ⟨by rw [List.length_append]; exact Nat.lt_add_right _ (lt m hm), ?_⟩
    rw [List.getD_append _ _ _ _ (lt m hm)]
    exact (fit m hm).2) ii hw hs
  refine ⟨⟨[shape.prod, shape.prod], D.data⟩, ?_, rfl, fun rho rw' rs => ?_⟩
  · unfold denseLoop
    have r : (Nd.identity shape.prod : Nd ℂ).reshape (shape ++ shape) = .ok ii := by
      unfold Nd.reshape
      rw [if_pos (by simp [Nd.identity]), hii]
    rw [r, ok_bind, flat_fold, ← hms, fold_eq ms fun m hm => (fit m hm).1]
    unfold derivativeOf at d1
    rw [hs] at d1
    rw [d1, ok_bind]
    unfold Nd.reshape
    rw [if_pos (by rw [d3]; simp)]
  · rw [← hms, e0]
    obtain ⟨E, e1, e2, e3, e4⟩ := derivativeOf_ok (S := shape) (ms.map fun m => [(indices.idxOf m.1, m.2)]) (by
      intro t ht
      obtain ⟨m, hm, rfl⟩ := List.mem_map.1 ht
      intro x hx
      rw [List.mem_singleton.1 hx]
      exact ⟨lt m hm, (fit m hm).2⟩) rho rw' rs
    refine ⟨E, e1, e3, fun p hp => ?_⟩
    rw [e4 p hp]
    have ent : ∀ q, Valid shape q → (⟨[shape.prod, shape.prod], D.data⟩ : Nd ℂ).get [ravel shape p, ravel shape q] =
        (ms.map fun m => ∑ b ∈ Finset.range (shape.getD (indices.idxOf m.1) 0),
          (if p.set (indices.idxOf m.1) b = q then 1 else 0) * m.2.get [b, p.getD (indices.idxOf m.1) 0]).sum := by
      intro q hq
      have hD : D = ⟨shape ++ shape, D.data⟩ := by rw [← d3]
      rw [← reshaped_get rfl _ hp hq, ← hD, d4 (p ++ q) (valid_append hp hq), List.map_map]
      congr 1
      refine List.map_congr_left fun m hm => ?_
      have hk := lt m hm
      have hkp : indices.idxOf m.1 < p.length := by rw [hp.length_eq]; exact hk
      simp only [Function.comp, termFn]
      rw [List.getD_append _ _ _ _ hk, List.getD_append _ _ _ _ hkp]
      refine Finset.sum_congr rfl fun b hb => ?_
      rw [List.set_append_left _ _ hkp, hii, eye_delta (valid_set hp (Finset.mem_range.1 hb)) hq]
    rw [sumIdx_congr fun q hq => by rw [ent q hq]]
    clear ent d1 d4 e1 e4 e0 hms hf
    induction ms with
    | nil => simp
    | cons m ms ih =>
      simp only [List.map_cons, List.sum_cons, add_mul, termFn]
      rw [sumIdx_add, ← ih (fun x hx => fit x (by simp [hx])) (fun x hx => lt x (by simp [hx]))]
      congr 1
      rw [sumIdx_congr (g := fun q => ∑ b ∈ Finset.range (shape.getD (indices.idxOf m.1) 0),
        (if p.set (indices.idxOf m.1) b = q then 1 else 0) * m.2.get [b, p.getD (indices.idxOf m.1) 0] * rho.get q)
        fun q _ => by rw [Finset.sum_mul], sumIdx_sum]
      refine Finset.sum_congr rfl fun b hb => ?_
      rw [sumIdx_congr (g := fun q => (if p.set (indices.idxOf m.1) b = q then 1 else 0) *
        (rho.get q * m.2.get [b, p.getD (indices.idxOf m.1) 0])) fun q _ => by ring]
      exact sum_delta (valid_set hp (Finset.mem_range.1 hb)) _

private theorem fold_missing {indices : List L} (ii : Nd ℂ) {m : L × Nd ℂ} (hm : m.1 ∉ indices) (ms : List (L × Nd ℂ)) (h : m ∈ ms) (acc M : Nd ℂ) :
    ms.foldlM (denseFactor indices ii) acc ≠ .ok M := by
  intro e
  induction ms generalizing acc with
  | nil => cases h
  | cons x ms ih =>
    rw [List.foldlM_cons] at e
    obtain ⟨b, e1, e2⟩ := bind_eq_ok.1 e
    rcases List.mem_cons.1 h with rfl | h
    · unfold denseFactor indexOf at e1
      rw [if_neg hm] at e1
      cases e1
    · exact ih h b e2

/-- If a factor has a label that is not among those of the axes, nothing is returned; if it is the first factor, a `ValueError` is raised. -/
theorem C130_missing {indices : List L} {shape : List ℕ} {terms : List (LTerm L)} :
    (∀ t ∈ terms, ∀ m ∈ t, m.1 ∉ indices → ∀ M, denseLoop indices shape terms ≠ .ok M) ∧
    ∀ (m : L × Nd ℂ) (t : LTerm L) (rest : List (LTerm L)), terms = (m :: t) :: rest → m.1 ∉ indices →
      denseLoop indices shape terms = .error .valueError := by
  have r : (Nd.identity shape.prod : Nd ℂ).reshape (shape ++ shape) = .ok ⟨shape ++ shape, (Nd.identity shape.prod : Nd ℂ).data⟩ := by
    unfold Nd.reshape
    rw [if_pos (by simp [Nd.identity])]
  refine ⟨fun t ht m hm h M e => ?_, fun m t rest ht h => ?_⟩
  · unfold denseLoop at e
    rw [r, ok_bind, flat_fold] at e
    obtain ⟨b, e1, _⟩ := bind_eq_ok.1 e
    exact fold_missing _ h _ (List.mem_flatten.2 ⟨t, ht, hm⟩) _ _ e1
  · unfold denseLoop
    rw [r, ok_bind, flat_fold, ht, List.flatten_cons, List.cons_append, List.foldlM_cons]
    unfold denseFactor indexOf
    rw [if_neg h]
    rfl

example : denseLoop [0, 1] [1, 1] [[(2, ⟨[1, 1], [2]⟩), (1, ⟨[1, 1], [3]⟩)]] = .error .valueError := C130_missing.2 _ _ _ rfl (by decide)

/-- If no term has two factors, the loop gives the matrix of the generator. -/
theorem C130_loop_partial {indices : List L} {shape : List ℕ} {terms : List (LTerm L)} (hl : indices.length = shape.length)
    (hf : FitTerms indices shape terms) (h1 : ∀ t ∈ terms, t.length = 1) :
    ∃ M, denseLoop indices shape terms = .ok M ∧ IsMatrixOf M shape (onAxes indices terms) := by
  have e : (terms.flatten.map fun m => [m]) = terms := by
    clear hf
    induction terms with
    | nil => rfl
    | cons t terms ih =>
      obtain ⟨m, rfl⟩ := List.length_eq_one_iff.1 (h1 t (by simp))
      rw [List.flatten_cons, List.map_append, ih fun x hx => h1 x (by simp [hx])]
      rfl
  have := C130_loop hl hf
  rwa [e] at this

/-- Two factors, 2 and 3, each on an axis with one element. -/
noncomputable def exFactors : List (LTerm ℕ) := [[(0, ⟨[1, 1], [2]⟩), (1, ⟨[1, 1], [3]⟩)]]

private theorem exFactors_fit : FitTerms [0, 1] [1, 1] exFactors := by
  intro t ht m hm
  rw [List.mem_singleton.1 ht] at hm
  rcases List.mem_cons.1 hm with rfl | hm
  · exact ⟨by simp, rfl⟩
  · rw [List.mem_singleton.1 hm]
    exact ⟨by simp, rfl⟩

/-- A term with two factors is not their product: the factors 2 and 3 give 5 instead of 6. -/
theorem C130_product_violated : ∃ M, denseLoop [0, 1] [1, 1] exFactors = .ok M ∧ M.get [0, 0] = 5 ∧
    ¬ IsMatrixOf M [1, 1] (onAxes [0, 1] exFactors) := by
  obtain ⟨M, m1, m2, m3⟩ := C130_loop (indices := [0, 1]) (shape := [1, 1]) (terms := exFactors) rfl exFactors_fit
  obtain ⟨rho, hrho⟩ : ∃ rho : Nd ℂ, rho = ⟨[1, 1], [1]⟩ := ⟨_, rfl⟩
  have hw : rho.Wf := by rw [hrho]; rfl
  have hs : rho.shape = [1, 1] := by rw [hrho]
  have hv : Valid [1, 1] [0, 0] := by simp [Valid]
  have row : ∀ M : Nd ℂ, sumIdx [1, 1] (fun q => M.get [ravel [1, 1] [0, 0], ravel [1, 1] q] * rho.get q) = M.get [0, 0] := by
    intro M
    simp [sumIdx, ravel, hrho, Nd.get]
  have five : M.get [0, 0] = 5 := by
    obtain ⟨D, d1, _, d3⟩ := m3 rho hw hs
    obtain ⟨E, e1, _, _, e4⟩ := derivativeOf_ok (S := [1, 1]) (onAxes [0, 1] (exFactors.flatten.map fun m => [m])) (by
      intro t ht
      simp only [onAxes, exFactors, List.flatten_cons, List.flatten_nil, List.append_nil, List.map_cons, List.map_nil] at ht
      intro x hx
      rcases List.mem_cons.1 ht with rfl | ht
      · rw [List.mem_singleton.1 hx]; exact ⟨by decide, rfl⟩
      · rw [List.mem_singleton.1 ht] at hx
        rw [List.mem_singleton.1 hx]; exact ⟨by decide, rfl⟩) rho hw hs
    rw [e1] at d1
    cases d1
    rw [← row M, d3 _ hv, e4 _ hv]
    simp only [onAxes, exFactors, List.flatten_cons, List.flatten_nil, List.append_nil, List.map_cons, List.map_nil, termFn]
    simp [hrho, Nd.get, ravel]
    norm_num
  refine ⟨M, m1, five, fun h => ?_⟩
  obtain ⟨D, d1, _, d3⟩ := h.2 rho hw hs
  obtain ⟨E, e1, _, _, e4⟩ := derivativeOf_ok (S := [1, 1]) (onAxes [0, 1] exFactors) (by
    intro t ht
    rw [List.mem_singleton.1 ht]
    intro x hx
    rcases List.mem_cons.1 hx with rfl | hx
    · exact ⟨by decide, rfl⟩
    · rw [List.mem_singleton.1 hx]; exact ⟨by decide, rfl⟩) rho hw hs
  rw [e1] at d1
  cases d1
  have six : M.get [0, 0] = 6 := by
    rw [← row M, d3 _ hv, e4 _ hv]
    simp only [onAxes, exFactors, List.map_cons, List.map_nil, termFn]
    simp [hrho, Nd.get, ravel]
    norm_num
  rw [five] at six
  norm_num at six

/-- With an oscillator, `dense_h` raises `TypeError` whatever the labels, the temperature and the last argument are. -/
theorem C130_raises_violated {S : SpinBoson} (hp : S.ph ≠ []) (i j : L) (phs : List L) (baths : Option (List L)) (beta : Option ℝ)
    (f : Option ℂ) : S.denseH i j phs baths beta f = .error .typeError := by
  unfold SpinBoson.denseH SpinBoson.shiftedHList
  rw [if_neg hp]
  rfl

private theorem hList_short {H : Hierachy} (hn : H.nDims ≠ []) (i j : L) : ∀ ts, hList H i j [] ≠ .ok ts := by
  intro ts h
  unfold hList at h
  obtain ⟨ds, hd, h⟩ := bind_eq_ok.1 h
  unfold Hierachy.diff at hd
  obtain ⟨dks, _, hd⟩ := bind_eq_ok.1 hd
  cases hd
  have hj : item ([] ++ [i, j]) H.j = .error .indexError := by
    unfold item Hierachy.j
    have : 0 < H.nDims.length := List.length_pos_iff.2 hn
    rw [List.getElem?_eq_none (by simp; omega)]
  rw [List.cons_append, List.mapM_cons] at h
  obtain ⟨t1, _, h⟩ := bind_eq_ok.1 h
  rw [List.cons_append, List.mapM_cons, List.mapM_cons] at h
  simp only [hj, error_bind] at h
  cases h

/-- With a bath, and as many labels as tiers, `dense_h` does not return. -/
theorem C130_bath_violated {S : SpinBoson} (hp : S.ph = []) (hb : S.bathDims ≠ []) (i j : L) (baths : Option (List L)) (beta : Option ℝ)
    (f : Option ℂ) : ∀ M, S.denseH i j [] baths beta f ≠ .ok M := by
  intro M h
  have hn : S.nTiers ≠ [] := by
    unfold SpinBoson.nTiers
    simp [hb]
  unfold SpinBoson.denseH at h
  obtain ⟨diff, hd, _⟩ := bind_eq_ok.1 h
  unfold SpinBoson.shiftedHList at hd
  rw [if_pos hp] at hd
  obtain ⟨corr, _, hd⟩ := bind_eq_ok.1 hd
  obtain ⟨heom, hi, hd⟩ := bind_eq_ok.1 hd
  have hdims : heom.nDims = S.nTiers := by
    unfold Hierachy.init at hi
    by_cases c1 : S.nTiers.length ≠ corr.kMax
    · rw [if_pos c1] at hi; cases hi
    by_cases c2 : S.op.ndim ≠ 2
    · rw [if_neg c1, if_pos c2] at hi; cases hi
    by_cases c3 : S.op.shape ≠ S.h.shape
    · rw [if_neg c1, if_neg c2, if_pos c3] at hi; cases hi
    rw [if_neg c1, if_neg c2, if_neg c3] at hi
    cases hi
    rfl
  rw [if_neg hn] at hd
  cases beta with
  | some b => cases hd
  | none =>
    cases f with
    | none => cases hd
    | some s => exact hList_short (H := { heom with scale := s }) (by dsimp only; rw [hdims]; exact hn) i j _ hd

/-- Without oscillators and bath, for a symmetric Hamiltonian: the matrix turns the density matrix `ρ` into `-i [h, ρ]`. -/
theorem C130_system_partial {S : SpinBoson} {d : ℕ} (hh : S.h.shape = [d, d]) (ho : S.op.shape = [d, d]) (sh : Symmetric d S.h)
    (hp : S.ph = []) (hpd : S.phDims = []) (hb : S.bathCorr = none) (hbd : S.bathDims = []) {i j : L} (hij : i ≠ j) (beta : Option ℝ)
    (f : Option ℂ) :
    ∃ M, S.denseH i j [] none beta f = .ok M ∧ M.shape = [d * d, d * d] ∧ ∀ rho : Nd ℂ, rho.Wf → rho.shape = [d, d] →
      ∀ a b, a < d → b < d →
        (∑ s ∈ Finset.range d, ∑ t ∈ Finset.range d, M.get [a * d + b, s * d + t] * rho.get [s, t]) =
          -Complex.I * ((∑ s ∈ Finset.range d, S.h.get [a, s] * rho.get [s, b]) - ∑ s ∈ Finset.range d, rho.get [a, s] * S.h.get [s, b]) := by
  have hd : S.shiftedHList i j [] beta f = .ok [[(i, Nd.smul (-1 * Complex.I) S.h)], [(j, Nd.smul (1 * Complex.I) S.h)]] := by
    unfold SpinBoson.shiftedHList SpinBoson.nTiers Hierachy.init
    rw [if_pos hp, hb, hpd, hbd]
    simp only [Corr.generateBCF, List.mapM_nil, pure_bind, List.map_nil, List.flatten_nil, List.length_nil, List.flatMap_nil, List.append_nil,
      Nd.ndim, hh, ho, ne_eq, not_true_eq_false, if_false, List.length_cons, zero_add, Nat.reduceAdd]
    rfl
  have fit : FitTerms [i, j] [d, d] [[(i, Nd.smul (-1 * Complex.I) S.h)], [(j, Nd.smul (1 * Complex.I) S.h)]] := by
    intro t ht m hm
    rcases List.mem_cons.1 ht with rfl | ht
    · rw [List.mem_singleton.1 hm]
      exact ⟨by simp, by simpa [Nd.smul] using hh⟩
    · rw [List.mem_singleton.1 ht] at hm
      rw [List.mem_singleton.1 hm]
      refine ⟨by simp, ?_⟩
      have : [i, j].idxOf j = 1 := by simp [List.idxOf_cons, hij]
      rw [this]
      simpa [Nd.smul] using hh
  obtain ⟨M, m1, m2, m3⟩ := C130_loop_partial (indices := [i, j]) (shape := [d, d]) rfl fit (by simp)
  refine ⟨M, ?_, by simpa using m2, fun rho hw hs a b ha hbb => ?_⟩
  · unfold SpinBoson.denseH
    rw [hd, ok_bind, hh, hpd, hbd]
    exact m1
  obtain ⟨D, d1, _, d3⟩ := m3 rho hw hs
  have e0 : onAxes [i, j] [[(i, Nd.smul (-1 * Complex.I) S.h)], [(j, Nd.smul (1 * Complex.I) S.h)]] =
      [[(0, Nd.smul (-1 * Complex.I) S.h)], [(1, Nd.smul (1 * Complex.I) S.h)]] := by
    have e1 : [i, j].idxOf i = 0 := by simp
    have e2 : [i, j].idxOf j = 1 := by simp [List.idxOf_cons, hij]
    unfold onAxes
    simp only [List.map_cons, List.map_nil, e1, e2]
  rw [e0] at d1
  obtain ⟨E, e1, _, _, e4⟩ := derivativeOf_ok (S := [d, d]) [[(0, Nd.smul (-1 * Complex.I) S.h)], [(1, Nd.smul (1 * Complex.I) S.h)]] (by
    intro t ht x hx
    rcases List.mem_cons.1 ht with rfl | ht
    · rw [List.mem_singleton.1 hx]; exact ⟨by simp, hh⟩
    · rw [List.mem_singleton.1 ht] at hx
      rw [List.mem_singleton.1 hx]; exact ⟨by simp, hh⟩) rho hw hs
  rw [e1] at d1
  cases d1
  have hv : Valid [d, d] [a, b] := by simp [Valid, ha, hbb]
  have h3 := d3 _ hv
  rw [e4 _ hv] at h3
  simp only [sumIdx_cons, sumIdx_nil, ravel, List.prod_cons, List.prod_nil, mul_one, add_zero] at h3
  rw [h3]
  simp only [List.map_cons, List.map_nil, List.sum_cons, List.sum_nil, termFn, List.set_cons_zero, List.set_cons_succ, List.getD_cons_zero,
    List.getD_cons_succ, smul_get, add_zero]
  rw [mul_sub, Finset.mul_sum, Finset.mul_sum, sub_eq_add_neg, ← Finset.sum_neg_distrib]
  congr 1
  · refine Finset.sum_congr rfl fun s hsr => ?_
    rw [sh a s ha (Finset.mem_range.1 hsr)]
    ring
  · exact Finset.sum_congr rfl fun s _ => by ring

/-- A spin without oscillators and bath. -/
noncomputable def exSpin : SpinBoson := ⟨⟨[2, 2], [1, 2, 2, -1]⟩, ⟨[2, 2], [1, 0, 0, -1]⟩, [], [], none, []⟩

example : ∃ M, exSpin.denseH 0 1 [] none none none = .ok M ∧ M.shape = [4, 4] := by
  obtain ⟨M, h1, h2, _⟩ := C130_system_partial (S := exSpin) (d := 2) rfl rfl (by
    intro a b ha hb
    interval_cases a <;> interval_cases b <;> rfl) rfl rfl rfl rfl (i := 0) (j := 1) (by decide) none none
  exact ⟨M, h1, h2⟩

example : FitTerms [0, 1] [1, 1] exFactors := exFactors_fit

/-- A spin and one oscillator, as in `tests/delta/test_boson_spectrum.py`. -/
example : (⟨⟨[2, 2], [1, 2, 2, -1]⟩, ⟨[2, 2], [1, 0, 0, -1]⟩, [(1, 1)], [3], none, []⟩ : SpinBoson).denseH 0 1 [2, 3] none none none =
    .error .typeError := C130_raises_violated (by simp) _ _ _ _ _ _

end Sbm
