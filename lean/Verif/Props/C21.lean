import Verif.Model.CompressedSvd
import Verif.Lemmas.SplitArrays
import Verif.Nd.Lemmas
import Mathlib.Algebra.Order.Ring.Int
import Mathlib.Algebra.Order.BigOperators.Group.List
import Mathlib.Tactic.Ring
import Mathlib.Tactic.Linarith

/-!
C21: what `compressed_svd` keeps.

`svd` is numpy's singular value decomposition, about which only `IsSvd` is assumed.
-/

open scoped BigOperators

namespace CompressedSvd

open Py

variable {K : Type} [CommRing K] [LinearOrder K] [IsStrictOrderedRing K] {R : Type} [CommRing R] [Algebra K R]

/-- `(u, s, vh)` is a (reduced) singular value decomposition of the `m × n` matrix `a`. -/
structure IsSvd (a : Nd R) (m n : ℕ) (usv : Nd R × List K × Nd R) : Prop where
  len : usv.2.1.length = min m n
  u_wf : usv.1.Wf
  u_shape : usv.1.shape = [m, usv.2.1.length]
  vh_wf : usv.2.2.Wf
  vh_shape : usv.2.2.shape = [usv.2.1.length, n]
  nonneg : ∀ x ∈ usv.2.1, 0 ≤ x
  prod : ∀ x < m, ∀ y < n, ∑ z ∈ Finset.range usv.2.1.length,
    usv.1.get [x, z] * algebraMap K R (usv.2.1.getD z 0) * usv.2.2.get [z, y] = a.get [x, y]

/-- The number of singular values kept. -/
def kept (len : ℕ) : Option ℤ → ℕ
  | none => len
  | some r => if r ≤ len then r.toNat else len

private theorem valid2 {a b x y : ℕ} (hx : x < a) (hy : y < b) : Valid [a, b] [x, y] :=
  List.Forall₂.cons hx (List.Forall₂.cons hy List.Forall₂.nil)

/-- What `compress` returns: the leading parts of the decomposition. -/
theorem compress_eq {usv : Nd R × List K × Nd R} {rank : Option ℤ} {err : Option K} {m n : ℕ}
    (hu : usv.1.shape = [m, usv.2.1.length]) (huw : usv.1.Wf) (hv : usv.2.2.shape = [usv.2.1.length, n])
    (hvw : usv.2.2.Wf) (hr : ∀ r, finalRank usv.2.1 rank err = some r → 0 < r) :
    ∃ u s vh, compress usv rank err = .ok (u, s, vh) ∧ u.Wf ∧
      u.shape = [m, kept usv.2.1.length (finalRank usv.2.1 rank err)] ∧ s.Wf ∧
      s.shape = [kept usv.2.1.length (finalRank usv.2.1 rank err), kept usv.2.1.length (finalRank usv.2.1 rank err)] ∧
      vh.Wf ∧ vh.shape = [kept usv.2.1.length (finalRank usv.2.1 rank err), n] ∧
      kept usv.2.1.length (finalRank usv.2.1 rank err) ≤ usv.2.1.length ∧
      (∀ x < m, ∀ z < kept usv.2.1.length (finalRank usv.2.1 rank err), u.get [x, z] = usv.1.get [x, z]) ∧
      (∀ z < kept usv.2.1.length (finalRank usv.2.1 rank err), ∀ w < kept usv.2.1.length (finalRank usv.2.1 rank err),
        s.get [z, w] = if z = w then algebraMap K R (usv.2.1.getD z 0) else 0) ∧
      (∀ z < kept usv.2.1.length (finalRank usv.2.1 rank err), ∀ y < n, vh.get [z, y] = usv.2.2.get [z, y]) := by
  obtain ⟨u, s, vh⟩ := usv
  simp only at hu huw hv hvw hr ⊢
  have hdiag : ∀ (l : List K) (z w : ℕ), z < l.length → w < l.length →
      (diag (R := R) l).get [z, w] = if z = w then algebraMap K R (l.getD z 0) else 0 := by
    intro l z w hz hw
    exact Nd.get_ofFn _ (valid2 hz hw)
  have full : ∀ k, k = s.length → ∃ u' s' vh', (.ok (u, diag s, vh) : Res (Nd R × Nd R × Nd R)) = .ok (u', s', vh') ∧
      u'.Wf ∧ u'.shape = [m, k] ∧ s'.Wf ∧ s'.shape = [k, k] ∧ vh'.Wf ∧ vh'.shape = [k, n] ∧ k ≤ s.length ∧
      (∀ x < m, ∀ z < k, u'.get [x, z] = u.get [x, z]) ∧
      (∀ z < k, ∀ w < k, s'.get [z, w] = if z = w then algebraMap K R (s.getD z 0) else 0) ∧
      (∀ z < k, ∀ y < n, vh'.get [z, y] = vh.get [z, y]) := by
    rintro k rfl
    exact ⟨u, diag s, vh, rfl, huw, hu, Nd.ofFn_wf _ _, rfl, hvw, hv, le_refl _, fun _ _ _ _ => rfl,
      fun z hz w hw => hdiag s z w hz hw, fun _ _ _ _ => rfl⟩
  unfold compress
  simp only
  cases hf : finalRank s rank err with
  | none => exact full _ rfl
  | some r =>
    have hr0 := hr r hf
    simp only
    rw [if_neg (by omega)]
    by_cases hle : r ≤ s.length
    · rw [if_pos hle]
      have hk : kept s.length (some r) = r.toNat := by simp [kept, hle]
      have hk' : r.toNat ≤ s.length := by omega
      rw [hk]
      have hus : (takeCols u r.toNat).shape = [m, r.toNat] := by
        simp only [takeCols, Nd.ofFn, Nd.dim, hu]
        simp [hk']
      have hvs : (takeRows vh r.toNat).shape = [r.toNat, n] := by
        simp only [takeRows, Nd.ofFn, Nd.dim, hv]
        simp [hk']
      have hds : (s.take r.toNat).length = r.toNat := by simp [hk']
      refine ⟨_, _, _, rfl, Nd.ofFn_wf _ _, hus, Nd.ofFn_wf _ _, ?_, Nd.ofFn_wf _ _, hvs, hk', ?_, ?_, ?_⟩
      · change [(s.take r.toNat).length, (s.take r.toNat).length] = _
        rw [hds]
      · intro x hx z hz
        refine Nd.get_ofFn _ ?_
        have : [u.dim 0, min r.toNat (u.dim 1)] = [m, r.toNat] := hus
        rw [this]; exact valid2 hx hz
      · intro z hz w hw
        rw [hdiag _ _ _ (by omega) (by omega)]
        congr 2
        simp only [List.getD_eq_getElem?_getD, List.getElem?_take, hz, if_true]
      · intro z hz y hy
        refine Nd.get_ofFn _ ?_
        have : [min r.toNat (vh.dim 0), vh.dim 1] = [r.toNat, n] := hvs
        rw [this]; exact valid2 hz hy
    · rw [if_neg hle]
      exact full _ (by simp [kept, hle])

private theorem drop_sum_le {s : List K} (hs : ∀ x ∈ s, 0 ≤ x) (i : ℕ) : (s.drop i).sum ≤ s.sum := by
  have h := List.sum_take_add_sum_drop s i
  have h2 : 0 ≤ (s.take i).sum := List.sum_nonneg fun x hx => hs x (List.mem_of_mem_take hx)
  linarith

/-- The loop, run over the first `n` singular values in reverse, the others having been added already. -/
private theorem errLoop_spec (err : K) (s : List K) (n : ℕ) (hn : n ≤ s.length) :
    match errLoop err ((s.take n).zipIdx).reverse (s.drop n).sum with
    | some r => ∃ i < n, r = i + 1 ∧ err < (s.drop i).sum ∧ ∀ j, i < j → j < n → (s.drop j).sum ≤ err
    | none => ∀ j < n, (s.drop j).sum ≤ err := by
  induction n with
  | zero => simp [errLoop]
  | succ n ih =>
    have h1 : s.take (n + 1) = s.take n ++ [s[n]] := by rw [List.take_add_one]; simp [List.getElem?_eq_getElem (show n < s.length by omega)]
    have h2 : ((s.take (n + 1)).zipIdx).reverse = (s[n], n) :: ((s.take n).zipIdx).reverse := by
      rw [h1, List.zipIdx_append]
      simp [show min n s.length = n by omega]
    have h3 : (s.drop (n + 1)).sum + s[n] = (s.drop n).sum := by
      rw [List.drop_eq_getElem_cons (show n < s.length by omega), List.sum_cons]; ring
    rw [h2]
    unfold errLoop
    simp only
    rw [h3]
    by_cases hlt : err < (s.drop n).sum
    · rw [if_pos hlt]
      exact ⟨n, by omega, by simp, hlt, fun j h1 h2 => by omega⟩
    · rw [if_neg hlt]
      have := ih (by omega)
      split at this
      · obtain ⟨i, i1, i2, i3, i4⟩ := this
        refine ⟨i, by omega, i2, i3, fun j j1 j2 => ?_⟩
        by_cases hj : j = n
        · subst hj; exact not_lt.1 hlt
        · exact i4 j j1 (by omega)
      · intro j hj
        by_cases hjn : j = n
        · subst hjn; exact not_lt.1 hlt
        · exact this j (by omega)

private theorem errLoop_full (err : K) (s : List K) :
    match errLoop err s.zipIdx.reverse 0 with
    | some r => ∃ i < s.length, r = i + 1 ∧ err < (s.drop i).sum ∧ ∀ j, i < j → j < s.length → (s.drop j).sum ≤ err
    | none => ∀ j < s.length, (s.drop j).sum ≤ err := by
  have := errLoop_spec err s s.length (le_refl _)
  rwa [List.take_length, List.drop_length, List.sum_nil] at this

/-- The factors have compatible shapes; they are the leading parts of the decomposition; and if nothing is discarded
their product is `a`. `k` is the number of singular values kept. -/
theorem C21_factors {a : Nd R} {m n : ℕ} {svd : Nd R → Nd R × List K × Nd R} (h : IsSvd a m n (svd a))
    {rank : Option ℤ} {err : Option K} {u s vh : Nd R} (he : compressedSvd svd rank err a = .ok (u, s, vh)) :
    ∃ k ≤ min m n, u.Wf ∧ u.shape = [m, k] ∧ s.Wf ∧ s.shape = [k, k] ∧ vh.Wf ∧ vh.shape = [k, n] ∧
      (∀ z < k, ∀ w < k, s.get [z, w] = if z = w then algebraMap K R ((svd a).2.1.getD z 0) else 0) ∧
      (∀ x < m, ∀ y < n, ∑ z ∈ Finset.range k, (∑ w ∈ Finset.range k, u.get [x, w] * s.get [w, z]) * vh.get [z, y] =
        ∑ z ∈ Finset.range k, (svd a).1.get [x, z] * algebraMap K R ((svd a).2.1.getD z 0) * (svd a).2.2.get [z, y]) ∧
      (k = min m n → ∀ x < m, ∀ y < n,
        ∑ z ∈ Finset.range k, (∑ w ∈ Finset.range k, u.get [x, w] * s.get [w, z]) * vh.get [z, y] = a.get [x, y]) := by
  have hr : ∀ r, finalRank (svd a).2.1 rank err = some r → 0 < r := by
    intro r hr
    by_contra hcon
    unfold compressedSvd compress at he
    simp only [hr] at he
    rw [if_pos (by omega)] at he
    cases he
  obtain ⟨u', s', vh', e1, e2, e3, e4, e5, e6, e7, e8, e9, e10, e11⟩ :=
    compress_eq (rank := rank) (err := err) h.u_shape h.u_wf h.vh_shape h.vh_wf hr
  unfold compressedSvd at he
  rw [he] at e1
  cases e1
  set k := kept (svd a).2.1.length (finalRank (svd a).2.1 rank err) with hk
  have hprod : ∀ x < m, ∀ y < n,
      ∑ z ∈ Finset.range k, (∑ w ∈ Finset.range k, u.get [x, w] * s.get [w, z]) * vh.get [z, y] =
      ∑ z ∈ Finset.range k, (svd a).1.get [x, z] * algebraMap K R ((svd a).2.1.getD z 0) * (svd a).2.2.get [z, y] := by
    intro x hx y hy
    refine Finset.sum_congr rfl fun z hz => ?_
    rw [Finset.mem_range] at hz
    rw [e11 z hz y hy]
    congr 1
    rw [Finset.sum_eq_single z]
    · rw [e10 z hz z hz, if_pos rfl, e9 x hx z hz]
    · intro w hw hwz
      rw [Finset.mem_range] at hw
      rw [e10 w hw z hz, if_neg hwz, mul_zero]
    · intro hz'; exact absurd (Finset.mem_range.2 hz) hz'
  refine ⟨k, by rw [← h.len]; exact e8, e2, e3, e4, e5, e6, e7, e10, hprod, fun hkm x hx y hy => ?_⟩
  rw [hprod x hx y hy, ← h.prod x hx y hy, hkm, h.len]

/-- With `err ≥ 0` given the discarded singular values (those from position `k` on) sum to at most `err`, whatever
`rank` is; and if more than one value is kept and no `rank` was given, keeping fewer would have discarded more than
`err`. -/
theorem C21_err {a : Nd R} {m n : ℕ} {svd : Nd R → Nd R × List K × Nd R} (h : IsSvd a m n (svd a))
    {rank : Option ℤ} {err : K} (h0 : 0 ≤ err) {u s vh : Nd R}
    (he : compressedSvd svd rank (some err) a = .ok (u, s, vh)) {k : ℕ} (hk : s.shape = [k, k]) :
    ((svd a).2.1.drop k).sum ≤ err ∧
      (rank = none → 1 < k → ∀ j < k, err < ((svd a).2.1.drop j).sum) := by
  have hr : ∀ r, finalRank (svd a).2.1 rank (some err) = some r → 0 < r := by
    intro r hr
    by_contra hcon
    unfold compressedSvd compress at he
    simp only [hr] at he
    rw [if_pos (by omega)] at he
    cases he
  obtain ⟨u', s', vh', e1, -, -, -, e5, -⟩ :=
    compress_eq (rank := rank) (err := some err) h.u_shape h.u_wf h.vh_shape h.vh_wf hr
  unfold compressedSvd at he
  rw [he] at e1
  cases e1
  rw [hk] at e5
  have hk' : k = kept (svd a).2.1.length (finalRank (svd a).2.1 rank (some err)) := by
    simpa using e5
  clear hk e5 he
  subst hk'
  have hnn := h.nonneg
  set sv := (svd a).2.1 with hsv
  have hloop := errLoop_full err sv
  have hanti : ∀ i j, i ≤ j → (sv.drop j).sum ≤ (sv.drop i).sum := by
    intro i j hij
    have := drop_sum_le (s := sv.drop i) (fun x hx => hnn x (List.mem_of_mem_drop hx)) (j - i)
    rwa [List.drop_drop, show i + (j - i) = j by omega] at this
  have hlast : ∀ j, sv.length ≤ j → (sv.drop j).sum ≤ err := by
    intro j hj
    rw [List.drop_of_length_le hj, List.sum_nil]; exact h0
  unfold finalRank
  simp only
  cases hl : errLoop err sv.zipIdx.reverse 0 with
  | some r =>
    rw [hl] at hloop
    obtain ⟨i, i1, rfl, i3, i4⟩ := hloop
    have hke : kept sv.length (some ((i : ℤ) + 1)) = i + 1 := by
      unfold kept; simp only
      rw [if_pos (by omega)]; omega
    simp only [hke]
    refine ⟨?_, fun _ _ j hj => ?_⟩
    · by_cases hil : i + 1 < sv.length
      · exact i4 (i + 1) (by omega) hil
      · exact hlast _ (by omega)
    · exact lt_of_lt_of_le i3 (hanti j i (by omega))
  | none =>
    rw [hl] at hloop
    simp only
    have hall : ∀ j, (sv.drop j).sum ≤ err := fun j => by
      by_cases hj : j < sv.length
      · exact hloop j hj
      · exact hlast j (by omega)
    refine ⟨hall _, fun hrn hk1 => ?_⟩
    subst hrn
    simp only [kept] at hk1
    split at hk1
    · simp at hk1
    · omega

/-- With `rank ≥ 1` and no `err` exactly `min(rank, number of singular values)` are kept. -/
theorem C21_rank_partial {a : Nd R} {m n : ℕ} {svd : Nd R → Nd R × List K × Nd R} (h : IsSvd a m n (svd a))
    {rank : ℕ} (h0 : 1 ≤ rank) :
    ∃ u s vh, compressedSvd svd (some rank) none a = .ok (u, s, vh) ∧
      s.shape = [min rank (min m n), min rank (min m n)] := by
  obtain ⟨u, s, vh, e1, -, -, -, e5, -⟩ := compress_eq (rank := some (rank : ℤ)) (err := none) h.u_shape h.u_wf
    h.vh_shape h.vh_wf (by intro r hr; unfold finalRank at hr; cases hr; omega)
  refine ⟨u, s, vh, e1, ?_⟩
  rw [e5]
  have : kept (svd a).2.1.length (finalRank (svd a).2.1 (some (rank : ℤ)) none) = min rank (min m n) := by
    unfold finalRank kept
    simp only
    rw [h.len]
    split <;> omega
  rw [this]

/-- With neither `rank` nor `err` everything is kept. -/
theorem C21_no_truncation {a : Nd R} {m n : ℕ} {svd : Nd R → Nd R × List K × Nd R} (h : IsSvd a m n (svd a)) :
    ∃ u s vh, compressedSvd svd none none a = .ok (u, s, vh) ∧ s.shape = [min m n, min m n] := by
  obtain ⟨u, s, vh, e1, -, -, -, e5, -⟩ := compress_eq (rank := none) (err := none) h.u_shape h.u_wf
    h.vh_shape h.vh_wf (by intro r hr; unfold finalRank at hr; cases hr)
  refine ⟨u, s, vh, e1, ?_⟩
  rw [e5, ← h.len]
  rfl

/-- A nonpositive rank raises, when `err` is not given. -/
theorem C21_nonpositive_rank (svd : Nd R → Nd R × List K × Nd R) (a : Nd R) {rank : ℤ} (h : rank ≤ 0) :
    compressedSvd svd (some rank) none a = .error .runtimeError := by
  unfold compressedSvd compress finalRank
  simp only
  rw [if_pos h]

/-- The decomposition without truncation satisfies what `split`, `split_unite` and `unite_split` are proved with
(`SvdShape`, `SvdExact`, `SvdIso`), if numpy's `svd` does its job on every matrix. -/
theorem C21_as_oracle [StarRing R] {svd : Nd R → Nd R × List K × Nd R}
    (h : ∀ (a : Nd R) (m n : ℕ), a.Wf → a.shape = [m, n] → IsSvd a m n (svd a))
    (ho : ∀ (a : Nd R) (m n : ℕ), a.Wf → a.shape = [m, n] → ∀ z w, z < min m n → w < min m n →
      ∑ y ∈ Finset.range n, (svd a).2.2.get [z, y] * star ((svd a).2.2.get [w, y]) = if z = w then 1 else 0) :
    Heap.SvdShape (compressedSvd svd none none) ∧ Heap.SvdExact (compressedSvd svd none none) ∧
      Heap.SvdIso (compressedSvd svd none none) := by
  refine ⟨fun a m n hw hs hm hn => ?_, fun a m n u s vh r hw hs he hr x y hx hy => ?_, fun a m n u s vh r hw hs he hr z w hz hw' => ?_⟩
  · obtain ⟨u, s, vh, e1, e2⟩ := C21_no_truncation (h a m n hw hs)
    obtain ⟨k, k1, k2, k3, k4, k5, k6, k7, -⟩ := C21_factors (h a m n hw hs) e1
    rw [e2] at k5
    have : min m n = k := by simpa using k5
    subst this
    exact ⟨min m n, u, s, vh, e1, by omega, k2, k3, k4, e2, k6, k7⟩
  · obtain ⟨u', s', vh', e1, e2⟩ := C21_no_truncation (h a m n hw hs)
    rw [he] at e1; cases e1
    obtain ⟨k, k1, -, -, -, k5, -, -, -, -, k10⟩ := C21_factors (h a m n hw hs) he
    rw [e2] at k5 hr
    have h1 : min m n = k := by simpa using k5
    have h2 : min m n = r := by simpa using hr
    rw [← h2, h1]
    exact k10 h1.symm x hx y hy
  · obtain ⟨u', s', vh', e1, e2⟩ := C21_no_truncation (h a m n hw hs)
    rw [he] at e1; cases e1
    have he' : compressedSvd svd none none a = .ok ((svd a).1, diag (svd a).2.1, (svd a).2.2) := rfl
    rw [he] at he'
    cases he'
    rw [(h a m n hw hs).vh_shape] at hr
    have h1 : (svd a).2.1.length = r := by simpa using hr
    rw [(h a m n hw hs).len] at h1
    exact ho a m n hw hs z w (by omega) (by omega)

/-! ### A finding -/

/-- The decomposition of the diagonal matrix with entries 2 and 1. -/
def exSvd : Nd ℤ → Nd ℤ × List ℤ × Nd ℤ := fun _ => (⟨[2, 2], [1, 0, 0, 1]⟩, [2, 1], ⟨[2, 2], [1, 0, 0, 1]⟩)

theorem exSvd_isSvd : IsSvd (⟨[2, 2], [2, 0, 0, 1]⟩ : Nd ℤ) 2 2 (exSvd ⟨[2, 2], [2, 0, 0, 1]⟩) where
  len := rfl
  u_wf := rfl
  u_shape := rfl
  vh_wf := rfl
  vh_shape := rfl
  nonneg := by decide
  prod := by decide

/-- The cap on the rank is not respected when `err` is given too: with `rank=1` and `err=0` two singular values are
kept. -/
theorem C21_rank_cap_violated :
    IsSvd (⟨[2, 2], [2, 0, 0, 1]⟩ : Nd ℤ) 2 2 (exSvd ⟨[2, 2], [2, 0, 0, 1]⟩) ∧
    ∃ u s vh, compressedSvd exSvd (some 1) (some 0) ⟨[2, 2], [2, 0, 0, 1]⟩ = .ok (u, s, vh) ∧ s.shape = [2, 2] :=
  ⟨exSvd_isSvd, _, _, _, rfl, rfl⟩

/-! Cases. -/

example : ∃ u s vh, compressedSvd exSvd (some 1) none ⟨[2, 2], [2, 0, 0, 1]⟩ = .ok (u, s, vh) ∧ s.shape = [1, 1] :=
  C21_rank_partial (rank := 1) exSvd_isSvd (le_refl _)

example : ((exSvd ⟨[2, 2], [2, 0, 0, 1]⟩).2.1.drop 1).sum ≤ 1 :=
  (C21_err exSvd_isSvd (rank := none) (err := 1) (by decide) rfl (k := 1) rfl).1

end CompressedSvd
