import Verif.Props.C77
import Verif.Lemmas.Mirror

/-!
C79: `heom_h_list` of the spin-boson model keeps the physical density matrix Hermitian.
-/

open scoped BigOperators
open Py

namespace Sbm

open SbmSpec Heom

variable {L : Type} [DecidableEq L] {S : SpinBoson} {d : ℕ} {beta : Option ℝ} {bath : List BathTerm}

private theorem terms_mirror (ph : List (ℝ × ℝ)) (hb : ∀ t ∈ bath, (starRingEnd ℂ) t.γ = t.γ ∧ t.c' = (starRingEnd ℂ) t.c) (k : ℕ) :
    let l := (ph.map fun p => modeTerms beta p.1 p.2).flatten ++ bath
    (l.getD (swapIx ph.length k) ⟨0, 0, 0⟩).γ = (starRingEnd ℂ) (l.getD k ⟨0, 0, 0⟩).γ ∧
    (l.getD (swapIx ph.length k) ⟨0, 0, 0⟩).c' = (starRingEnd ℂ) (l.getD k ⟨0, 0, 0⟩).c ∧
    (l.getD (swapIx ph.length k) ⟨0, 0, 0⟩).c = (starRingEnd ℂ) (l.getD k ⟨0, 0, 0⟩).c' := by
  induction ph generalizing k with
  | nil =>
    simp only [List.map_nil, List.flatten_nil, List.nil_append, List.length_nil, swapIx]
    by_cases hk : k < bath.length
    · rw [List.getD_eq_getElem _ _ hk]
      obtain ⟨h1, h2⟩ := hb _ (List.getElem_mem hk)
      exact ⟨h1.symm, h2, by rw [h2, Complex.conj_conj]⟩
    · rw [List.getD_eq_default _ _ (by omega)]
      simp
  | cons p ph ih =>
    match k with
    | 0 => simp [swapIx, modeTerms, Complex.conj_ofNat]
    | 1 => simp [swapIx, modeTerms, Complex.conj_ofNat]
    | k + 2 =>
      have := ih k
      simpa [swapIx, modeTerms] using this

private theorem tiers_mirror (phDims bathDims : List ℕ) (k : ℕ) :
    ((phDims.map fun m => [m, m]).flatten ++ bathDims).getD (swapIx phDims.length k) 0 =
      ((phDims.map fun m => [m, m]).flatten ++ bathDims).getD k 0 := by
  induction phDims generalizing k with
  | nil => simp [swapIx]
  | cons p ph ih =>
    match k with
    | 0 => simp [swapIx]
    | 1 => simp [swapIx]
    | k + 2 =>
      have := ih k
      simpa [swapIx] using this

/-- For real symmetric system operators, a real scale and a bath of decaying terms with conjugate coefficients (as `Drude` has): if every
member of the hierarchy is the adjoint of the member with emission and absorption exchanged, so it is with the derivative. -/
theorem C79_mirror_partial (hS : Setup S d beta bath) (sh : Symmetric d S.h) (sop : Symmetric d S.op) (hh : Hermitian d S.h)
    (hop : Hermitian d S.op) (hb : ∀ t ∈ bath, (starRingEnd ℂ) t.γ = t.γ ∧ t.c' = (starRingEnd ℂ) t.c) {i j : L} {inds : List L}
    (hl : inds.length = (tiers S).length) (hn : (inds ++ [i, j]).Nodup) {s : ℝ} (hs : s ≠ 0) :
    ∃ terms, S.heomHList i j (some inds) beta s = .ok terms ∧ ∀ rho : Nd ℂ, rho.Wf → rho.shape = tiers S ++ [d, d] →
      MirrorHermitian d S.ph.length (tiers S) rho →
      ∃ D, derivativeOf (onAxes (inds ++ [i, j]) terms) rho = .ok D ∧ D.Wf ∧ D.shape = rho.shape ∧
        MirrorHermitian d S.ph.length (tiers S) D := by
  obtain ⟨terms, h1, h2⟩ := C77_heom_partial hS sh sop hl hn (s := (s : ℂ)) (by exact_mod_cast hs)
  refine ⟨terms, h1, fun rho hw hsh hr => ?_⟩
  obtain ⟨D, d1, d2, d3, d4⟩ := h2 rho hw hsh
  refine ⟨D, d1, d2, d3, fun n hn a b ha hb' => ?_⟩
  have hN : 2 * S.ph.length ≤ (tiers S).length := by
    rw [hS.length]
    unfold allTerms
    rw [List.length_append, ← List.flatMap_def, modes_length]
    omega
  have hdims : ∀ k, (tiers S).getD (swapIx S.ph.length k) 0 = (tiers S).getD k 0 := by
    rw [← hS.ph]
    exact tiers_mirror S.phDims S.bathDims
  rw [d4 n a b hn ha hb', d4 _ b a (mirror_valid hdims hN hn) hb' ha]
  refine rhs_mirror hN hdims hh hop (fun k _ => (terms_mirror S.ph hb k).1) (fun k _ => (terms_mirror S.ph hb k).2.1)
    (fun k _ => (terms_mirror S.ph hb k).2.2) ?_ ?_ hr hn ha hb'
  · intro m
    rw [map_div₀, Complex.conj_ofReal, Complex.conj_ofReal]
  · intro m
    rw [map_mul, Complex.conj_ofReal, Complex.conj_ofReal]

private theorem mirror_zeros (N K : ℕ) : mirror N (List.replicate K 0) = List.replicate K 0 := by
  induction N generalizing K with
  | zero => unfold mirror; rfl
  | succ N ih =>
    match K with
    | 0 => rfl
    | 1 => rfl
    | K + 2 => simp [List.replicate_succ, mirror, ih]

private theorem mirror_mirror (N : ℕ) (n : List ℕ) : mirror N (mirror N n) = n := by
  induction N generalizing n with
  | zero => unfold mirror; rfl
  | succ N ih =>
    match n with
    | [] => rfl
    | [_] => rfl
    | a :: b :: n => simp [mirror, ih]

/-- So all time derivatives of the physical density matrix are Hermitian, for a hierarchy that starts from a Hermitian system density. -/
theorem C79_hermitian_partial (hS : Setup S d beta bath) (sh : Symmetric d S.h) (sop : Symmetric d S.op) (hh : Hermitian d S.h)
    (hop : Hermitian d S.op) (hb : ∀ t ∈ bath, (starRingEnd ℂ) t.γ = t.γ ∧ t.c' = (starRingEnd ℂ) t.c) {i j : L} {inds : List L}
    (hl : inds.length = (tiers S).length) (hn : (inds ++ [i, j]).Nodup) {s : ℝ} (hs : s ≠ 0) {rho : Nd ℂ} (hr : rho.shape = [d, d])
    (hrho : Hermitian d rho) (hpos : ∀ m ∈ tiers S, 0 < m) (m : ℕ) :
    ∃ terms A D, S.heomHList i j (some inds) beta s = .ok terms ∧ genExtendedRho (tiers S) rho = .ok A ∧
      nthDerivative (onAxes (inds ++ [i, j]) terms) m A = .ok D ∧
      ∀ a b, a < d → b < d → tier D (List.replicate (tiers S).length 0) b a =
        (starRingEnd ℂ) (tier D (List.replicate (tiers S).length 0) a b) := by
  obtain ⟨terms, h1, step⟩ := C79_mirror_partial hS sh sop hh hop hb hl hn hs
  obtain ⟨A, x1, x2, x3, x4⟩ := C45_extended hr hpos
  have hN : 2 * S.ph.length ≤ (tiers S).length := by
    rw [hS.length]
    unfold allTerms
    rw [List.length_append, ← List.flatMap_def, modes_length]
    omega
  have hdims : ∀ k, (tiers S).getD (swapIx S.ph.length k) 0 = (tiers S).getD k 0 := by
    rw [← hS.ph]
    exact tiers_mirror S.phDims S.bathDims
  have hA : MirrorHermitian d S.ph.length (tiers S) A := by
    intro n hn a b ha hb
    rw [x4 n a b hn ha hb, x4 _ b a (mirror_valid hdims hN hn) hb ha]
    have e : mirror S.ph.length n = List.replicate (tiers S).length 0 ↔ n = List.replicate (tiers S).length 0 := by
      constructor
      · intro h
        rw [← mirror_mirror S.ph.length n, h, mirror_zeros]
      · intro h
        rw [h, mirror_zeros]
    by_cases h : n = List.replicate (tiers S).length 0
    · rw [if_pos h, if_pos (e.2 h), hrho a b ha hb]
    · rw [if_neg h, if_neg (fun h' => h (e.1 h'))]
      simp
  have iter : ∀ m (B : Nd ℂ), B.Wf → B.shape = tiers S ++ [d, d] → MirrorHermitian d S.ph.length (tiers S) B →
      ∃ D, nthDerivative (onAxes (inds ++ [i, j]) terms) m B = .ok D ∧ MirrorHermitian d S.ph.length (tiers S) D := by
    intro m
    induction m with
    | zero => intro B _ _ hB; exact ⟨B, rfl, hB⟩
    | succ m ih =>
      intro B hw hs hB
      obtain ⟨D, e1, e2, e3, e4⟩ := step B hw hs hB
      obtain ⟨E, f1, f2⟩ := ih D e2 (e3.trans hs) e4
      refine ⟨E, ?_, f2⟩
      show (do nthDerivative _ m (← derivativeOf _ B)) = _
      rw [e1]; exact f1
  obtain ⟨D, f1, f2⟩ := iter m A x2 x3 hA
  refine ⟨terms, A, D, h1, x1, f1, fun a b ha hb => ?_⟩
  have := f2 _ (valid_zeros hpos) a b ha hb
  rwa [mirror_zeros] at this

/-- The smallest model: no oscillators, no bath, and a Hermitian Hamiltonian with complex entries. -/
noncomputable def exBareY : SpinBoson :=
  SpinBoson.init ⟨[2, 2], [0, -Complex.I, Complex.I, 0]⟩ ⟨[2, 2], [1, 0, 0, -1]⟩ [] [] none none

/-- For Hermitian operators with complex entries it fails, since the terms act from the left with the transposed operators: with the
Hamiltonian `σ_y` and the density `1` the first derivative of the physical density matrix is not Hermitian. -/
theorem C79_violated : ∃ (S : SpinBoson) (rho : Nd ℂ) (terms : List (LTerm String)) (A D : Nd ℂ),
    Setup S 2 none [] ∧ Hermitian 2 S.h ∧ Hermitian 2 S.op ∧ rho.shape = [2, 2] ∧ Hermitian 2 rho ∧
    S.heomHList "i" "j" (some []) none 1 = .ok terms ∧ genExtendedRho (tiers S) rho = .ok A ∧
    nthDerivative (onAxes ["i", "j"] terms) 1 A = .ok D ∧
    ¬ ∀ a b, a < 2 → b < 2 → tier D [] b a = (starRingEnd ℂ) (tier D [] a b) := by
  have herm2 : ∀ x y z w : ℂ, x = (starRingEnd ℂ) x → z = (starRingEnd ℂ) y → y = (starRingEnd ℂ) z → w = (starRingEnd ℂ) w →
      Hermitian 2 ⟨[2, 2], [x, y, z, w]⟩ := by
    intro x y z w h1 h2 h3 h4 a b ha hb
    have : (a = 0 ∨ a = 1) ∧ (b = 0 ∨ b = 1) := ⟨by omega, by omega⟩
    rcases this with ⟨rfl | rfl, rfl | rfl⟩
    exacts [h1, h2, h3, h4]
  have hS : Setup exBareY 2 none [] := ⟨rfl, rfl, rfl, by trivial, rfl, by simp⟩
  have ht : tiers exBareY = [] := rfl
  obtain ⟨terms, h1, h2⟩ := C77_transposed hS (i := "i") (j := "j") (inds := []) rfl (by decide) (s := 1) one_ne_zero
  obtain ⟨A, x1, x2, x3, x4⟩ := C45_extended (dims := tiers exBareY) (rho := ⟨[2, 2], [1, 0, 0, 1]⟩) (d := 2) rfl (by simp [ht])
  obtain ⟨D, d1, d2, d3, d4⟩ := h2 A x2 x3
  refine ⟨exBareY, ⟨[2, 2], [1, 0, 0, 1]⟩, terms, A, D, hS, herm2 _ _ _ _ (by simp) (by simp) (by simp) (by simp),
    herm2 _ _ _ _ (by simp) (by simp) (by simp) (by simp), rfl, herm2 _ _ _ _ (by simp) (by simp) (by simp) (by simp), h1, x1, ?_,
    fun hD => ?_⟩
  · show (do nthDerivative _ 0 (← derivativeOf _ A)) = _
    rw [show ["i", "j"] = [] ++ ["i", "j"] from rfl, d1]; rfl
  · have tA : ∀ a b, a < 2 → b < 2 → tier A [] a b = (⟨[2, 2], [1, 0, 0, 1]⟩ : Nd ℂ).get [a, b] := by
      intro a b ha hb
      rw [x4 [] a b (by rw [ht]; simp [Valid]) ha hb]; rfl
    have t00 : tier A [] 0 0 = 1 := tA 0 0 (by omega) (by omega)
    have t01 : tier A [] 0 1 = 0 := tA 0 1 (by omega) (by omega)
    have t10 : tier A [] 1 0 = 0 := tA 1 0 (by omega) (by omega)
    have t11 : tier A [] 1 1 = 1 := tA 1 1 (by omega) (by omega)
    have g00 : exBareY.h.get [0, 0] = 0 := rfl
    have g01 : exBareY.h.get [0, 1] = -Complex.I := rfl
    have g10 : exBareY.h.get [1, 0] = Complex.I := rfl
    have g11 : exBareY.h.get [1, 1] = 0 := rfl
    have v01 : tier D [] 0 1 = 2 := by
      rw [d4 [] 0 1 (by rw [ht]; simp [Valid]) (by omega) (by omega)]
      unfold rhs2 entries
      simp only [ht, Finset.sum_range_succ, Finset.sum_range_zero, List.length_nil, zero_add, add_zero, g00, g10, g01, g11, t00, t01, t10, t11]
      ring_nf
      linear_combination (-2) * Complex.I_sq
    have v10 : tier D [] 1 0 = -2 := by
      rw [d4 [] 1 0 (by rw [ht]; simp [Valid]) (by omega) (by omega)]
      unfold rhs2 entries
      simp only [ht, Finset.sum_range_succ, Finset.sum_range_zero, List.length_nil, zero_add, add_zero, g00, g10, g01, g11, t00, t01, t10, t11]
      ring_nf
      linear_combination (2) * Complex.I_sq
    have := hD 0 1 (by omega) (by omega)
    rw [v01, v10] at this
    have h2 := congrArg Complex.re this
    simp at h2
    norm_num at h2

/-- The hypotheses can be met (C77's example). -/
example (m : ℕ) : ∃ terms A D, exModel.heomHList "i" "j" (some ["p", "q", "b"]) (some 1) (2 : ℝ) = .ok terms ∧
    genExtendedRho [2, 2, 3] ⟨[2, 2], [1, Complex.I, -Complex.I, 0]⟩ = .ok A ∧
    nthDerivative (onAxes ["p", "q", "b", "i", "j"] terms) m A = .ok D ∧
    ∀ a b, a < 2 → b < 2 → tier D [0, 0, 0] b a = (starRingEnd ℂ) (tier D [0, 0, 0] a b) := by
  have herm2 : ∀ x y z w : ℂ, x = (starRingEnd ℂ) x → z = (starRingEnd ℂ) y → y = (starRingEnd ℂ) z → w = (starRingEnd ℂ) w →
      Hermitian 2 ⟨[2, 2], [x, y, z, w]⟩ := by
    intro x y z w h1 h2 h3 h4 a b ha hb
    have : (a = 0 ∨ a = 1) ∧ (b = 0 ∨ b = 1) := ⟨by omega, by omega⟩
    rcases this with ⟨rfl | rfl, rfl | rfl⟩
    exacts [h1, h2, h3, h4]
  have herm : Hermitian 2 exModel.h ∧ Hermitian 2 exModel.op ∧ Hermitian 2 ⟨[2, 2], [1, Complex.I, -Complex.I, 0]⟩ :=
    ⟨herm2 _ _ _ _ (by simp) (by simp) (by simp) (by simp), herm2 _ _ _ _ (by simp) (by simp) (by simp) (by simp),
      herm2 _ _ _ _ (by simp) (by simp) (by simp) (by simp)⟩
  refine C79_hermitian_partial exModel_setup exModel_symmetric.1 exModel_symmetric.2 herm.1 herm.2.1 ?_ (by rfl) (by decide) two_ne_zero
    rfl herm.2.2 (by decide) m
  intro t ht
  have : t = ⟨2 - Complex.I, 2 + Complex.I, -3⟩ := by simpa using ht
  rw [this]
  simp [Complex.conj_ofNat]

end Sbm
