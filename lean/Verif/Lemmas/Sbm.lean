import Verif.Model.Sbm
import Verif.Spec.Sbm
import Verif.Lemmas.Heom
import Mathlib.Data.List.GetD
import Mathlib.Analysis.SpecialFunctions.Trigonometric.DerivHyp

/-! The lists of terms of `models/sbm.py`. -/

open scoped BigOperators
open Py

namespace Sbm

open SbmSpec Heom

/-- The labels of `h_list` stand for the axes. -/
theorem hList_ok {L : Type} [DecidableEq L] (H : Hierachy) {sysI sysJ : L} {ph : List L} {ts : List Term} (hd : H.diff = .ok ts)
    {S : List ℕ} (hf : ∀ t ∈ ts, Fits S t) (hl : ph.length + 2 = S.length) (hn : (ph ++ [sysI, sysJ]).Nodup) :
    ∃ lts, hList H sysI sysJ ph = .ok lts ∧ onAxes (ph ++ [sysI, sysJ]) lts = ts := by
  set conv := ph ++ [sysI, sysJ] with hc
  have hlen : conv.length = S.length := by rw [hc]; simpa using hl
  have one : ∀ t : Term, Fits S t → ∃ lt : LTerm L, (t.mapM fun m => (do pure (← item conv m.1, m.2) : Res (L × Nd ℂ))) = .ok lt ∧
      (lt.map fun m => (conv.idxOf m.1, m.2)) = t := by
    intro t
    induction t with
    | nil => intro _; exact ⟨[], rfl, rfl⟩
    | cons m t ih =>
      intro h
      obtain ⟨lt, h1, h2⟩ := ih fun x hx => h x (by simp [hx])
      have hm : m.1 < conv.length := hlen ▸ (h m (by simp)).1
      refine ⟨(conv[m.1], m.2) :: lt, ?_, ?_⟩
      · rw [List.mapM_cons, h1]
        unfold item
        rw [List.getElem?_eq_getElem hm]
        rfl
      · rw [List.map_cons, h2, hn.idxOf_getElem]
  have all : ∀ ts : List Term, (∀ t ∈ ts, Fits S t) → ∃ lts : List (LTerm L),
      (ts.mapM fun t => t.mapM fun m => (do pure (← item conv m.1, m.2) : Res (L × Nd ℂ))) = .ok lts ∧ onAxes conv lts = ts := by
    intro ts
    induction ts with
    | nil => intro _; exact ⟨[], rfl, rfl⟩
    | cons t ts ih =>
      intro h
      obtain ⟨lts, h1, h2⟩ := ih fun x hx => h x (by simp [hx])
      obtain ⟨lt, g1, g2⟩ := one t (h t (by simp))
      refine ⟨lt :: lts, ?_, ?_⟩
      · rw [List.mapM_cons, g1, ok_bind, h1]
        rfl
      · unfold onAxes at h2 ⊢
        rw [List.map_cons, h2, g2]
  obtain ⟨lts, h1, h2⟩ := all ts hf
  refine ⟨lts, ?_, h2⟩
  unfold hList
  rw [hd, ok_bind]
  exact h1

/-- The terms of the oscillators, as `generate_BCF` lists them. -/
theorem tempFactor_ok {beta : Option ℝ} {omega : ℝ} (h : ∀ b, beta = some b → b * omega ≠ 0) :
    Corr.tempFactor omega beta = .ok ((coth beta omega : ℝ) : ℂ) := by
  cases beta with
  | none => simp [Corr.tempFactor, coth]
  | some b =>
    have h0 : b * omega / 2 ≠ 0 := div_ne_zero (h b rfl) two_ne_zero
    have hs : Real.sinh (b * omega / 2) ≠ 0 := by rwa [Ne, Real.sinh_eq_zero]
    have ht : Real.tanh (b * omega / 2) ≠ 0 := by
      rw [Real.tanh_eq_sinh_div_cosh]
      exact div_ne_zero hs (Real.cosh_pos _).ne'
    unfold Corr.tempFactor coth
    dsimp only
    rw [Corr.div_ne _ (by exact_mod_cast ht), Real.tanh_eq_sinh_div_cosh]
    simp only [Complex.ofReal_div, one_div, inv_div]

theorem modes_ok {beta : Option ℝ} {ph : List (ℝ × ℝ)} (h : ∀ b, beta = some b → ∀ p ∈ ph, b * p.1 ≠ 0) :
    ∃ ms, ph.mapM (Corr.mode beta) = .ok ms ∧
      (ms.map fun m => m.1).flatten = (ph.flatMap fun p => modeTerms beta p.1 p.2).map (·.c) ∧
      (ms.map fun m => m.2.1).flatten = (ph.flatMap fun p => modeTerms beta p.1 p.2).map (·.c') ∧
      (ms.map fun m => m.2.2).flatten = (ph.flatMap fun p => modeTerms beta p.1 p.2).map (·.γ) := by
  induction ph with
  | nil => exact ⟨[], rfl, rfl, rfl, rfl⟩
  | cons p ph ih =>
    obtain ⟨ms, h1, h2, h3, h4⟩ := ih fun b hb q hq => h b hb q (by simp [hq])
    have e : Corr.mode beta p = .ok ((modeTerms beta p.1 p.2).map (·.c), (modeTerms beta p.1 p.2).map (·.c'), (modeTerms beta p.1 p.2).map (·.γ)) := by
      unfold Corr.mode
      dsimp only
      rw [tempFactor_ok fun b hb => h b hb p (by simp), ok_bind]
      rfl
    refine ⟨_ :: ms, by rw [List.mapM_cons, e, ok_bind, h1]; rfl, ?_, ?_, ?_⟩
    · rw [List.map_cons, List.flatten_cons, h2, List.flatMap_cons, List.map_append]
    · rw [List.map_cons, List.flatten_cons, h3, List.flatMap_cons, List.map_append]
    · rw [List.map_cons, List.flatten_cons, h4, List.flatMap_cons, List.map_append]

theorem generateBCF_ok {beta : Option ℝ} {ph : List (ℝ × ℝ)} (h : ∀ b, beta = some b → ∀ p ∈ ph, b * p.1 ≠ 0)
    {corr : Option Corr.Correlation} {ts : List BathTerm} (hc : HasTerms corr ts) :
    Corr.generateBCF ph corr beta = .ok ⟨((ph.flatMap fun p => modeTerms beta p.1 p.2) ++ ts).length, beta,
      ((ph.flatMap fun p => modeTerms beta p.1 p.2) ++ ts).map (·.c), ((ph.flatMap fun p => modeTerms beta p.1 p.2) ++ ts).map (·.c'),
      ((ph.flatMap fun p => modeTerms beta p.1 p.2) ++ ts).map (·.γ)⟩ := by
  obtain ⟨ms, h1, h2, h3, h4⟩ := modes_ok h
  unfold Corr.generateBCF
  rw [h1, ok_bind, h2, h3, h4]
  cases corr with
  | none =>
    obtain rfl : ts = [] := hc
    simp only [List.append_nil, List.length_map]
    rfl
  | some c =>
    obtain ⟨g1, g2, g3⟩ := hc
    dsimp only
    rw [g1, g2, g3]
    simp only [← List.map_append, List.length_map]
    rfl

theorem modes_length (beta : Option ℝ) (ph : List (ℝ × ℝ)) : (ph.flatMap fun p => modeTerms beta p.1 p.2).length = 2 * ph.length := by
  induction ph with
  | nil => rfl
  | cons p ph ih => rw [List.flatMap_cons, List.length_append, ih]; simp [modeTerms]; ring

theorem repeat_length (l : List ℕ) : (l.flatMap (List.replicate 2)).length = 2 * l.length := by
  induction l with
  | nil => rfl
  | cons p ph ih => rw [List.flatMap_cons, List.length_append, ih]; simp; ring

end Sbm
