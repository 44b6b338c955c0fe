import Verif.Spec.DmrgEnergy
import Verif.Props.C34

/-!
The operator of the Heisenberg model is symmetric; its diagonal.
-/

open scoped BigOperators
open Py

namespace Dmrg

variable {K : Type} [Field K]

theorem valid_getD : ∀ {N : ℕ} {σ : List ℕ}, Valid (List.replicate N 2) σ → ∀ k, σ.getD k 0 < 2
  | 0, σ, h, k => by
    obtain rfl := valid_nil_iff.1 h
    simp
  | N + 1, σ, h, k => by
    obtain ⟨s, σ, rfl, hs, h⟩ := valid_cons_iff.1 (by simpa [List.replicate_succ] using h)
    cases k with
    | zero => simpa using hs
    | succ k => simpa using valid_getD h k

/-- `B` is the transpose of `A`. -/
def Transposed (A B : Nd K) : Prop := ∀ s < 2, ∀ t < 2, A.get [s, t] = B.get [t, s]

theorem transposed_one : Transposed (one : Nd K) one := by
  intro s hs t ht
  match s, hs, t, ht with
  | 0, _, 0, _ => rfl
  | 0, _, 1, _ => rfl
  | 1, _, 0, _ => rfl
  | 1, _, 1, _ => rfl

theorem transposed_z : Transposed (spinZ : Nd K) spinZ := by
  intro s hs t ht
  match s, hs, t, ht with
  | 0, _, 0, _ => rfl
  | 0, _, 1, _ => rfl
  | 1, _, 0, _ => rfl
  | 1, _, 1, _ => rfl

theorem transposed_pm : Transposed (spinPlus : Nd K) spinMinus ∧ Transposed (spinMinus : Nd K) spinPlus := by
  constructor <;>
  · intro s hs t ht
    match s, hs, t, ht with
    | 0, _, 0, _ => rfl
    | 0, _, 1, _ => rfl
    | 1, _, 0, _ => rfl
    | 1, _, 1, _ => rfl

theorem siteProduct_transposed {N : ℕ} {op op' : ℕ → Nd K} (h : ∀ k, Transposed (op k) (op' k)) {σ τ : List ℕ}
    (hσ : Valid (List.replicate N 2) σ) (hτ : Valid (List.replicate N 2) τ) : siteProduct N op σ τ = siteProduct N op' τ σ :=
  Finset.prod_congr rfl fun k _ => h k _ (valid_getD hσ k) _ (valid_getD hτ k)

theorem transposed_pair {A A' B B' : Nd K} (hA : Transposed A A') (hB : Transposed B B') (i k : ℕ) :
    Transposed (onPair i A B k) (onPair i A' B' k) := by
  unfold onPair
  split
  · exact hA
  · split
    · exact hB
    · exact transposed_one

theorem transposed_site {A A' : Nd K} (hA : Transposed A A') (i k : ℕ) : Transposed (onSite i A k) (onSite i A' k) := by
  unfold onSite
  split
  · exact hA
  · exact transposed_one

theorem documented_symm {N : ℕ} (J Jz h : K) {σ τ : List ℕ} (hσ : Valid (List.replicate N 2) σ) (hτ : Valid (List.replicate N 2) τ) :
    documented N J Jz h σ τ = documented N J Jz h τ σ := by
  unfold documented
  congr 1
  · refine Finset.sum_congr rfl fun i _ => ?_
    rw [siteProduct_transposed (transposed_pair transposed_pm.1 transposed_pm.2 i) hσ hτ,
      siteProduct_transposed (transposed_pair transposed_pm.2 transposed_pm.1 i) hσ hτ,
      siteProduct_transposed (transposed_pair transposed_z transposed_z i) hσ hτ]
    ring
  · refine Finset.sum_congr rfl fun i _ => ?_
    rw [siteProduct_transposed (transposed_site transposed_z i) hσ hτ]

/-- The operator of `heisenberg` is symmetric. -/
theorem heisenberg_symmetric {N : ℕ} (hN : 2 ≤ N) (J Jz h : K) : Symmetric (List.replicate N 2) (heisenberg N J Jz h) := by
  intro σ τ hσ hτ
  unfold operator
  rw [C34_heisenberg_partial hN _ _ _ hσ hτ, C34_heisenberg_partial hN _ _ _ hτ hσ]
  exact documented_symm _ _ _ hσ hτ

/-- The value of `S^z`. -/
def zval (s : ℕ) : K := if s = 0 then 1 / 2 else -(1 / 2)

theorem spinZ_diag {s : ℕ} (hs : s < 2) : (spinZ : Nd K).get [s, s] = zval s := by
  match s, hs with
  | 0, _ => rfl
  | 1, _ => rfl

theorem one_diag {s : ℕ} (hs : s < 2) : (one : Nd K).get [s, s] = 1 := by
  match s, hs with
  | 0, _ => rfl
  | 1, _ => rfl

theorem plus_diag {s : ℕ} (hs : s < 2) : (spinPlus : Nd K).get [s, s] = 0 := by
  match s, hs with
  | 0, _ => rfl
  | 1, _ => rfl

theorem minus_diag {s : ℕ} (hs : s < 2) : (spinMinus : Nd K).get [s, s] = 0 := by
  match s, hs with
  | 0, _ => rfl
  | 1, _ => rfl

theorem siteProduct_site {N i : ℕ} (hi : i < N) (A : Nd K) {σ : List ℕ} (hσ : Valid (List.replicate N 2) σ) :
    siteProduct N (onSite i A) σ σ = A.get [σ.getD i 0, σ.getD i 0] := by
  unfold siteProduct
  rw [Finset.prod_eq_single i]
  · simp [onSite]
  · intro k _ hk
    rw [onSite, if_neg hk, one_diag (valid_getD hσ k)]
  · intro hc; exact absurd (Finset.mem_range.2 hi) hc

theorem siteProduct_pair {N i : ℕ} (hi : i + 1 < N) (A B : Nd K) {σ : List ℕ} (hσ : Valid (List.replicate N 2) σ) :
    siteProduct N (onPair i A B) σ σ = A.get [σ.getD i 0, σ.getD i 0] * B.get [σ.getD (i + 1) 0, σ.getD (i + 1) 0] := by
  unfold siteProduct
  rw [Finset.prod_eq_mul i (i + 1) (by omega)]
  · simp [onPair]
  · rintro k _ ⟨h1, h2⟩
    rw [onPair, if_neg h1, if_neg h2, one_diag (valid_getD hσ k)]
  · intro hc; exact absurd (Finset.mem_range.2 (by omega)) hc
  · intro hc; exact absurd (Finset.mem_range.2 hi) hc

theorem documented_diag {N : ℕ} (J Jz h : K) {σ : List ℕ} (hσ : Valid (List.replicate N 2) σ) :
    documented N J Jz h σ σ = ∑ i ∈ Finset.range (N - 1), Jz * (zval (σ.getD i 0) * zval (σ.getD (i + 1) 0)) -
      ∑ i ∈ Finset.range N, h * zval (σ.getD i 0) := by
  unfold documented
  congr 1
  · refine Finset.sum_congr rfl fun i hi => ?_
    have hi' : i + 1 < N := by have := Finset.mem_range.1 hi; omega
    rw [siteProduct_pair hi' _ _ hσ, siteProduct_pair hi' _ _ hσ, siteProduct_pair hi' _ _ hσ, plus_diag (valid_getD hσ _),
      minus_diag (valid_getD hσ i), minus_diag (valid_getD hσ _), spinZ_diag (valid_getD hσ _), spinZ_diag (valid_getD hσ _)]
    ring
  · refine Finset.sum_congr rfl fun i hi => ?_
    rw [siteProduct_site (Finset.mem_range.1 hi) _ hσ, spinZ_diag (valid_getD hσ _)]

end Dmrg
