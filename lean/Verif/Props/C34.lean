import Verif.Lemmas.Dmrg
import Mathlib.Algebra.BigOperators.Group.Finset.Basic
import Mathlib.Algebra.Field.Rat
import Mathlib.Tactic.Ring
import Mathlib.Tactic.NormNum
import Mathlib.Tactic.FieldSimp

/-!
C34: the Heisenberg model as a matrix product operator.
-/

open scoped BigOperators
open Py

namespace Dmrg

variable {K : Type} [Field K]

/-! The documented Hamiltonian, by its matrix elements. -/

/-- The spin operators of a site. -/
def one : Nd K := mat2 1 0 0 1
def spinZ : Nd K := mat2 (1 / 2) 0 0 (-(1 / 2))
def spinPlus : Nd K := mat2 0 0 1 0
def spinMinus : Nd K := mat2 0 1 0 0

/-- The matrix element between the configurations `σ` and `τ` of the product of the operators `op 0`, ..., `op (N - 1)` of the sites. -/
def siteProduct (N : ℕ) (op : ℕ → Nd K) (σ τ : List ℕ) : K := ∏ k ∈ Finset.range N, (op k).get [σ.getD k 0, τ.getD k 0]

/-- `A` on site `i`. -/
def onSite (i : ℕ) (A : Nd K) (k : ℕ) : Nd K := if k = i then A else one

/-- `A` on site `i`, `B` on site `i + 1`. -/
def onPair (i : ℕ) (A B : Nd K) (k : ℕ) : Nd K := if k = i then A else if k = i + 1 then B else one

/-- The Hamiltonian in the documentation of `heisenberg`. -/
def documented (N : ℕ) (J Jz h : K) (σ τ : List ℕ) : K :=
  ∑ i ∈ Finset.range (N - 1), (J / 2 * (siteProduct N (onPair i spinPlus spinMinus) σ τ + siteProduct N (onPair i spinMinus spinPlus) σ τ) +
    Jz * siteProduct N (onPair i spinZ spinZ) σ τ) - ∑ i ∈ Finset.range N, h * siteProduct N (onSite i spinZ) σ τ

/-! Proof. -/

private theorem smul_get (c : K) (A : Nd K) (p : List ℕ) : (Nd.smul c A).get p = c * A.get p := by
  simp only [Nd.get, Nd.smul, List.getD_eq_getElem?_getD, List.getElem?_map]
  cases A.data[ravel A.shape p]? <;> simp

private theorem blocks_get {rows : List (List (Nd K))} {cols a m s t : ℕ} (ha : a < rows.length) (hm : m < cols) (hs : s < 2) (ht : t < 2) :
    (blocks rows cols).get [a, m, s, t] = ((rows.getD a []).getD m ⟨[], []⟩).get [s, t] := by
  refine (Nd.get_ofFn _ ?_).trans ?_
  · simp [Valid, *]
  · simp

private def midRows (J Jz h : K) : List (List (Nd K)) := [[one, mat2 0 0 0 0, mat2 0 0 0 0, mat2 0 0 0 0, mat2 0 0 0 0],
    [spinPlus, mat2 0 0 0 0, mat2 0 0 0 0, mat2 0 0 0 0, mat2 0 0 0 0], [spinMinus, mat2 0 0 0 0, mat2 0 0 0 0, mat2 0 0 0 0, mat2 0 0 0 0],
    [spinZ, mat2 0 0 0 0, mat2 0 0 0 0, mat2 0 0 0 0, mat2 0 0 0 0],
    [Nd.smul (-h) spinZ, Nd.smul (J / 2) spinMinus, Nd.smul (J / 2) spinPlus, Nd.smul (Jz / 2) spinZ, one]]

private def mid (J Jz h : K) : Nd K := blocks (midRows J Jz h) 5

private theorem mid_get (J Jz h : K) {a m s t : ℕ} (ha : a < 5) (hm : m < 5) (hs : s < 2) (ht : t < 2) :
    (mid J Jz h).get [a, m, s, t] = (([[one, mat2 0 0 0 0, mat2 0 0 0 0, mat2 0 0 0 0, mat2 0 0 0 0],
    [spinPlus, mat2 0 0 0 0, mat2 0 0 0 0, mat2 0 0 0 0, mat2 0 0 0 0], [spinMinus, mat2 0 0 0 0, mat2 0 0 0 0, mat2 0 0 0 0, mat2 0 0 0 0],
    [spinZ, mat2 0 0 0 0, mat2 0 0 0 0, mat2 0 0 0 0, mat2 0 0 0 0],
    [Nd.smul (-h) spinZ, Nd.smul (J / 2) spinMinus, Nd.smul (J / 2) spinPlus, Nd.smul (Jz / 2) spinZ, one]].getD a []).getD m
      ⟨[], []⟩).get [s, t] := blocks_get ha hm hs ht

private def lastOp (h : K) : Nd K := blocks [[one], [spinPlus], [spinMinus], [spinZ], [Nd.smul (-h) spinZ]] 1

private def firstOp (J Jz h : K) : Nd K :=
  blocks [[Nd.smul (-h) spinZ, Nd.smul (J / 2) spinMinus, Nd.smul (J / 2) spinPlus, Nd.smul (Jz / 2) spinZ, one]] 5

private theorem heisenberg_eq (N : ℕ) (J Jz h : K) :
    heisenberg N J Jz h = firstOp J Jz h :: (List.replicate (N - 2) (mid J Jz h) ++ [lastOp h]) := rfl

private theorem zero_get {s t : ℕ} (hs : s < 2) (ht : t < 2) : (mat2 0 0 0 (0 : K)).get [s, t] = 0 := by
  match s, hs, t, ht with
  | 0, _, 0, _ => rfl
  | 0, _, 1, _ => rfl
  | 1, _, 0, _ => rfl
  | 1, _, 1, _ => rfl

/-- The identity on `N` sites. -/
private def D (N : ℕ) (σ τ : List ℕ) : K := siteProduct N (fun _ => one) σ τ

private theorem getD_tail (l : List ℕ) (k : ℕ) : l.tail.getD k 0 = l.getD (k + 1) 0 := by cases l <;> simp

private theorem headD_getD (l : List ℕ) : l.headD 0 = l.getD 0 0 := by cases l <;> simp

private theorem siteProduct_succ (N : ℕ) (op : ℕ → Nd K) (σ τ : List ℕ) :
    siteProduct (N + 1) op σ τ = (op 0).get [σ.headD 0, τ.headD 0] * siteProduct N (fun k => op (k + 1)) σ.tail τ.tail := by
  unfold siteProduct
  rw [Finset.prod_range_succ', mul_comm]
  simp only [getD_tail, headD_getD]

private theorem onSite_zero (A : Nd K) (N : ℕ) (σ τ : List ℕ) :
    siteProduct (N + 1) (onSite 0 A) σ τ = A.get [σ.headD 0, τ.headD 0] * D N σ.tail τ.tail := by
  rw [siteProduct_succ]; rfl

private theorem onSite_succ (A : Nd K) (i N : ℕ) (σ τ : List ℕ) : siteProduct (N + 1) (onSite (i + 1) A) σ τ =
    one.get [σ.headD 0, τ.headD 0] * siteProduct N (onSite i A) σ.tail τ.tail := by
  rw [siteProduct_succ]
  congr 2
  funext k
  simp [onSite]

private theorem onPair_zero (A B : Nd K) (N : ℕ) (σ τ : List ℕ) : siteProduct (N + 2) (onPair 0 A B) σ τ =
    A.get [σ.headD 0, τ.headD 0] * (B.get [σ.tail.headD 0, τ.tail.headD 0] * D N σ.tail.tail τ.tail.tail) := by
  rw [siteProduct_succ, siteProduct_succ]; rfl

private theorem onPair_succ (A B : Nd K) (i N : ℕ) (σ τ : List ℕ) : siteProduct (N + 1) (onPair (i + 1) A B) σ τ =
    one.get [σ.headD 0, τ.headD 0] * siteProduct N (onPair i A B) σ.tail τ.tail := by
  rw [siteProduct_succ]
  congr 2
  funext k
  simp [onPair]

private theorem documented_succ (n : ℕ) (J Jz h : K) (σ τ : List ℕ) : documented (n + 2) J Jz h σ τ =
    J / 2 * (siteProduct (n + 2) (onPair 0 spinPlus spinMinus) σ τ + siteProduct (n + 2) (onPair 0 spinMinus spinPlus) σ τ) +
      Jz * siteProduct (n + 2) (onPair 0 spinZ spinZ) σ τ - h * siteProduct (n + 2) (onSite 0 spinZ) σ τ +
      one.get [σ.headD 0, τ.headD 0] * documented (n + 1) J Jz h σ.tail τ.tail := by
  unfold documented
  rw [show n + 2 - 1 = n + 1 from rfl, show n + 1 - 1 = n from rfl, Finset.sum_range_succ', Finset.sum_range_succ' _ (n + 1)]
  simp only [onPair_succ (K := K) _ _ _ (n + 1), onSite_succ (K := K) _ _ (n + 1), mul_sub, Finset.mul_sum]
  rw [Finset.sum_congr rfl (g := fun i => one.get [σ.headD 0, τ.headD 0] * (J / 2 *
    (siteProduct (n + 1) (onPair i spinPlus spinMinus) σ.tail τ.tail + siteProduct (n + 1) (onPair i spinMinus spinPlus) σ.tail τ.tail) +
    Jz * siteProduct (n + 1) (onPair i spinZ spinZ) σ.tail τ.tail)) (fun i _ => by ring),
    Finset.sum_congr rfl (s₁ := Finset.range (n + 1)) (g := fun i => one.get [σ.headD 0, τ.headD 0] *
      (h * siteProduct (n + 1) (onSite i spinZ) σ.tail τ.tail)) (fun i _ => by ring)]
  ring

private theorem valid_two {n : ℕ} {σ : List ℕ} (h : Valid (List.replicate (n + 1) 2) σ) :
    σ.headD 0 < 2 ∧ Valid (List.replicate n 2) σ.tail := by
  obtain ⟨s, σ, rfl, hs, h⟩ := valid_cons_iff.1 (by simpa [List.replicate_succ] using h)
  exact ⟨hs, h⟩

/-- The right part of the chain, from every bond index. -/
private theorem right_part (J Jz h : K) : ∀ (n : ℕ) (σ τ : List ℕ), Valid (List.replicate (n + 1) 2) σ → Valid (List.replicate (n + 1) 2) τ →
    mpoProd (List.replicate n (mid J Jz h) ++ [lastOp h]) σ τ 0 0 = D (n + 1) σ τ ∧
    mpoProd (List.replicate n (mid J Jz h) ++ [lastOp h]) σ τ 1 0 = spinPlus.get [σ.headD 0, τ.headD 0] * D n σ.tail τ.tail ∧
    mpoProd (List.replicate n (mid J Jz h) ++ [lastOp h]) σ τ 2 0 = spinMinus.get [σ.headD 0, τ.headD 0] * D n σ.tail τ.tail ∧
    mpoProd (List.replicate n (mid J Jz h) ++ [lastOp h]) σ τ 3 0 = spinZ.get [σ.headD 0, τ.headD 0] * D n σ.tail τ.tail ∧
    mpoProd (List.replicate n (mid J Jz h) ++ [lastOp h]) σ τ 4 0 = documented (n + 1) J (Jz / 2) h σ τ
  | 0, σ, τ, hσ, hτ => by
    have hs := (valid_two hσ).1
    have ht := (valid_two hτ).1
    have hd : (lastOp h).dim 1 = 1 := rfl
    have hD : ∀ σ τ : List ℕ, (D 0 σ τ : K) = 1 := fun _ _ => rfl
    have hD1 : (D 1 σ τ : K) = one.get [σ.headD 0, τ.headD 0] := by
      unfold D; rw [siteProduct_succ]; exact mul_one _
    simp only [List.replicate_zero, List.nil_append, mpoProd, hd, Finset.sum_range_one, if_true, mul_one]
    refine ⟨?_, ?_, ?_, ?_, ?_⟩ <;> (rw [lastOp, blocks_get (by simp) (by simp) hs ht]; simp only [List.getD_cons_zero, List.getD_cons_succ])
    · exact hD1.symm
    · rw [hD, mul_one]
    · rw [hD, mul_one]
    · rw [hD, mul_one]
    · unfold documented
      rw [Finset.sum_range_one, onSite_zero, hD, smul_get]
      simp
  | n + 1, σ, τ, hσ, hτ => by
    obtain ⟨hs, hσ'⟩ := valid_two hσ
    obtain ⟨ht, hτ'⟩ := valid_two hτ
    obtain ⟨e0, e1, e2, e3, e4⟩ := right_part J Jz h n _ _ hσ' hτ'
    have hd : (mid J Jz h).dim 1 = 5 := rfl
    have hD : ∀ (n : ℕ) (σ τ : List ℕ), (D (n + 1) σ τ : K) = one.get [σ.headD 0, τ.headD 0] * D n σ.tail τ.tail := by
      intro n σ τ
      exact siteProduct_succ _ _ _ _
    simp only [List.replicate_succ, List.cons_append, mpoProd, hd, Finset.sum_range_succ, Finset.sum_range_zero, zero_add, e0, e1, e2, e3, e4]
    have g := fun (a m : ℕ) (ha : a < 5) (hm : m < 5) => mid_get J Jz h ha hm hs ht
    have z := zero_get (K := K) hs ht
    rw [documented_succ, onPair_zero, onPair_zero, onPair_zero, onSite_zero, hD (n + 1)]
    generalize σ.headD 0 = s at *
    generalize τ.headD 0 = t at *
    generalize σ.tail = σ' at *
    generalize τ.tail = τ' at *
    generalize σ'.headD 0 = s' at *
    generalize τ'.headD 0 = t' at *
    refine ⟨?_, ?_, ?_, ?_, ?_⟩
    · simp [g, z]
    · simp [g, z]
    · simp [g, z]
    · simp [g, z]
    · simp [g, smul_get]
      ring

private theorem mps_ok {J Jz h : K} : ∀ n : ℕ, IsMpo (List.replicate (n + 1) 2) (List.replicate (n + 1) 2) 5 1
    (List.replicate n (mid J Jz h) ++ [lastOp h])
  | 0 => ⟨1, rfl, rfl⟩
  | n + 1 => ⟨5, rfl, mps_ok n⟩

/-- For every chain of at least two sites `heisenberg(N, J, Jz, h)` is a matrix product operator over `N` spins with open ends. -/
theorem C34_is_mpo {N : ℕ} (hN : 2 ≤ N) (J Jz h : K) :
    IsMpo (List.replicate N 2) (List.replicate N 2) 1 1 (heisenberg N J Jz h) := by
  obtain ⟨n, rfl⟩ := Nat.exists_eq_add_of_le hN
  rw [heisenberg_eq, Nat.add_comm 2 n]
  exact ⟨5, rfl, mps_ok n⟩

/-- Its matrix elements are those of the documented Hamiltonian, except that `Jz` enters with half of its value: for every number of
sites, every `J`, `Jz`, `h` and all configurations. -/
theorem C34_heisenberg_partial {N : ℕ} (hN : 2 ≤ N) (J Jz h : K) {σ τ : List ℕ} (hσ : Valid (List.replicate N 2) σ)
    (hτ : Valid (List.replicate N 2) τ) : mpoProd (heisenberg N J Jz h) σ τ 0 0 = documented N J (Jz / 2) h σ τ := by
  obtain ⟨n, rfl⟩ := Nat.exists_eq_add_of_le hN
  rw [Nat.add_comm 2 n] at hσ hτ ⊢
  rw [← (right_part J Jz h (n + 1) σ τ hσ hτ).2.2.2.2, heisenberg_eq, List.replicate_succ, List.cons_append, mpoProd, mpoProd]
  refine Finset.sum_congr rfl fun m hm => ?_
  have hm : m < 5 := Finset.mem_range.1 hm
  rw [mid_get J Jz h (by decide) hm (valid_two hσ).1 (valid_two hτ).1, firstOp, blocks_get (by simp) hm (valid_two hσ).1 (valid_two hτ).1]
  rfl

/-- The documented Hamiltonian itself is obtained from `heisenberg(N, J, 2 * Jz, h)`. -/
theorem C34_doubled_partial {N : ℕ} (hN : 2 ≤ N) (h2 : (2 : K) ≠ 0) (J Jz h : K) {σ τ : List ℕ} (hσ : Valid (List.replicate N 2) σ)
    (hτ : Valid (List.replicate N 2) τ) : mpoProd (heisenberg N J (2 * Jz) h) σ τ 0 0 = documented N J Jz h σ τ := by
  rw [C34_heisenberg_partial hN _ _ _ hσ hτ, mul_div_cancel_left₀ _ h2]

/-- The documentation is wrong: with `Jz = 1` two parallel spins have the energy 1/8, not 1/4. -/
theorem C34_violated : mpoProd (heisenberg 2 (0 : ℚ) 1 0) [0, 0] [0, 0] 0 0 = 1 / 8 ∧ documented 2 (0 : ℚ) 1 0 [0, 0] [0, 0] = 1 / 4 := by
  constructor <;> decide +kernel

/-- `heisenberg` never returns less than two sites. -/
theorem C34_short (J Jz h : K) : heisenberg 1 J Jz h = heisenberg 2 J Jz h ∧ heisenberg 0 J Jz h = heisenberg 2 J Jz h := ⟨rfl, rfl⟩

/-- Three sites, with all the terms. -/
example : Valid (List.replicate 3 2) [0, 1, 0] ∧ Valid (List.replicate 3 2) [0, 0, 1] ∧
    mpoProd (heisenberg 3 (2 : ℚ) 1 5) [0, 1, 0] [0, 0, 1] 0 0 = 1 ∧ mpoProd (heisenberg 3 (2 : ℚ) 2 5) [0, 1, 0] [0, 1, 0] 0 0 = -3 := by
  refine ⟨by simp [Valid], by simp [Valid], ?_, ?_⟩ <;> decide +kernel

end Dmrg
