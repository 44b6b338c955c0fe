import Verif.Lemmas.Dirac3
import Verif.Lemmas.MultiLayer
import Mathlib.LinearAlgebra.Matrix.PosDef
import Mathlib.Analysis.Complex.Basic

/-! Helper lemmas for C132: densities are positive. -/

open scoped BigOperators ComplexOrder
open Py

namespace ML

open Heap

variable {T R : Type} [Zero T] [CommRing R] [StarRing R]

/-- The contraction of a branch without operators. -/
theorem branchEnv_plain (s : Obj T R) {t j : ℕ} {G : Forest} (ht : IsTree (s.withTerm []) t (some j) G) (v w : ℕ) :
    (s.withTerm []).branchEnv t j G v w = sumLeaves ((s.withTerm []).leafList t G) (fun x =>
      (s.withTerm []).branchAmp t j G x v * star ((s.withTerm []).branchAmp t j G x w)) (fun _ => 0) := by
  set h := s.withTerm [] with hh
  have hn : ((h.leafList t G).map Prod.fst).Nodup := by
    rw [Heap.leafList_fst]
    exact (List.nodup_cons.1 ht.nodup).2.filter _
  unfold branchEnv
  refine TreeSum.sumLeaves_congr' hn fun x h1 h2 => ?_
  rw [← TreeSum.sumLeaves_delta hn (fun y => h.branchAmp t j G x v * star (h.branchAmp t j G y w)) x (fun _ => 0) h2 fun l hl => (h1 l hl).symm]
  refine TreeSum.sumLeaves_congr fun y => ?_
  have : ((h.leafList t G).map Prod.fst).map (fun l => opEntry (h.array l) (x l) (y l)) =
      ((h.leafList t G).map Prod.fst).map fun l => if x l = y l then (1 : R) else 0 := by
    refine List.map_congr_left fun l hl => ?_
    obtain ⟨p, hp, rfl⟩ := List.mem_map.1 hl
    obtain ⟨e, he, rfl⟩ := List.mem_map.1 hp
    have hlf : h.isLeaf e.2.2.1 = true := by simpa using (List.mem_filter.1 he).2
    rw [hh, withTerm_isLeaf] at hlf
    have : h.array e.2.2.1 = none := withTerm_leaf hlf
    simp only [this, opEntry]
  rw [this]
  ring

/-- The entries of a density are the inner products of the vectors of a family. -/
theorem density_gram {s : Obj T R} {t k : ℕ} {d : Nd R} (hd : IsDensity s t k d) (hb : ∀ c j, s.heap.acc t k = some (c, j) → s.heap.isLeaf c = false)
    (hl : s.heap.isLeaf t = false) :
    d.Wf ∧ d.shape = [s.heap.hdim (t, k), s.heap.hdim (t, k)] ∧ ∃ (m : ℕ) (a : ℕ → ℕ → R), ∀ v < s.heap.hdim (t, k), ∀ w < s.heap.hdim (t, k),
      d.get [v, w] = ∑ x ∈ Finset.range m, a x v * star (a x w) := by
  obtain ⟨E, ⟨c, j, h1, h2⟩, h3⟩ := hd
  rw [withTerm_acc] at h1
  rcases h2 with ⟨h2, -⟩ | ⟨-, G, hG, rfl⟩
  · rw [withTerm_isLeaf, hb c j h1] at h2; cases h2
  · rw [withTerm_hdim _ hl] at h3
    obtain ⟨w1, w2, w3⟩ := h3
    refine ⟨w1, w2, (((s.withTerm []).leafList c G).map Prod.snd).prod, fun x v => (s.withTerm []).branchAmp c j G
      (leafPoint ((s.withTerm []).leafList c G) (unravel (((s.withTerm []).leafList c G).map Prod.snd) x) (fun _ => 0)) v, fun v hv w hw => ?_⟩
    rw [w3 v hv w hw, branchEnv_plain s hG, sumLeaves_range]

/-- The density as a matrix. -/
def toMat {R : Type} [Zero R] (n : ℕ) (d : Nd R) : Matrix (Fin n) (Fin n) R := Matrix.of fun i j => d.get [i.1, j.1]

theorem posSemidef_of_gram {n m : ℕ} {d : Nd ℂ} {a : ℕ → ℕ → ℂ} (h : ∀ v < n, ∀ w < n, d.get [v, w] = ∑ x ∈ Finset.range m, a x v * star (a x w)) :
    (toMat n d).PosSemidef := by
  have : toMat n d = (Matrix.of fun (i : Fin n) (x : Fin m) => a x.1 i.1) * (Matrix.of fun (i : Fin n) (x : Fin m) => a x.1 i.1).conjTranspose := by
    ext i j
    rw [Matrix.mul_apply, toMat, Matrix.of_apply, h _ i.2 _ j.2, Finset.sum_range]
    rfl
  rw [this]
  exact Matrix.posSemidef_self_mul_conjTranspose _

end ML
