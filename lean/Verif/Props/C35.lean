import Verif.Lemmas.DmrgSweep
import Verif.Props.C33
import Verif.Props.C37

/-!
C35, C36: the environments used by the sweeps of DMRG are those of the current state.

`st.log` lists the optimizations in their order: the (left) site, the environments used and the matrices at that time.
-/

open Py

namespace Dmrg

variable {R : Type} [CommRing R]

theorem le_count_repeat {l : List ℕ} {i : ℕ} (h : i ∈ l) (n : ℕ) : n ≤ ((List.replicate n l).flatten).count i := by
  have := List.one_le_count_iff.2 h
  induction n with
  | zero => omega
  | succ n ih => rw [List.replicate_succ, List.flatten_cons, List.count_append]; omega

/-- `dmrg1` on any chain, with any number of sweeps, any answers of the eigensolver and any singular value decompositions: it never
fails (no stack runs empty); every optimization of a site `i` uses the contraction of the current matrices left of `i` and the
contraction of the current matrices right of `i`; the sites are optimized in the order `0, ..., N-2, N-1, ..., 1`; and the result is
again a chain with the same physical dimensions. -/
theorem C35_environments {svd : SvdFn R} {eig : EigFn R} (hsvd : SvdShape svd) (he : EigSize eig) {ds : List ℕ} {mpo mps : List (Nd R)}
    (hm : IsMps ds 1 1 mps) (ho : IsMpo ds ds 1 1 mpo) (hpos : ∀ A ∈ mps, ∀ n ∈ A.shape, 0 < n) (hd : ds ≠ []) (trunc sweeps : ℕ)
    (ht : 0 < trunc) :
    ∃ st, dmrg1 svd eig mpo mps trunc sweeps = .ok st ∧ IsMps ds 1 1 st.mps ∧
      (∀ i L Rt cur, (i, L, Rt, cur) ∈ st.log → i < ds.length ∧ IsMps ds 1 1 cur ∧ LeftEnv ds mpo cur i L ∧
        RightEnv ds mpo cur (i + 1) Rt) ∧
      st.log.map (·.1) =
        (List.replicate (sweeps / 2) (List.range (ds.length - 1) ++ (List.range' 1 (ds.length - 1)).reverse)).flatten := by
  obtain ⟨c, b, hf⟩ := Fit.of hm ho hpos hd
  have hd' : 0 < ds.length := List.length_pos_iff.2 hd
  obtain ⟨rs, e, hrs⟩ := contractRs_ok hf 0 (by omega)
  have h0 : Inv ds mpo 1 0 (⟨mps, [one3], rs, []⟩ : State R) := ⟨⟨c, b, hf⟩, .base (LeftOf.zero _ _), hrs, by simp⟩
  obtain ⟨st, e', h, l⟩ := repeat_ok (fun st h => sweep1_ok hsvd he ht h hd') h0 (sweeps / 2)
  obtain ⟨c', b', hf'⟩ := h.fit
  have hm' := hf'.mps.isMps
  rw [hf'.b0, hf'.bn] at hm'
  refine ⟨st, ?_, hm', fun i L Rt cur hmem => ?_, by simpa using l⟩
  · unfold dmrg1
    rw [e, ok_bind]
    exact e'
  · have := h.log _ hmem
    exact ⟨by have := this.1; simp only at this; omega, this.2⟩

/-- Every site is optimized at least once in every sweep of a chain of at least two sites. -/
theorem C35_every_site {svd : SvdFn R} {eig : EigFn R} (hsvd : SvdShape svd) (he : EigSize eig) {ds : List ℕ} {mpo mps : List (Nd R)}
    (hm : IsMps ds 1 1 mps) (ho : IsMpo ds ds 1 1 mpo) (hpos : ∀ A ∈ mps, ∀ n ∈ A.shape, 0 < n) (hd : 2 ≤ ds.length) (trunc sweeps : ℕ)
    (ht : 0 < trunc) :
    ∃ st, dmrg1 svd eig mpo mps trunc sweeps = .ok st ∧ ∀ i < ds.length, sweeps / 2 ≤ (st.log.map (·.1)).count i := by
  obtain ⟨st, e, -, -, l⟩ := C35_environments hsvd he hm ho hpos (by rintro rfl; simp at hd) trunc sweeps ht
  refine ⟨st, e, fun i hi => ?_⟩
  rw [l]
  exact le_count_repeat (by simp; omega) _

/-- `dmrg2`, in the same way: every optimization of a pair `i, i + 1` uses the contractions of the current matrices outside the
pair. -/
theorem C36_environments {svd : SvdFn R} {eig : EigFn R} (hsvd : SvdShape svd) (he : EigSize eig) {ds : List ℕ} {mpo mps : List (Nd R)}
    (hm : IsMps ds 1 1 mps) (ho : IsMpo ds ds 1 1 mpo) (hpos : ∀ A ∈ mps, ∀ n ∈ A.shape, 0 < n) (hd : 2 ≤ ds.length)
    (trunc sweeps : ℕ) :
    ∃ st, dmrg2 svd eig mpo mps trunc sweeps = .ok st ∧ IsMps ds 1 1 st.mps ∧
      (∀ i L Rt cur, (i, L, Rt, cur) ∈ st.log → i + 1 < ds.length ∧ IsMps ds 1 1 cur ∧ LeftEnv ds mpo cur i L ∧
        RightEnv ds mpo cur (i + 2) Rt) ∧
      st.log.map (·.1) =
        (List.replicate (sweeps / 2) (List.range (ds.length - 2) ++ (List.range' 1 (ds.length - 2)).reverse)).flatten := by
  obtain ⟨c, b, hf⟩ := Fit.of hm ho hpos (by rintro rfl; simp at hd)
  obtain ⟨rs, e, hrs⟩ := contractRs_ok hf 1 (by omega)
  have h0 : Inv ds mpo 2 0 (⟨mps, [one3], rs, []⟩ : State R) := ⟨⟨c, b, hf⟩, .base (LeftOf.zero _ _), hrs, by simp⟩
  obtain ⟨st, e', h, l⟩ := repeat_ok (fun st h => sweep2_ok hsvd he trunc h hd) h0 (sweeps / 2)
  obtain ⟨c', b', hf'⟩ := h.fit
  have hm' := hf'.mps.isMps
  rw [hf'.b0, hf'.bn] at hm'
  refine ⟨st, ?_, hm', fun i L Rt cur hmem => ?_, by simpa using l⟩
  · unfold dmrg2
    rw [e, ok_bind]
    exact e'
  · have := h.log _ hmem
    exact ⟨by have := this.1; simp only at this; omega, this.2⟩

/-- Every neighbouring pair `i, i + 1` is optimized at least once in every sweep of a chain of at least three sites
(`C36_two_sites_violated`: not in a chain of two sites). -/
theorem C36_every_pair_partial {svd : SvdFn R} {eig : EigFn R} (hsvd : SvdShape svd) (he : EigSize eig) {ds : List ℕ}
    {mpo mps : List (Nd R)} (hm : IsMps ds 1 1 mps) (ho : IsMpo ds ds 1 1 mpo) (hpos : ∀ A ∈ mps, ∀ n ∈ A.shape, 0 < n)
    (hd : 3 ≤ ds.length) (trunc sweeps : ℕ) :
    ∃ st, dmrg2 svd eig mpo mps trunc sweeps = .ok st ∧ ∀ i, i + 1 < ds.length → sweeps / 2 ≤ (st.log.map (·.1)).count i := by
  obtain ⟨st, e, -, -, l⟩ := C36_environments hsvd he hm ho hpos (by omega) trunc sweeps
  refine ⟨st, e, fun i hi => ?_⟩
  rw [l]
  exact le_count_repeat (by simp; omega) _

/-- The claim that every pair is optimized fails for two sites: `dmrg2` returns the initial state, whatever the Hamiltonian. -/
theorem C36_two_sites_violated {svd : SvdFn R} {eig : EigFn R} {mpo mps : List (Nd R)} (hm : mps.length = 2) (ho : mpo.length = 2)
    (trunc sweeps : ℕ) : ∃ st, dmrg2 svd eig mpo mps trunc sweeps = .ok st ∧ st.mps = mps ∧ st.log = [] := by
  have h : ∀ n (st : State R), st.mps = mps → st.log = [] →
      ∃ st', (List.range n).foldlM (fun st _ => sweep2 svd eig mpo trunc st) st = .ok st' ∧ st'.mps = mps ∧ st'.log = [] := by
    intro n
    induction n with
    | zero => intro st h1 h2; exact ⟨st, rfl, h1, h2⟩
    | succ n ih =>
      intro st h1 h2
      obtain ⟨st', e, h3, h4⟩ := ih st h1 h2
      refine ⟨st', ?_, h3, h4⟩
      rw [List.range_succ, List.foldlM_append, e, ok_bind, List.foldlM_cons]
      have : sweep2 svd eig mpo trunc st' = .ok st' := by
        unfold sweep2
        rw [ho]
        simp only [Nat.sub_self, List.range_zero, List.foldlM_nil]
        simp only [pure_bind]
        rw [h3, hm]
        rfl
      rw [this]
      rfl
  obtain ⟨st, e, h1, h2⟩ := h (sweeps / 2) ⟨mps, [one3], [one3], []⟩ rfl rfl
  refine ⟨st, ?_, h1, h2⟩
  unfold dmrg2 contractRs
  rw [ho]
  exact e

/-! A chain of three sites with bond dimensions 1, 2, 2, 1 and an eigensolver that reverses the start vector. -/

def exChain : List (Nd ℤ) := [⟨[2, 1, 2], [1, 2, 3, 4]⟩, ⟨[2, 2, 2], [1, 0, 2, 1, 1, 1, 0, 3]⟩, ⟨[2, 2, 1], [5, 6, 7, 8]⟩]
def exOps : List (Nd ℤ) := [⟨[1, 1, 2, 2], [1, 2, 2, 5]⟩, ⟨[1, 1, 2, 2], [0, 1, 1, 0]⟩, ⟨[1, 1, 2, 2], [1, 0, 0, -1]⟩]
def exEig : EigFn ℤ := fun _ _ _ v => ⟨v.shape, (List.range v.shape.prod).reverse.map fun k => v.data.getD k 0⟩

theorem exEig_size : EigSize exEig := fun L W Rt v => ⟨by simp [Nd.Wf, exEig], rfl⟩
example : IsMps [2, 2, 2] 1 1 exChain := ⟨2, rfl, 2, rfl, 1, rfl, rfl⟩
example : IsMpo [2, 2, 2] [2, 2, 2] 1 1 exOps := ⟨1, rfl, 1, rfl, 1, rfl, rfl⟩
example : ∀ A ∈ exChain, ∀ n ∈ A.shape, 0 < n := by decide

/-- The number of optimizations in the run of the example. -/
def exRun (r : Res (State ℤ)) : ℕ × List ℕ :=
  match r with
  | .ok st => (st.log.length, st.mps.flatMap (·.shape))
  | .error _ => (0, [])

example : exRun (dmrg1 exSvd exEig exOps exChain 1 4) = (8, [2, 1, 1, 2, 1, 1, 2, 1, 1]) := by decide +kernel
example : exRun (dmrg2 exSvd exEig exOps exChain 2 4) = (4, [2, 1, 2, 2, 2, 2, 2, 2, 1]) := by decide +kernel

end Dmrg
