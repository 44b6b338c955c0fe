import Verif.Props.C124
import Verif.Lemmas.DmrgHeisenberg
import Verif.Model.FmState
import Mathlib.Tactic.IntervalCases

/-!
C125: the start states `fm_state` and DMRG of the Heisenberg model from them.
-/

open scoped BigOperators
open Py

namespace Dmrg

/-- The documented spins: `|++ ... +>`, or `|+-+- ... +->` (0 is up, 1 is down). -/
def spins (N : ℕ) (anti : Bool) : List ℕ := (List.range N).map fun k => if anti then k % 2 else 0

section
variable {R : Type} [CommRing R]

theorem sumIdx_pick {sh p : List ℕ} (hp : Valid sh p) (x : R) : (sumIdx sh fun q => if q = p then x else 0) = x := by
  induction sh generalizing p with
  | nil =>
    obtain rfl := valid_nil_iff.1 hp
    simp [sumIdx_nil]
  | cons d sh ih =>
    obtain ⟨i, p, rfl, hi, hp⟩ := valid_cons_iff.1 hp
    rw [sumIdx_cons, Finset.sum_eq_single i]
    · simpa using ih hp
    · intro k _ hk
      rw [sumIdx_congr (g := fun _ => 0) (fun q _ => by simp [hk])]
      simp
    · intro hc; exact absurd (Finset.mem_range.2 hi) hc

/-- The product state of a configuration. -/
def basisState (cs : List ℕ) : List (Nd R) := cs.map fun c => if c = 0 then up else down

theorem fmState_eq {N : ℕ} {anti : Bool} (h : anti = true → N % 2 = 0) : (fmState N anti : List (Nd R)) = basisState (spins N anti) := by
  cases anti with
  | false =>
    simp only [fmState, basisState, spins, Bool.false_eq_true, if_false, List.map_map]
    have : ((fun c => if c = 0 then (up : Nd R) else down) ∘ fun _ : ℕ => 0) = fun _ => up := rfl
    rw [this, List.map_const', List.length_range]
  | true =>
    obtain ⟨n, rfl⟩ : ∃ n, N = 2 * n := ⟨N / 2, by have := h rfl; omega⟩
    simp only [fmState, if_true, Nat.mul_div_cancel_left n (show 0 < 2 by decide)]
    induction n with
    | zero => rfl
    | succ n ih =>
      rw [List.replicate_succ', List.flatten_append, ih (fun _ => by omega)]
      simp only [basisState, spins, if_true, Nat.mul_add, Nat.mul_one]
      rw [List.range_succ, List.range_succ]
      simp [Nat.add_mod]

theorem basis_isMps : ∀ cs : List ℕ, IsMps (List.replicate cs.length 2) 1 1 (basisState cs : List (Nd R))
  | [] => rfl
  | c :: cs => by
    refine ⟨1, ?_, basis_isMps cs⟩
    dsimp only
    split <;> rfl

theorem get_basis {c s : ℕ} (hc : c < 2) (hs : s < 2) : (if c = 0 then (up : Nd R) else down).get [s, 0, 0] = if s = c then 1 else 0 := by
  match c, hc, s, hs with
  | 0, _, 0, _ => rfl
  | 0, _, 1, _ => rfl
  | 1, _, 0, _ => rfl
  | 1, _, 1, _ => rfl

theorem basis_amplitude : ∀ {cs σ : List ℕ}, (∀ c ∈ cs, c < 2) → Valid (List.replicate cs.length 2) σ →
    amplitude (basisState cs : List (Nd R)) σ = if σ = cs then 1 else 0
  | [], σ, _, h => by
    obtain rfl := valid_nil_iff.1 h
    rfl
  | c :: cs, σ, hc, h => by
    obtain ⟨s, σ, rfl, hs, h⟩ := valid_cons_iff.1 (by simpa [List.replicate_succ] using h)
    have ih := basis_amplitude (fun x hx => hc x (List.mem_cons_of_mem _ hx)) h
    have hc' : c < 2 := hc c (by simp)
    unfold amplitude at ih ⊢
    simp only [basisState, List.map_cons, mpsProd]
    have d : (if c = 0 then (up : Nd R) else down).dim 2 = 1 := by split <;> rfl
    rw [d, Finset.sum_range_one, List.headD_cons, List.tail_cons, get_basis hc' hs]
    simp only [basisState] at ih
    rw [ih]
    by_cases e : s = c <;> by_cases e' : σ = cs <;> simp [e, e']

theorem up_down (c : ℕ) : LeftCanonical (if c = 0 then (up : Nd R) else down) ∧ RightCanonical (if c = 0 then (up : Nd R) else down) := by
  constructor <;> split <;>
  · intro x hx y hy
    have hx' : x = 0 := by simpa [Nd.dim, up, down] using hx
    have hy' : y = 0 := by simpa [Nd.dim, up, down] using hy
    subst hx' hy'
    simp [Nd.dim, up, down, Finset.sum_range_succ, Nd.get, ravel]

theorem spins_lt {N : ℕ} {anti : Bool} : ∀ c ∈ spins N anti, c < 2 := by
  intro c hc
  obtain ⟨k, -, rfl⟩ := List.mem_map.1 hc
  split <;> omega

theorem spins_length (N : ℕ) (anti : Bool) : (spins N anti).length = N := by simp [spins]

theorem spins_valid (N : ℕ) (anti : Bool) : Valid (List.replicate N 2) (spins N anti) := by
  have : ∀ cs : List ℕ, (∀ c ∈ cs, c < 2) → Valid (List.replicate cs.length 2) cs := by
    intro cs
    induction cs with
    | nil => intro _; exact valid_nil_iff.2 rfl
    | cons c cs ih =>
      intro h
      exact valid_cons_iff.2 ⟨c, cs, rfl, h c (by simp), ih fun x hx => h x (List.mem_cons_of_mem _ hx)⟩
  have h := this _ (spins_lt (N := N) (anti := anti))
  rwa [spins_length] at h

theorem basis_energy {cs : List ℕ} (hc : ∀ c ∈ cs, c < 2) (hv : Valid (List.replicate cs.length 2) cs) (mpo : List (Nd R)) :
    energy (List.replicate cs.length 2) mpo (basisState cs) = operator mpo cs cs := by
  unfold energy
  rw [sumIdx_congr (g := fun σ => if σ = cs then operator mpo cs cs else 0)]
  · exact sumIdx_pick hv _
  · intro σ hσ
    rw [sumIdx_congr (g := fun τ => if τ = cs then (if σ = cs then operator mpo cs cs else 0) else 0)]
    · exact sumIdx_pick hv _
    · intro τ hτ
      rw [basis_amplitude hc hσ, basis_amplitude hc hτ]
      by_cases e : σ = cs
      · by_cases e' : τ = cs
        · simp [e, e']
        · simp [e']
      · simp [e]

end

/-- `fm_state(N, anti)`, for even `N` if `anti`: a chain of `N` sites with bond dimensions 1, whose amplitude is 1 for the documented
configuration and 0 for all others. Every matrix is left- and right-canonical, so the state may start DMRG. -/
theorem C125_fm_state {R : Type} [CommRing R] {N : ℕ} {anti : Bool} (h : anti = true → N % 2 = 0) :
    IsMps (List.replicate N 2) 1 1 (fmState N anti : List (Nd R)) ∧
      (∀ σ, Valid (List.replicate N 2) σ → amplitude (fmState N anti : List (Nd R)) σ = if σ = spins N anti then 1 else 0) ∧
      ∀ A ∈ (fmState N anti : List (Nd R)), A.Wf ∧ A.shape = [2, 1, 1] ∧ LeftCanonical A ∧ RightCanonical A := by
  have hl := spins_length N anti
  have h1 := basis_isMps (R := R) (spins N anti)
  rw [hl] at h1
  rw [fmState_eq h]
  refine ⟨h1, fun σ hσ => basis_amplitude spins_lt (by rw [hl]; exact hσ), fun A hA => ?_⟩
  obtain ⟨c, -, rfl⟩ := List.mem_map.1 hA
  refine ⟨?_, ?_, up_down c⟩ <;> split <;> simp [up, down, Nd.Wf]

private theorem getD_spins {N k : ℕ} (hk : k < N) (anti : Bool) : (spins N anti).getD k 0 = if anti then k % 2 else 0 := by
  simp [spins, List.getD_eq_getElem?_getD, hk]

private theorem heis_start {K : Type} [Field K] {N : ℕ} (hN : 2 ≤ N) {anti : Bool} (h : anti = true → N % 2 = 0) (J Jz B : K) :
    energy (List.replicate N 2) (heisenberg N J Jz B) (fmState N anti) =
      ∑ i ∈ Finset.range (N - 1), Jz / 2 * (zval ((spins N anti).getD i 0) * zval ((spins N anti).getD (i + 1) 0)) -
        ∑ i ∈ Finset.range N, B * zval ((spins N anti).getD i 0) := by
  have hl := spins_length N anti
  have hv := spins_valid N anti
  have e := basis_energy (R := K) spins_lt (by rw [hl]; exact hv) (heisenberg N J Jz B) (cs := spins N anti)
  rw [hl] at e
  rw [fmState_eq h, e, operator, C34_heisenberg_partial hN _ _ _ hv hv, documented_diag _ _ _ hv]

/-- The energy of the ferromagnetic state in the Heisenberg model of the code, for all `N ≥ 2`. -/
theorem C125_ferromagnet {K : Type} [Field K] {N : ℕ} (hN : 2 ≤ N) (J Jz h : K) :
    energy (List.replicate N 2) (heisenberg N J Jz h) (fmState N false) = (N - 1) * (Jz / 2 * (1 / 2 * (1 / 2))) - N * (h * (1 / 2)) := by
  rw [heis_start hN (by simp)]
  congr 1
  · rw [Finset.sum_congr rfl (g := fun _ => Jz / 2 * (1 / 2 * (1 / 2)))]
    · rw [Finset.sum_const, Finset.card_range, nsmul_eq_mul, Nat.cast_sub (by omega)]
      simp
    · intro i hi
      have hi' := Finset.mem_range.1 hi
      rw [getD_spins (by omega), getD_spins (by omega)]
      simp [zval]
  · rw [Finset.sum_congr rfl (g := fun _ => h * (1 / 2))]
    · rw [Finset.sum_const, Finset.card_range, nsmul_eq_mul]
    · intro i hi
      rw [getD_spins (Finset.mem_range.1 hi)]
      simp [zval]

/-- The energy of the antiferromagnetic state, for all even `N ≥ 2`: the field does not enter. -/
theorem C125_antiferromagnet {K : Type} [Field K] {N : ℕ} (hN : 2 ≤ N) (h2 : N % 2 = 0) (J Jz h : K) :
    energy (List.replicate N 2) (heisenberg N J Jz h) (fmState N true) = -((N - 1) * (Jz / 2 * (1 / 2 * (1 / 2)))) := by
  rw [heis_start hN (fun _ => h2)]
  have e2 : ∑ i ∈ Finset.range N, h * zval ((spins N true).getD i 0) = 0 := by
    rw [Finset.sum_congr rfl (g := fun i => h * zval (i % 2))]
    · obtain ⟨n, rfl⟩ : ∃ n, N = 2 * n := ⟨N / 2, by omega⟩
      clear hN h2
      induction n with
      | zero => simp
      | succ n ih =>
        rw [show 2 * (n + 1) = 2 * n + 1 + 1 by ring, Finset.sum_range_succ, Finset.sum_range_succ, ih]
        have a : (2 * n + 1) % 2 = 1 := by omega
        have b : (2 * n) % 2 = 0 := by omega
        rw [a, b]
        simp [zval]
    · intro i hi
      rw [getD_spins (Finset.mem_range.1 hi)]
      simp
  rw [e2, sub_zero, Finset.sum_congr rfl (g := fun _ => -(Jz / 2 * (1 / 2 * (1 / 2))))]
  · rw [Finset.sum_const, Finset.card_range, nsmul_eq_mul, Nat.cast_sub (by omega)]
    simp
  · intro i hi
    have hi' := Finset.mem_range.1 hi
    rw [getD_spins (by omega), getD_spins (by omega)]
    simp only [if_true]
    rcases Nat.mod_two_eq_zero_or_one i with a | a
    · have b : (i + 1) % 2 = 1 := by omega
      rw [a, b]; simp only [zval, if_true, Nat.one_ne_zero, if_false]; ring
    · have b : (i + 1) % 2 = 0 := by omega
      rw [a, b]; simp only [zval, if_true, Nat.one_ne_zero, if_false]; ring

/-- DMRG of the Heisenberg model from `fm_state`, for every number of sites, all parameters and any number of sweeps: both methods return
a normalized state with an energy not above that of the start and not below the ground state energy. -/
theorem C125_dmrg {svd : SvdFn ℝ} {eig : EigFn ℝ} (hsvd : SvdShape svd) (hex : SvdExact svd) (hiso : SvdIso svd) (he : EigSize eig)
    (hg : EigGround eig) {N : ℕ} (hN : 2 ≤ N) {anti : Bool} (h : anti = true → N % 2 = 0) (J Jz B : ℝ) {trunc : ℕ} (ht : 1 ≤ trunc)
    (sweeps : ℕ) :
    (∃ st, dmrg1 svd eig (heisenberg N J Jz B) (fmState N anti) trunc sweeps = .ok st ∧ normSq (List.replicate N 2) st.mps = 1 ∧
      energy (List.replicate N 2) (heisenberg N J Jz B) st.mps ≤ energy (List.replicate N 2) (heisenberg N J Jz B) (fmState N anti) ∧
      ∀ lam, LowerBound (List.replicate N 2) (heisenberg N J Jz B) lam → lam ≤ energy (List.replicate N 2) (heisenberg N J Jz B) st.mps) ∧
    ∃ st, dmrg2 svd eig (heisenberg N J Jz B) (fmState N anti) 0 sweeps = .ok st ∧ normSq (List.replicate N 2) st.mps = 1 ∧
      energy (List.replicate N 2) (heisenberg N J Jz B) st.mps ≤ energy (List.replicate N 2) (heisenberg N J Jz B) (fmState N anti) ∧
      ∀ lam, LowerBound (List.replicate N 2) (heisenberg N J Jz B) lam → lam ≤ energy (List.replicate N 2) (heisenberg N J Jz B) st.mps := by
  obtain ⟨hm, -, hA⟩ := C125_fm_state (R := ℝ) h
  have ho := C34_is_mpo hN J Jz B
  have hs := heisenberg_symmetric hN J Jz B
  have hpos : ∀ A ∈ (fmState N anti : List (Nd ℝ)), ∀ n ∈ A.shape, 0 < n := by
    intro A hmem n hn
    rw [(hA A hmem).2.1] at hn
    simp at hn
    omega
  have last : ∀ {E₀ x : ℝ} {l : List ℝ}, (E₀ :: (l ++ [x])).Pairwise (· ≥ ·) → x ≤ E₀ := by
    intro E₀ x l hp
    exact (List.pairwise_cons.1 hp).1 x (by simp)
  constructor
  · obtain ⟨st, e, -, hn, -, hp, hl, -⟩ := C124_one_site hsvd hex hiso he hg hm ho hpos (by intro hc; have := congrArg List.length hc; simp at this; omega)
      (fun A hmem => (hA A hmem).1) hs (fun A hmem => (hA A hmem).2.2.2) (trunc := trunc)
      (fun A hmem => by have := (hA A hmem).2.1; simpa [Nd.dim, this] using ht) sweeps
    exact ⟨st, e, hn, last hp, hl⟩
  · obtain ⟨st, e, -, hn, -, hp, hl, -⟩ := C124_two_sites hsvd hex hiso he hg hm ho hpos (by simpa using hN)
      (fun A hmem => (hA A hmem).1) hs (fun A hmem => (hA A hmem).2.2.2) sweeps
    exact ⟨st, e, hn, last hp, hl⟩

/-- For odd `N` the antiferromagnetic state is one site short: the matrix element with the Heisenberg model of `N` sites fails, and so does
DMRG, for every number of sweeps. -/
theorem C125_odd {svd : SvdFn ℝ} {eig : EigFn ℝ} {n : ℕ} (hn : 1 ≤ n) (J Jz B : ℝ) (trunc sweeps : ℕ) :
    (fmState (2 * n + 1) true : List (Nd ℝ)).length = 2 * n ∧
      dmrg1 svd eig (heisenberg (2 * n + 1) J Jz B) (fmState (2 * n + 1) true) trunc sweeps = .error .indexError ∧
      ∀ x, matElement (fmState (2 * n + 1) true) (some (heisenberg (2 * n + 1) J Jz B)) (fmState (2 * n + 1) true) ≠ .ok x := by
  have hl : (fmState (2 * n + 1) true : List (Nd ℝ)).length = 2 * n := by
    simp [fmState, List.length_flatten, show (2 * n + 1) / 2 = n by omega]
    omega
  have ho : (heisenberg (2 * n + 1) J Jz B).length = 2 * n + 1 := by
    have := (C34_is_mpo (show 2 ≤ 2 * n + 1 by omega) J Jz B).bonds
    obtain ⟨_, -, -, h, -⟩ := this
    simpa using h
  refine ⟨hl, ?_, fun x => C33_lengths _ _ _ (Or.inl (by omega)) x⟩
  have e : contractRs 0 (heisenberg (2 * n + 1) J Jz B) (fmState (2 * n + 1) true) = .error .indexError := by
    unfold contractRs
    rw [range_filter, ho]
    obtain ⟨k, hk⟩ : ∃ k, 2 * n + 1 - (0 + 1) = k + 1 := ⟨2 * n - 1, by omega⟩
    rw [hk, List.range'_concat, List.reverse_append]
    simp only [one_mul, List.reverse_cons, List.reverse_nil, List.nil_append, List.singleton_append, List.foldlM_cons]
    have hi : item (fmState (2 * n + 1) true : List (Nd ℝ)) (0 + 1 + k) = .error .indexError := by
      unfold item
      rw [List.getElem?_eq_none (by omega)]
    simp only [top, ok_bind, hi, error_bind]
  unfold dmrg1
  rw [e, error_bind]

/-- The assumptions are met. -/
example : ∃ svd eig, ∃ st, dmrg1 svd eig (heisenberg 4 1 1 0) (fmState 4 true) 1 10 = .ok st ∧
    energy (List.replicate 4 2) (heisenberg 4 1 1 0) st.mps ≤ -(3 / 8 : ℝ) := by
  obtain ⟨⟨svd, h1, h2, h3⟩, eig, h4, h5⟩ := C124_exact_libraries
  obtain ⟨⟨st, e, -, hE, -⟩, -⟩ := C125_dmrg h1 h2 h3 h4 h5 (show 2 ≤ 4 by decide) (anti := true) (fun _ => rfl) 1 1 0 le_rfl 10
  refine ⟨svd, eig, st, e, hE.trans ?_⟩
  rw [C125_antiferromagnet (by decide) rfl]
  norm_num

/-- A right-canonical chain of three sites with bonds of dimension 2, entangled, as a start for C124. -/
noncomputable def exEntangled : List (Nd ℝ) := [⟨[2, 1, 2], [3 / 5, 0, 0, 4 / 5]⟩, ⟨[2, 2, 2], [1, 0, 0, 1, 0, 0, 0, 0]⟩, ⟨[2, 2, 1], [1, 0, 0, 1]⟩]

example : ∃ svd eig, ∃ st st', dmrg1 svd eig (heisenberg 3 1 1 (1 / 2)) exEntangled 2 20 = .ok st ∧ normSq [2, 2, 2] st.mps = 1 ∧
    dmrg2 svd eig (heisenberg 3 1 1 (1 / 2)) exEntangled 0 20 = .ok st' ∧ normSq [2, 2, 2] st'.mps = 1 ∧
    ∃ (e : ℕ → ℝ) (E : ℝ), (∀ n, ∃ st, dmrg2 svd eig (heisenberg 3 1 1 (1 / 2)) exEntangled 0 n = .ok st ∧
      energy [2, 2, 2] (heisenberg 3 1 1 (1 / 2)) st.mps = e n) ∧ Filter.Tendsto e Filter.atTop (nhds E) := by
  obtain ⟨⟨svd, h1, h2, h3⟩, eig, h4, h5⟩ := C124_exact_libraries
  have hm : IsMps [2, 2, 2] 1 1 exEntangled := ⟨2, rfl, 2, rfl, 1, rfl, rfl⟩
  have ho := C34_is_mpo (show 2 ≤ 3 by decide) (1 : ℝ) 1 (1 / 2)
  have hs := heisenberg_symmetric (show 2 ≤ 3 by decide) (1 : ℝ) 1 (1 / 2)
  have hpos : ∀ A ∈ exEntangled, ∀ n ∈ A.shape, 0 < n := by simp [exEntangled]
  have hw : ∀ A ∈ exEntangled, A.Wf := by simp [exEntangled, Nd.Wf]
  have hc : ∀ A ∈ exEntangled, RightCanonical A := by
    intro A hA
    simp only [exEntangled, List.mem_cons, List.not_mem_nil, or_false] at hA
    rcases hA with rfl | rfl | rfl <;> intro x hx y hy <;> simp only [Nd.dim, List.getD_cons_succ, List.getD_cons_zero] at hx hy ⊢ <;>
      interval_cases x <;> interval_cases y <;> simp [Finset.sum_range_succ, Nd.get, ravel] <;> norm_num
  obtain ⟨st, e, -, n, -⟩ := C124_one_site h1 h2 h3 h4 h5 hm ho hpos (by simp) hw hs hc (trunc := 2) (by simp [exEntangled, Nd.dim]) 20
  obtain ⟨st', e', -, n', -⟩ := C124_two_sites h1 h2 h3 h4 h5 hm ho hpos (by simp) hw hs hc 20
  obtain ⟨f, E, l1, -, l2, -⟩ := C124_converges_two_sites h1 h2 h3 h4 h5 hm ho hpos (by simp) hw hs hc
  exact ⟨svd, eig, st, st', e, n, e', n', f, E, l1, l2⟩

end Dmrg
