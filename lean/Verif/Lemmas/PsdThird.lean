import Verif.Model.BoseFermi3
import Verif.Lemmas.Psd3

/-!
Lemmas for C75: `PSD` with `pade=3`.
-/

open scoped BigOperators Nat Topology
open Polynomial Py Filter

namespace Pade

/-- The partial denominators for `pade=3`. -/
noncomputable def bt (bf i : ℕ) : ℝ :=
  if i % 2 = 0 then 4 * (((i / 2 : ℕ) : ℝ) + 1) ^ 2 * (tk bf + 2 * (i / 2 : ℕ)) ^ 2 * (tk bf + 4 * (i / 2 : ℕ) + 2)
  else (tk bf + 4 * (i / 2 : ℕ) + 4) / (4 * (((i / 2 : ℕ) : ℝ) + 1) * ((i / 2 : ℕ) + 2) * (tk bf + 2 * (i / 2 : ℕ)) * (tk bf + 2 * (i / 2 : ℕ) + 2))

theorem bt_even (bf k : ℕ) : bt bf (2 * k) = 4 * ((k : ℝ) + 1) ^ 2 * (tk bf + 2 * k) ^ 2 * (tk bf + 4 * k + 2) := by
  unfold bt
  rw [if_pos (by omega), show 2 * k / 2 = k by omega]

theorem bt_odd (bf k : ℕ) : bt bf (2 * k + 1) = (tk bf + 4 * k + 4) / (4 * ((k : ℝ) + 1) * (k + 2) * (tk bf + 2 * k) * (tk bf + 2 * k + 2)) := by
  unfold bt
  rw [if_neg (by omega), show (2 * k + 1) / 2 = k by omega]

theorem bt_pos (bf i : ℕ) : 0 < bt bf i := by
  have := tk_pos bf
  obtain ⟨k, hk⟩ := Nat.even_or_odd' i
  rcases hk with rfl | rfl
  · rw [bt_even]; positivity
  · rw [bt_odd]; positivity

/-- The array `d`. -/
theorem coefs_eq (bf N : ℕ) {i : ℕ} (h : i < 2 * N + 1) : BoseFermi.coefs (tk bf) N (i + 1) = -bt bf i := by
  have := tk_pos bf
  unfold BoseFermi.coefs BoseFermi.coefOdd BoseFermi.coefEven
  rw [if_neg (by omega)]
  by_cases h1 : i + 1 = 2 * N + 1
  · obtain rfl : i = 2 * N := by omega
    rw [if_pos rfl, bt_even]
    ring
  · rw [if_neg h1]
    obtain ⟨k, hk⟩ := Nat.even_or_odd' i
    rcases hk with rfl | rfl
    · rw [if_pos (by omega), bt_even, show (2 * k + 1 + 1) / 2 = k + 1 by omega]
      push_cast
      ring
    · rw [if_neg (by omega), bt_odd, show (2 * k + 1 + 1) / 2 = k + 1 by omega]
      push_cast
      rw [show tk bf + 2 * ((k : ℝ) + 1) - 2 = tk bf + 2 * k by ring]
      have h1 : (k : ℝ) + 1 ≠ 0 := by positivity
      have h2 : (k : ℝ) + 1 + 1 ≠ 0 := by positivity
      have h3 : tk bf + 2 * (k : ℝ) ≠ 0 := by positivity
      have h4 : tk bf + 2 * ((k : ℝ) + 1) ≠ 0 := by positivity
      have h5 : tk bf + 2 * (k : ℝ) + 2 ≠ 0 := by positivity
      have h6 : (k : ℝ) + 2 ≠ 0 := by positivity
      rw [show (k : ℝ) + 1 + 1 = k + 2 by ring, show tk bf + 2 * ((k : ℝ) + 1) = tk bf + 2 * k + 2 by ring]
      field_simp
      ring

theorem coefs_zero (bf N : ℕ) : BoseFermi.coefs (tk bf) N 0 = 0.25 / tk bf := by
  unfold BoseFermi.coefs
  rw [if_pos rfl]

theorem sumd2_eq {d b : ℕ → ℝ} {N : ℕ} (h : ∀ i, i < 2 * N + 1 → d (i + 1) = -b i) : ∀ i, i ≤ N →
    BoseFermi.sumd2 d i = -∑ k ∈ Finset.range (i + 1), b (2 * k)
  | 0, _ => by simp [BoseFermi.sumd2, h 0 (by omega)]
  | i + 1, hi => by
    rw [BoseFermi.sumd2, sumd2_eq h i (by omega), h (2 * (i + 1)) (by omega), Finset.sum_range_succ _ (i + 1)]
    ring

/-- The recurrence of the loop for the residues. -/
noncomputable def eta (d : ℕ → ℝ) (w : ℝ) : ℕ → ℝ
  | 0 => 0
  | 1 => 1
  | k + 2 => d k * eta d w (k + 1) + w * eta d w k

theorem eta_cont {d b : ℕ → ℝ} (w : ℝ) {M : ℕ} (h : ∀ i, i < M → d (i + 1) = -b i) : ∀ k, k < M →
    eta d w (k + 3) = (-1) ^ (k + 1) * (d 0 * cont w (k + 1) b - w * cont w k fun i => b (i + 1))
  | 0, hk => by
    simp only [eta, cont]
    rw [h 0 hk]
    ring
  | 1, hk => by
    simp only [eta, cont]
    rw [h 0 (by omega), h 1 hk]
    ring
  | k + 2, hk => by
    rw [eta, eta_cont w h (k + 1) (by omega), eta_cont w h k (by omega), cont_last w (k + 1) b, cont_last w k fun i => b (i + 1), h (k + 2) hk]
    ring

/-- The value of `r1` in the pass `i`. -/
noncomputable def rawr (t : ℕ → ℝ) (p : ℕ → ℝ) (N j i : ℕ) : ℝ := if i = j ∨ i = N then t i else t i / (p i * p i - p j * p j)

theorem etaStep_ok {d : ℕ → ℝ} {N j : ℕ} {p t : ℕ → ℝ} (ht : ∀ i < N, BoseFermi.sumd2 d (i + 1) ≠ 0 ∧ t (i + 1) = BoseFermi.sumd2 d i / BoseFermi.sumd2 d (i + 1))
    (hp : ∀ i < N, i ≠ j → p i * p i - p j * p j ≠ 0) {i : ℕ} (hi : i ≤ N) {s : BoseFermi.Eta} (hs : s.t1 = t i) {P : ℝ}
    (h1 : s.eta1 = 1 / 2 * eta d (-(p j * p j) / 4) (2 * i + 1) * P) (h0 : s.r0 * s.eta0 = 1 / 2 * eta d (-(p j * p j) / 4) (2 * i) * P) :
    ∃ s', BoseFermi.etaStep d N ((List.range N).map p) j (p j * p j) s i = .ok s' ∧ (i < N → s'.t1 = t (i + 1)) ∧ s'.eta2 = s'.eta1 ∧
      s'.eta1 = 1 / 2 * eta d (-(p j * p j) / 4) (2 * (i + 1) + 1) * (P * (4 * rawr t p N j i)) ∧
      s'.r0 * s'.eta0 = 1 / 2 * eta d (-(p j * p j) / 4) (2 * (i + 1)) * (P * (4 * rawr t p N j i)) := by
  set r := rawr t p N j i with hr
  have e1 : BoseFermi.etaRaw N ((List.range N).map p) j (p j * p j) s.t1 i = .ok r := by
    rw [hr]
    unfold rawr BoseFermi.etaRaw
    by_cases h : i = j ∨ i = N
    · rw [if_pos h, if_pos h, hs]
    · rw [if_neg h, if_neg h, item_range p (by omega), ok_bind, hs]
      unfold Corr.rdiv
      rw [if_neg (hp i (by omega) (by omega))]
  have e2 : ∃ t', BoseFermi.etaNext d N s.t1 i = .ok t' ∧ (i < N → t' = t (i + 1)) := by
    unfold BoseFermi.etaNext
    by_cases h : i ≠ N
    · obtain ⟨ha, hb⟩ := ht i (by omega)
      refine ⟨_, ?_, fun _ => hb.symm⟩
      rw [if_pos h]
      unfold Corr.rdiv
      rw [if_neg ha]
    · exact ⟨_, by rw [if_neg h], fun h' => absurd h' (by omega)⟩
  obtain ⟨t', e2, ht'⟩ := e2
  have hsq : Real.sqrt |r| * Real.sqrt |r| = |r| := Real.mul_self_sqrt (abs_nonneg r)
  set r2 : ℝ := if r > 0 then 2 * Real.sqrt |r| else -2 * Real.sqrt |r| with hr2
  set r1 : ℝ := 2 * Real.sqrt |r| with hr1
  have hrr : r1 * r2 = 4 * r := by
    rw [hr2, hr1]
    split_ifs with h
    · rw [abs_of_pos h] at hsq ⊢
      linear_combination 4 * hsq
    · rw [abs_of_nonpos (not_lt.1 h)] at hsq ⊢
      linear_combination -4 * hsq
  have s1 : 2 * (i + 1) = 2 * i + 2 := by ring
  have s2 : 2 * (i + 1) + 1 = (2 * i + 1) + 2 := by ring
  have f1 : d (2 * i) * r1 * s.eta1 - 0.25 * r1 * s.r0 * (p j * p j) * s.eta0 = 1 / 2 * r1 * P * eta d (-(p j * p j) / 4) (2 * i + 2) := by
    rw [eta]
    linear_combination d (2 * i) * r1 * h1 - 0.25 * r1 * (p j * p j) * h0
  refine ⟨⟨r2, t', d (2 * i) * r1 * s.eta1 - 0.25 * r1 * s.r0 * (p j * p j) * s.eta0,
    d (2 * i + 1) * r2 * (d (2 * i) * r1 * s.eta1 - 0.25 * r1 * s.r0 * (p j * p j) * s.eta0) - 0.25 * r2 * r1 * (p j * p j) * s.eta1,
    d (2 * i + 1) * r2 * (d (2 * i) * r1 * s.eta1 - 0.25 * r1 * s.r0 * (p j * p j) * s.eta0) - 0.25 * r2 * r1 * (p j * p j) * s.eta1⟩, ?_, ht', rfl, ?_, ?_⟩
  · unfold BoseFermi.etaStep
    rw [e1, ok_bind]
    dsimp only
    rw [e2, ok_bind]
    rfl
  · dsimp only
    rw [f1, h1, s2, show eta d (-(p j * p j) / 4) (2 * i + 1 + 2) = d (2 * i + 1) * eta d (-(p j * p j) / 4) (2 * i + 2) + -(p j * p j) / 4 * eta d (-(p j * p j) / 4) (2 * i + 1) from rfl, ← hrr]
    ring
  · dsimp only
    rw [f1, s1, ← hrr]
    ring

/-- The loop. -/
theorem eta_loop {d : ℕ → ℝ} {N j : ℕ} {p t : ℕ → ℝ} (ht : ∀ i < N, BoseFermi.sumd2 d (i + 1) ≠ 0 ∧ t (i + 1) = BoseFermi.sumd2 d i / BoseFermi.sumd2 d (i + 1))
    (hp : ∀ i < N, i ≠ j → p i * p i - p j * p j ≠ 0) : ∀ n ≤ N + 1,
    ∃ s, (List.range n).foldlM (BoseFermi.etaStep d N ((List.range N).map p) j (p j * p j)) ⟨0, t 0, 0, 0.5, 0⟩ = .ok s ∧ (n ≤ N → s.t1 = t n) ∧
      (0 < n → s.eta2 = s.eta1) ∧ s.eta1 = 1 / 2 * eta d (-(p j * p j) / 4) (2 * n + 1) * ∏ i ∈ Finset.range n, (4 * rawr t p N j i) ∧
      s.r0 * s.eta0 = 1 / 2 * eta d (-(p j * p j) / 4) (2 * n) * ∏ i ∈ Finset.range n, (4 * rawr t p N j i)
  | 0, _ => ⟨_, rfl, fun _ => rfl, fun h => absurd h (by omega), by simp [eta]; norm_num, by simp [eta]⟩
  | n + 1, hn => by
    obtain ⟨s, hs, h1, -, h3, h4⟩ := eta_loop ht hp n (by omega)
    obtain ⟨s', g1, g2, g3, g4, g5⟩ := etaStep_ok ht hp (i := n) (by omega) (h1 (by omega)) h3 h4
    refine ⟨s', ?_, fun h => g2 (by omega), fun _ => g3, ?_, ?_⟩
    · rw [List.range_succ, List.foldlM_append, hs, ok_bind, List.foldlM_cons, g1]
      rfl
    · rw [g4, Finset.prod_range_succ]
    · rw [g5, Finset.prod_range_succ]

/-- `sumd2` telescopes. -/
theorem prod_t {S t : ℕ → ℝ} (h0 : t 0 = 0.25 / S 0) : ∀ n, (∀ i < n, t (i + 1) = S i / S (i + 1)) → (∀ i ≤ n, S i ≠ 0) → ∏ i ∈ Finset.range (n + 1), t i = 0.25 / S n
  | 0, _, _ => by simp [h0]
  | n + 1, h, hS => by
    rw [Finset.prod_range_succ, prod_t h0 n (fun i hi => h i (by omega)) (fun i hi => hS i (by omega)), h n (by omega)]
    have := hS n (by omega)
    have := hS (n + 1) le_rfl
    field_simp

theorem prod_raw {t p : ℕ → ℝ} {N j : ℕ} (hj : j < N) : ∏ i ∈ Finset.range (N + 1), (4 * rawr t p N j i) =
    4 ^ (N + 1) * (∏ i ∈ Finset.range (N + 1), t i) / ∏ l ∈ (Finset.range N).erase j, (p l * p l - p j * p j) := by
  rw [Finset.prod_mul_distrib, Finset.prod_const, Finset.card_range, mul_div_assoc]
  congr 1
  rw [Finset.prod_range_succ, Finset.prod_range_succ, ← prod_if hj, mul_comm _ (t N), mul_comm _ (rawr t p N j N), mul_div_assoc, ← Finset.prod_div_distrib]
  have : rawr t p N j N = t N := by unfold rawr; rw [if_pos (Or.inr rfl)]
  rw [this]
  congr 1
  refine Finset.prod_congr rfl fun i hi => ?_
  have hi := Finset.mem_range.1 hi
  unfold rawr
  by_cases h : i = j
  · rw [if_pos (Or.inl h), if_neg (by simpa using h), div_one]
  · rw [if_neg (by omega), if_pos h]

/-- `resi[j]`. -/
theorem residue3_ok {d b : ℕ → ℝ} {N j : ℕ} {p : ℕ → ℝ} (hd : ∀ i, i < 2 * N + 1 → d (i + 1) = -b i) (hb : ∀ i, 0 < b i)
    (hp : ∀ i < N, i ≠ j → p i * p i - p j * p j ≠ 0) (hj : j < N) (hD : cont (-(p j * p j) / 4) (2 * N + 1) b = 0) :
    BoseFermi.residue3 d N ((List.range N).map p) j = .ok (4 ^ N * (p j ^ 2 / 8) * cont (-(p j * p j) / 4) (2 * N) (fun i => b (i + 1)) /
      (∑ k ∈ Finset.range (N + 1), b (2 * k)) / ∏ l ∈ (Finset.range N).erase j, (p l * p l - p j * p j)) := by
  have hS := sumd2_eq hd
  have hSn : ∀ i ≤ N, BoseFermi.sumd2 d i ≠ 0 := fun i hi => by
    rw [hS i hi]
    exact neg_ne_zero.2 (Finset.sum_pos (fun k _ => hb _) ⟨0, by simp⟩).ne'
  set t : ℕ → ℝ := fun i => match i with
    | 0 => 0.25 / d 1
    | i + 1 => BoseFermi.sumd2 d i / BoseFermi.sumd2 d (i + 1) with ht
  obtain ⟨s, h1, -, h3, h4, -⟩ := eta_loop (t := t) (fun i hi => ⟨hSn (i + 1) (by omega), rfl⟩) hp (N + 1) le_rfl
  have hd1 : d 1 ≠ 0 := hSn 0 (Nat.zero_le _)
  unfold BoseFermi.residue3
  rw [item_range p hj, ok_bind]
  have e : Corr.rdiv 0.25 (d 1) = .ok (t 0) := by unfold Corr.rdiv; rw [if_neg hd1]
  dsimp only
  rw [e, ok_bind, h1, ok_bind, h3 (by omega), h4, show 2 * (N + 1) + 1 = 2 * N + 3 by ring, eta_cont _ hd (2 * N) (by omega), hD, prod_raw hj,
    prod_t (S := BoseFermi.sumd2 d) rfl N (fun i _ => rfl) hSn, hS N le_rfl]
  have e2 : (-1 : ℝ) ^ (2 * N + 1) = -1 := by rw [pow_succ, pow_mul]; simp
  rw [e2, pow_succ]
  have hR : ∑ k ∈ Finset.range (N + 1), b (2 * k) ≠ 0 := (Finset.sum_pos (fun k _ => hb _) ⟨0, by simp⟩).ne'
  change Except.ok _ = Except.ok _
  congr 1
  have hE : ∏ l ∈ (Finset.range N).erase j, (p l * p l - p j * p j) ≠ 0 := Finset.prod_ne_zero_iff.2 fun l hl =>
    hp l (Finset.mem_range.1 (Finset.mem_of_mem_erase hl)) (Finset.ne_of_mem_erase hl)
  generalize ∏ l ∈ (Finset.range N).erase j, (p l * p l - p j * p j) = E at *
  generalize ∑ k ∈ Finset.range (N + 1), b (2 * k) = R at *
  generalize cont (-(p j * p j) / 4) (2 * N) (fun i => b (i + 1)) = Cc
  norm_num
  field_simp
  ring

end Pade
