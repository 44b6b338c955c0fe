import Verif.Spec.Sbm
import Verif.Lemmas.Heom2

/-! The hierarchy under the exchange of emission and absorption. -/

open scoped BigOperators
open Py

namespace SbmSpec

open Heom

/-- The exchanged position. -/
def swapIx : ℕ → ℕ → ℕ
  | 0, k => k
  | _ + 1, 0 => 1
  | _ + 1, 1 => 0
  | N + 1, k + 2 => swapIx N k + 2

theorem swap_swap (N k : ℕ) : swapIx N (swapIx N k) = k := by
  induction N generalizing k with
  | zero => rfl
  | succ N ih =>
    match k with
    | 0 => rfl
    | 1 => rfl
    | k + 2 => simp only [swapIx, ih]

theorem swap_lt {N k K : ℕ} (h : 2 * N ≤ K) (hk : k < K) : swapIx N k < K := by
  induction N generalizing k K with
  | zero => exact hk
  | succ N ih =>
    match k with
    | 0 => simp only [swapIx]; omega
    | 1 => simp only [swapIx]; omega
    | k + 2 =>
      have := ih (k := k) (K := K - 2) (by omega) (by omega)
      simp only [swapIx]; omega

theorem mirror_length (N : ℕ) (n : List ℕ) : (mirror N n).length = n.length := by
  induction N generalizing n with
  | zero => unfold mirror; rfl
  | succ N ih =>
    match n with
    | [] => rfl
    | [_] => rfl
    | a :: b :: n => simp [mirror, ih]

theorem mirror_getD {N : ℕ} {n : List ℕ} (h : 2 * N ≤ n.length) (k : ℕ) : (mirror N n).getD (swapIx N k) 0 = n.getD k 0 := by
  induction N generalizing n k with
  | zero => unfold mirror swapIx; rfl
  | succ N ih =>
    match n, h with
    | a :: b :: n, h =>
      match k with
      | 0 => rfl
      | 1 => rfl
      | k + 2 =>
        have := ih (n := n) (by simp at h; omega) k
        simpa [mirror, swapIx] using this

theorem mirror_set {N : ℕ} {n : List ℕ} (h : 2 * N ≤ n.length) (k x : ℕ) : mirror N (n.set k x) = (mirror N n).set (swapIx N k) x := by
  induction N generalizing n k with
  | zero => unfold mirror swapIx; rfl
  | succ N ih =>
    match n, h with
    | a :: b :: n, h =>
      match k with
      | 0 => rfl
      | 1 => rfl
      | k + 2 =>
        have := ih (n := n) (by simp at h; omega) k
        simp [mirror, swapIx, this]

theorem mirror_valid {N : ℕ} {dims n : List ℕ} (hd : ∀ k, dims.getD (swapIx N k) 0 = dims.getD k 0) (h : 2 * N ≤ dims.length)
    (hn : Valid dims n) : Valid dims (mirror N n) := by
  induction N generalizing dims n with
  | zero => unfold mirror; exact hn
  | succ N ih =>
    match dims, n, hn, h with
    | x :: y :: dims, _, hn, h =>
      obtain ⟨a, n, rfl, ha, hn1⟩ := valid_cons_iff.1 hn
      obtain ⟨b, n, rfl, hb, hn2⟩ := valid_cons_iff.1 hn1
      have e : y = x := by simpa [swapIx] using hd 0
      subst e
      unfold mirror
      rw [valid_cons_cons, valid_cons_cons]
      exact ⟨hb, ha, ih (fun k => by simpa [swapIx] using hd (k + 2)) (by simp at h; omega) hn2⟩

variable {d N : ℕ} {dims : List ℕ} {h q : ℕ → ℕ → ℂ} {γ c c' down up : ℕ → ℂ} {rho : Nd ℂ}

theorem rhs_mirror (hN : 2 * N ≤ dims.length) (hdims : ∀ k, dims.getD (swapIx N k) 0 = dims.getD k 0)
    (hh : ∀ a b, a < d → b < d → h b a = (starRingEnd ℂ) (h a b))
    (hq : ∀ a b, a < d → b < d → q b a = (starRingEnd ℂ) (q a b))
    (hγ : ∀ k, k < dims.length → γ (swapIx N k) = (starRingEnd ℂ) (γ k))
    (hc : ∀ k, k < dims.length → c' (swapIx N k) = (starRingEnd ℂ) (c k))
    (hc' : ∀ k, k < dims.length → c (swapIx N k) = (starRingEnd ℂ) (c' k)) (hd : ∀ m, (starRingEnd ℂ) (down m) = down m)
    (hu : ∀ m, (starRingEnd ℂ) (up m) = up m) (hr : MirrorHermitian d N dims rho) {n : List ℕ} (hn : Valid dims n) {a b : ℕ} (ha : a < d)
    (hb : b < d) :
    heomRhs d dims h q γ c c' down up rho (mirror N n) b a = (starRingEnd ℂ) (heomRhs d dims h q γ c c' down up rho n a b) := by
  have hl : 2 * N ≤ n.length := by rw [hn.length_eq]; exact hN
  have hg := mirror_getD hl
  have hbelow : ∀ k a b, k < dims.length → a < d → b < d → below rho (mirror N n) (swapIx N k) b a = (starRingEnd ℂ) (below rho n k a b) := by
    intro k a b hk ha hb
    unfold below
    rw [hg]
    split
    · simp
    · rw [← mirror_set hl]
      exact hr _ (valid_set hn (by have := hn.getD_lt hk 0 0; omega)) a b ha hb
  have habove : ∀ k a b, k < dims.length → a < d → b < d →
      above dims rho (mirror N n) (swapIx N k) b a = (starRingEnd ℂ) (above dims rho n k a b) := by
    intro k a b hk ha hb
    unfold above
    rw [hg, hdims]
    split
    · rename_i hlt
      rw [← mirror_set hl]
      exact hr _ (valid_set hn hlt) a b ha hb
    · simp
  unfold heomRhs
  dsimp only
  rw [map_add, map_mul, map_neg, Complex.conj_I, map_sub, star_sum_mul, star_sum_mul, map_sum]
  refine congrArg₂ (· + ·) ?_ ?_
  · rw [Finset.sum_congr (s₁ := Finset.range d) (f := fun s => (starRingEnd ℂ) (tier rho n s b) * (starRingEnd ℂ) (h a s))
      (g := fun s => tier rho (mirror N n) b s * h s a) rfl fun s hs => by
        rw [hr n hn s b (Finset.mem_range.1 hs) hb, hh a s ha (Finset.mem_range.1 hs)],
      Finset.sum_congr (s₁ := Finset.range d) (f := fun s => (starRingEnd ℂ) (h s b) * (starRingEnd ℂ) (tier rho n a s))
      (g := fun s => h b s * tier rho (mirror N n) s a) rfl fun s hs => by
        rw [hr n hn a s ha (Finset.mem_range.1 hs), hh s b (Finset.mem_range.1 hs) hb]]
    ring
  · symm
    refine Finset.sum_nbij' (swapIx N) (swapIx N) (fun k hk => Finset.mem_range.2 (swap_lt hN (Finset.mem_range.1 hk)))
      (fun k hk => Finset.mem_range.2 (swap_lt hN (Finset.mem_range.1 hk))) (fun k _ => swap_swap N k) (fun k _ => swap_swap N k) fun k hk => ?_
    have hk := Finset.mem_range.1 hk
    rw [map_sub, map_mul, map_mul, ← hγ k hk, Complex.conj_natCast, ← hr n hn a b ha hb, map_mul, Complex.conj_I, map_sub, star_sum_mul,
      star_sum_mul, hg]
    rw [Finset.sum_congr (s₁ := Finset.range d) (f := fun s => (starRingEnd ℂ) (c k * down (n.getD k 0) * below rho n k s b +
        up (n.getD k 0) * above dims rho n k s b) * (starRingEnd ℂ) (q a s))
      (g := fun s => (c' (swapIx N k) * down (n.getD k 0) * below rho (mirror N n) (swapIx N k) b s +
        up (n.getD k 0) * above dims rho (mirror N n) (swapIx N k) b s) * q s a) rfl fun s hs => by
        have hs := Finset.mem_range.1 hs
        rw [map_add, map_mul, map_mul, map_mul, hd, hu, hc k hk, hbelow k s b hk hs hb, habove k s b hk hs hb, hq a s ha hs],
      Finset.sum_congr (s₁ := Finset.range d) (f := fun s => (starRingEnd ℂ) (q s b) *
        (starRingEnd ℂ) (c' k * down (n.getD k 0) * below rho n k a s + up (n.getD k 0) * above dims rho n k a s))
      (g := fun s => q b s * (c (swapIx N k) * down (n.getD k 0) * below rho (mirror N n) (swapIx N k) s a +
        up (n.getD k 0) * above dims rho (mirror N n) (swapIx N k) s a)) rfl fun s hs => by
        have hs := Finset.mem_range.1 hs
        rw [map_add, map_mul, map_mul, map_mul, hd, hu, hc' k hk, hbelow k a s hk ha hs, habove k a s hk ha hs, hq s b hs hb]]
    ring

end SbmSpec
