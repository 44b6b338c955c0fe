import Verif.Lemmas.DmrgGrain

/-!
C37: coarse graining and fine graining of two neighbouring sites.
-/

open scoped BigOperators
open Py

namespace Dmrg

variable {R : Type} [CommRing R]

/-- `coarse_grain_mps(A, B)` is the matrix product of every pair of physical indices. -/
theorem C37_coarse_grain_mps {A B : Nd R} {s t i j k : ℕ} (hA : A.shape = [s, i, j]) (hB : B.shape = [t, j, k]) :
    ∃ C, coarseGrainMps A B = .ok C ∧ C.shape = [s * t, i, k] ∧
      ∀ s' < s, ∀ t' < t, ∀ i' < i, ∀ k' < k, C.get [s' * t + t', i', k'] =
        ∑ j' ∈ Finset.range j, A.get [s', i', j'] * B.get [t', j', k'] := by
  obtain ⟨C, e, -, sh, g⟩ := coarseGrainMps_ok hA hB
  exact ⟨C, e, sh, g⟩

/-- `coarse_grain_mpo(W, X)` is the operator product on the pair of sites. -/
theorem C37_coarse_grain_mpo {W X : Nd R} {a b c s t u v : ℕ} (hW : W.shape = [a, b, s, t]) (hX : X.shape = [b, c, u, v]) :
    ∃ Y, coarseGrainMpo W X = .ok Y ∧ Y.shape = [a, c, s * u, t * v] ∧
      ∀ a' < a, ∀ c' < c, ∀ s' < s, ∀ u' < u, ∀ t' < t, ∀ v' < v, Y.get [a', c', s' * u + u', t' * v + v'] =
        ∑ b' ∈ Finset.range b, W.get [a', b', s', t'] * X.get [b', c', u', v'] := by
  obtain ⟨C, e, -, sh, g⟩ := coarseGrainMpo_ok hW hX
  exact ⟨C, e, sh, g⟩

/-- `fine_grain_mps(C, [d1, d2], direction)`, not truncated (`_trunc` absent or not smaller than the number of singular values): the
product of the two matrices is `C`, whatever the direction, so `coarse_grain_mps` of the two gives `C` back. -/
theorem C37_fine_grain_mps {svd : SvdFn R} (hsvd : SvdShape svd) (hex : SvdExact svd) {C : Nd R} {d1 d2 i k : ℕ} (hw : C.Wf)
    (hC : C.shape = [d1 * d2, i, k]) (h1 : 0 < d1 * i) (h2 : 0 < d2 * k) (toRight : Bool) (trunc : ℕ)
    (ht : trunc = 0 ∨ min (d1 * i) (d2 * k) ≤ trunc) :
    ∃ A B m, fineGrainMps svd C d1 d2 toRight trunc = .ok (A, B) ∧ A.shape = [d1, i, m] ∧ B.shape = [d2, m, k] ∧
      coarseGrainMps A B = .ok C := by
  obtain ⟨E, A, B, e, wE, sE, gE, wA, sA, wB, sB, gA, gB⟩ := fineGrainMps_ok hsvd hC h1 h2 toRight trunc
  have hm : keptBond (min (d1 * i) (d2 * k)) trunc = min (d1 * i) (d2 * k) := by
    unfold keptBond; split <;> omega
  rw [hm] at sA sB gA gB
  refine ⟨A, B, _, e, sA, sB, ?_⟩
  obtain ⟨C', e', wC', sC', gC'⟩ := coarseGrainMps_ok sA sB
  rw [e']
  congr 1
  refine Nd.ext_get wC' hw (sC'.trans hC.symm) fun p hp => ?_
  rw [sC'] at hp
  obtain ⟨x, p, rfl, hx, hp⟩ := valid_cons_iff.1 hp
  obtain ⟨i', p, rfl, hi, hp⟩ := valid_cons_iff.1 hp
  obtain ⟨k', p, rfl, hk, hp⟩ := valid_cons_iff.1 hp
  obtain rfl := valid_nil_iff.1 hp
  have hd2 : 0 < d2 := Nat.pos_of_mul_pos_right h2
  have hs : x / d2 < d1 := Nat.div_lt_of_lt_mul (by rwa [mul_comm] at hx)
  have ht' : x % d2 < d2 := Nat.mod_lt _ hd2
  have hxe : x / d2 * d2 + x % d2 = x := by rw [mul_comm]; exact Nat.div_add_mod x d2
  rw [← hxe, gC' _ hs _ ht' _ hi _ hk, ← gE _ hs _ ht' _ hi _ hk,
    ← hex E _ _ wE sE _ (pair_lt hs hi) _ (pair_lt ht' hk)]
  refine Finset.sum_congr rfl fun z hz => ?_
  have hz' := Finset.mem_range.1 hz
  rw [gA _ hs _ hi _ hz', gB _ ht' _ hz' _ hk]
  cases toRight <;> simp [mul_assoc]

/-- Fine graining of the coarse-grained pair gives matrices with the same product. -/
theorem C37_round_trip {svd : SvdFn R} (hsvd : SvdShape svd) (hex : SvdExact svd) {A B : Nd R} {s t i j k : ℕ}
    (hA : A.shape = [s, i, j]) (hB : B.shape = [t, j, k]) (h1 : 0 < s * i) (h2 : 0 < t * k) (toRight : Bool) (trunc : ℕ)
    (ht : trunc = 0 ∨ min (s * i) (t * k) ≤ trunc) :
    ∃ C A' B' m, coarseGrainMps A B = .ok C ∧ fineGrainMps svd C s t toRight trunc = .ok (A', B') ∧ A'.shape = [s, i, m] ∧
      B'.shape = [t, m, k] ∧ ∀ s' < s, ∀ t' < t, ∀ i' < i, ∀ k' < k,
        ∑ m' ∈ Finset.range m, A'.get [s', i', m'] * B'.get [t', m', k'] =
          ∑ j' ∈ Finset.range j, A.get [s', i', j'] * B.get [t', j', k'] := by
  obtain ⟨C, e, w, sh, g⟩ := coarseGrainMps_ok hA hB
  obtain ⟨A', B', m, e', sA, sB, e''⟩ := C37_fine_grain_mps hsvd hex w sh h1 h2 toRight trunc ht
  obtain ⟨C', e3, -, -, g'⟩ := coarseGrainMps_ok sA sB
  rw [e''] at e3
  cases e3
  refine ⟨C, A', B', m, e, e', sA, sB, fun s' hs t' ht i' hi k' hk => ?_⟩
  rw [← g' s' hs t' ht i' hi k' hk, g s' hs t' ht i' hi k' hk]

/-- Truncated or not, the factor that the sweep leaves behind is canonical: `A` if the direction is `'>'`, `B` if it is `'<'`. -/
theorem C37_canonical {svd : SvdFn R} (hsvd : SvdShape svd) (hiso : SvdIso svd) {C : Nd R} {d1 d2 i k : ℕ}
    (hC : C.shape = [d1 * d2, i, k]) (h1 : 0 < d1 * i) (h2 : 0 < d2 * k) (trunc : ℕ) :
    (∃ A B m, fineGrainMps svd C d1 d2 true trunc = .ok (A, B) ∧ A.shape = [d1, i, m] ∧ B.shape = [d2, m, k] ∧
      (trunc ≠ 0 → m ≤ trunc) ∧ ∀ x < m, ∀ y < m,
        ∑ s' ∈ Finset.range d1, ∑ i' ∈ Finset.range i, A.get [s', i', x] * A.get [s', i', y] = if x = y then 1 else 0) ∧
    ∃ A B m, fineGrainMps svd C d1 d2 false trunc = .ok (A, B) ∧ A.shape = [d1, i, m] ∧ B.shape = [d2, m, k] ∧
      (trunc ≠ 0 → m ≤ trunc) ∧ ∀ x < m, ∀ y < m,
        ∑ t' ∈ Finset.range d2, ∑ k' ∈ Finset.range k, B.get [t', x, k'] * B.get [t', y, k'] = if x = y then 1 else 0 := by
  have hle : keptBond (min (d1 * i) (d2 * k)) trunc ≤ min (d1 * i) (d2 * k) := by unfold keptBond; split <;> omega
  have hle' : trunc ≠ 0 → keptBond (min (d1 * i) (d2 * k)) trunc ≤ trunc := by intro h; unfold keptBond; rw [if_pos h]; omega
  have split : ∀ (a b : ℕ) (f : ℕ → R), ∑ x ∈ Finset.range a, ∑ y ∈ Finset.range b, f (x * b + y) = ∑ z ∈ Finset.range (a * b), f z := by
    intro a b f
    induction a with
    | zero => simp
    | succ a ih => rw [Finset.sum_range_succ, ih, Nat.succ_mul, Finset.sum_range_add]
  refine ⟨?_, ?_⟩
  · obtain ⟨E, A, B, e, wE, sE, gE, wA, sA, wB, sB, gA, gB⟩ := fineGrainMps_ok hsvd hC h1 h2 true trunc
    refine ⟨A, B, _, e, sA, sB, hle', fun x hx y hy => ?_⟩
    rw [← (hiso E _ _ wE sE x (by omega) y (by omega)).1, ← split]
    refine Finset.sum_congr rfl fun s' hs => Finset.sum_congr rfl fun i' hi => ?_
    rw [gA _ (Finset.mem_range.1 hs) _ (Finset.mem_range.1 hi) _ hx, gA _ (Finset.mem_range.1 hs) _ (Finset.mem_range.1 hi) _ hy]
    simp
  · obtain ⟨E, A, B, e, wE, sE, gE, wA, sA, wB, sB, gA, gB⟩ := fineGrainMps_ok hsvd hC h1 h2 false trunc
    refine ⟨A, B, _, e, sA, sB, hle', fun x hx y hy => ?_⟩
    rw [← (hiso E _ _ wE sE x (by omega) y (by omega)).2, ← split]
    refine Finset.sum_congr rfl fun s' hs => Finset.sum_congr rfl fun i' hi => ?_
    rw [gB _ (Finset.mem_range.1 hs) _ hx _ (Finset.mem_range.1 hi), gB _ (Finset.mem_range.1 hs) _ hy _ (Finset.mem_range.1 hi)]
    simp

/-! A decomposition with the assumed properties (without truncation) exists over every ring, and so do orthonormal factors. -/

/-- `np.eye(m, n)` -/
def eye (m n : ℕ) : Nd R := Nd.ofFn [m, n] fun p => if p.getD 0 0 = p.getD 1 0 then 1 else 0

theorem eye_get {m n x y : ℕ} (hx : x < m) (hy : y < n) : (eye m n : Nd R).get [x, y] = if x = y then 1 else 0 :=
  Nd.get_ofFn _ (valid2 hx hy)

/-- `a = 1 · 1 · a` or `a = a · 1 · 1` -/
def exSvd : SvdFn R := fun a =>
  if a.dim 0 ≤ a.dim 1 then (eye (a.dim 0) (a.dim 0), List.replicate (a.dim 0) 1, a)
  else (a, List.replicate (a.dim 1) 1, eye (a.dim 1) (a.dim 1))

theorem exSvd_shape : SvdShape (exSvd (R := R)) := by
  intro a m n hw ha
  have d0 : a.dim 0 = m := by simp [Nd.dim, ha]
  have d1 : a.dim 1 = n := by simp [Nd.dim, ha]
  unfold exSvd
  rw [d0, d1]
  split
  · next h => simp [h, hw, ha, eye, Nd.ofFn_wf]
  · next h => simp [Nat.min_eq_right (le_of_not_ge h), hw, ha, eye, Nd.ofFn_wf]

theorem exSvd_exact : SvdExact (exSvd (R := R)) := by
  intro a m n hw ha x hx y hy
  have d0 : a.dim 0 = m := by simp [Nd.dim, ha]
  have d1 : a.dim 1 = n := by simp [Nd.dim, ha]
  unfold exSvd
  rw [d0, d1]
  split
  · next h =>
    rw [min_eq_left h, Finset.sum_eq_single x]
    · rw [eye_get hx hx]; simp [List.getD_eq_getElem?_getD, hx]
    · intro z hz hne
      rw [eye_get hx (Finset.mem_range.1 hz), if_neg (Ne.symm hne)]; simp
    · intro hc; exact absurd (Finset.mem_range.2 hx) hc
  · next h =>
    rw [min_eq_right (le_of_not_ge h), Finset.sum_eq_single y]
    · rw [eye_get hy hy]; simp [List.getD_eq_getElem?_getD, hy]
    · intro z hz hne
      rw [eye_get (Finset.mem_range.1 hz) hy, if_neg hne]; simp
    · intro hc; exact absurd (Finset.mem_range.2 hy) hc

def exIso : SvdFn R := fun a =>
  (eye (a.dim 0) (min (a.dim 0) (a.dim 1)), List.replicate (min (a.dim 0) (a.dim 1)) 1, eye (min (a.dim 0) (a.dim 1)) (a.dim 1))

theorem exIso_shape : SvdShape (exIso (R := R)) := by
  intro a m n hw ha
  simp [exIso, eye, Nd.ofFn_wf, Nd.dim, ha]

theorem exIso_iso : SvdIso (exIso (R := R)) := by
  intro a m n hw ha z hz w hw'
  have d0 : a.dim 0 = m := by simp [Nd.dim, ha]
  have d1 : a.dim 1 = n := by simp [Nd.dim, ha]
  simp only [exIso, d0, d1]
  constructor
  · rw [Finset.sum_eq_single z]
    · rw [eye_get (by omega) hz, eye_get (by omega) hw']; simp
    · intro x hx hne
      rw [eye_get (Finset.mem_range.1 hx) hz, if_neg hne, zero_mul]
    · intro hc; exact absurd (Finset.mem_range.2 (show z < m by omega)) hc
  · rw [Finset.sum_eq_single z]
    · rw [eye_get hz (by omega), eye_get hw' (by omega)]; simp [eq_comm]
    · intro x hx hne
      rw [eye_get hz (Finset.mem_range.1 hx), if_neg (Ne.symm hne), zero_mul]
    · intro hc; exact absurd (Finset.mem_range.2 (show z < n by omega)) hc

example : ∃ C A' B', coarseGrainMps (⟨[2, 1, 2], [1, 2, 3, 4]⟩ : Nd ℤ) ⟨[2, 2, 1], [5, 6, 7, 8]⟩ = .ok C ∧
    fineGrainMps exSvd C 2 2 true 0 = .ok (A', B') ∧ A' ≠ ⟨[2, 1, 2], [1, 2, 3, 4]⟩ := by
  refine ⟨⟨[4, 1, 1], [17, 23, 39, 53]⟩, ⟨[2, 1, 2], [1, 0, 0, 1]⟩, ⟨[2, 2, 1], [17, 39, 23, 53]⟩, ?_, ?_, ?_⟩ <;> decide +kernel

end Dmrg
