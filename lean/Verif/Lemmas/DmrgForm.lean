import Verif.Lemmas.DmrgSweep
import Verif.Spec.DmrgEnergy
import Mathlib.Algebra.BigOperators.Group.Finset.Sigma

/-!
The matrix element between two states that differ at one site, or at a pair of sites, by the environments.
-/

open scoped BigOperators
open Py

namespace Dmrg

variable {R : Type} [CommRing R]

theorem chain_append : ∀ {X1 Xo X2 : List (Nd R)} {ds es : List ℕ} {a i k a' i' k' : ℕ}, IsMps ds i i' X1 → IsMpo ds es a a' Xo →
    IsMps es k k' X2 → ∀ (ds' es' : List ℕ) (Y1 Yo Y2 : List (Nd R)) (p q : List ℕ), Valid [a, i, k] p →
    chain (ds ++ ds') (es ++ es') (X1 ++ Y1) (Xo ++ Yo) (X2 ++ Y2) p q =
      sumIdx [a', i', k'] fun r => chain ds es X1 Xo X2 p r * chain ds' es' Y1 Yo Y2 r q := by
  intro X1
  induction X1 with
  | nil =>
    intro mo m2 ds es a i k b j l h1 ho h2 ds' es' Y1 Yo Y2 p q hp
    match ds, es, mo, m2, h1, ho, h2 with
    | [], [], [], [], h1, ho, h2 =>
      cases h1; cases ho; cases h2
      obtain ⟨b', p, rfl, hb, hp⟩ := valid_cons_iff.1 hp
      obtain ⟨j', p, rfl, hj, hp⟩ := valid_cons_iff.1 hp
      obtain ⟨l', p, rfl, hl, hp⟩ := valid_cons_iff.1 hp
      obtain rfl := valid_nil_iff.1 hp
      have e : ∀ r : List ℕ, chain [] [] ([] : List (Nd R)) [] [] [b', j', l'] r =
          (if j' = r.getD 1 0 then 1 else 0) * (if b' = r.getD 0 0 then 1 else 0) * (if l' = r.getD 2 0 then 1 else 0) := fun r => rfl
      simp [e, sumIdx_cons, hb, hj, hl]
  | cons A X1 ih =>
    intro mo m2 ds es a i k b j l h1 ho h2 ds' es' Y1 Yo Y2 p q hp
    match ds, es, mo, m2, h1, ho, h2 with
    | s :: ds, t :: es, W :: mo, B :: m2, ⟨i', hA, h1⟩, ⟨a', hW, ho⟩, ⟨k', hB, h2⟩ =>
      simp only [List.cons_append, chain_cons hA hW hB]
      simp only [← sumIdx_mul_right]
      rw [sumIdx_comm]
      refine sumIdx_congr fun r hr => ?_
      rw [ih h1 ho h2 ds' es' Y1 Yo Y2 r q hr, ← sumIdx_mul_left]
      exact sumIdx_congr fun p _ => by ring

theorem overlap_append : ∀ {X1 X2 : List (Nd R)} {ds : List ℕ} {i k i' k' : ℕ}, IsMps ds i i' X1 →
    IsMps ds k k' X2 → ∀ (ds' : List ℕ) (Y1 Y2 : List (Nd R)) (p q : List ℕ), Valid [i, k] p →
    overlap (ds ++ ds') (X1 ++ Y1) (X2 ++ Y2) p q =
      sumIdx [i', k'] fun r => overlap ds X1 X2 p r * overlap ds' Y1 Y2 r q := by
  intro X1
  induction X1 with
  | nil =>
    intro m2 ds i k j l h1 h2 ds' Y1 Y2 p q hp
    match ds, m2, h1, h2 with
    | [], [], h1, h2 =>
      cases h1; cases h2
      obtain ⟨j', p, rfl, hj, hp⟩ := valid_cons_iff.1 hp
      obtain ⟨l', p, rfl, hl, hp⟩ := valid_cons_iff.1 hp
      obtain rfl := valid_nil_iff.1 hp
      have e : ∀ r : List ℕ, overlap [] ([] : List (Nd R)) [] [j', l'] r =
          (if j' = r.getD 0 0 then 1 else 0) * (if l' = r.getD 1 0 then 1 else 0) := fun r => rfl
      simp [e, sumIdx_cons, hj, hl]
  | cons A X1 ih =>
    intro m2 ds i k j l h1 h2 ds' Y1 Y2 p q hp
    match ds, m2, h1, h2 with
    | s :: ds, B :: m2, ⟨i', hA, h1⟩, ⟨k', hB, h2⟩ =>
      simp only [List.cons_append, overlap_cons hA hB]
      simp only [← sumIdx_mul_right]
      rw [sumIdx_comm]
      refine sumIdx_congr fun r hr => ?_
      rw [ih h1 h2 ds' Y1 Y2 r q hr, ← sumIdx_mul_left]
      exact sumIdx_congr fun p _ => by ring

/-- The sum over the indices of the environments, the site matrix `u` and `v` and the operator. -/
def form (a b d l r : ℕ) (L W Rt u v : Nd R) : R :=
  sumIdx [a, l, l] fun p => sumIdx [b, r, r] fun q => L.get p * site d d u W v p q * Rt.get q

theorem inner_eq {u v : Nd R} {sh : List ℕ} (hw : u.Wf) (hu : u.shape = sh) (hv : v.shape = sh) :
    inner u v = sumIdx sh fun p => u.get p * v.get p := by
  unfold inner
  rw [hw, hu, sumIdx_eq_sum_range]
  refine Finset.sum_congr rfl fun k hk => ?_
  rw [Nd.get, Nd.get, hu, hv, ravel_unravel (Finset.mem_range.1 hk)]

private theorem perm8 (T J L B K A S I : Finset ℕ) (f : ℕ → ℕ → ℕ → ℕ → ℕ → ℕ → ℕ → ℕ → R) :
    ∑ t ∈ T, ∑ j ∈ J, ∑ l ∈ L, ∑ b ∈ B, ∑ k ∈ K, ∑ a ∈ A, ∑ s ∈ S, ∑ i ∈ I, f t j l b k a s i =
      ∑ a ∈ A, ∑ i ∈ I, ∑ j ∈ J, ∑ b ∈ B, ∑ k ∈ K, ∑ l ∈ L, ∑ s ∈ S, ∑ t ∈ T, f t j l b k a s i := by
  simp only [← Finset.sum_product']
  refine Finset.sum_nbij' (fun (t, j, l, b, k, a, s, i) => (a, i, j, b, k, l, s, t)) (fun (a, i, j, b, k, l, s, t) => (t, j, l, b, k, a, s, i))
    ?_ ?_ ?_ ?_ ?_
  · rintro ⟨t, j, l, b, k, a, s, i⟩ h
    simp only [Finset.mem_product] at h ⊢
    tauto
  · rintro ⟨t, j, l, b, k, a, s, i⟩ h
    simp only [Finset.mem_product] at h ⊢
    tauto
  · intro x _; rfl
  · intro x _; rfl
  · intro x _; rfl

/-- The product with the effective operator. -/
theorem envMatvec_ok {L W Rt v : Nd R} {a b d l r : ℕ} (hL : L.shape = [a, l, l]) (hW : W.shape = [a, b, d, d])
    (hR : Rt.shape = [b, r, r]) (hv : IsVec (d * l * r) v) :
    ∃ y, envMatvec L W Rt v = .ok y ∧ IsVec (d * l * r) y ∧
      ∀ u, IsVec (d * l * r) u → inner u y = form a b d l r L W Rt ⟨[d, l, r], v.data⟩ ⟨[d, l, r], u.data⟩ := by
  obtain ⟨wv, sv⟩ := hv
  have hp : [d, l, r].prod = d * l * r := by simp [mul_assoc]
  have hV : (⟨[d, l, r], v.data⟩ : Nd R).shape = [d, l, r] := rfl
  obtain ⟨Z1, e1, w1, s1, g1⟩ := Nd.ein_env1 hL hV
  obtain ⟨Z2, e2, w2, s2, g2⟩ := Nd.ein_env2 s1 hW
  obtain ⟨Z3, e3, w3, s3, g3⟩ := Nd.ein_env3 s2 hR
  have er : v.reshape [d, l, r] = .ok ⟨[d, l, r], v.data⟩ := by
    rw [Nd.reshape, if_pos]; rw [sv, hp]; simp
  refine ⟨⟨[d * l * r], Z3.data⟩, ?_, ⟨?_, rfl⟩, ?_⟩
  · unfold envMatvec ioShape
    simp only [hL, hW, hR, item, List.getElem?_cons_zero, List.getElem?_cons_succ, ok_bind, pure_bind, er, e1, e2, e3]
    rw [Nd.reshape, if_pos]
    · rw [hp]
    · rw [s3]; simp
  · unfold Nd.Wf at w3 ⊢
    rw [w3, s3, hp]; simp
  · intro u ⟨wu, su⟩
    have wU : (⟨[d, l, r], u.data⟩ : Nd R).Wf := by
      unfold Nd.Wf at wu ⊢
      rw [wu, su, hp]; simp
    have h1 : inner u ⟨[d * l * r], Z3.data⟩ = inner (⟨[d, l, r], u.data⟩ : Nd R) Z3 := rfl
    rw [h1, inner_eq wU rfl s3]
    unfold form
    simp only [sumIdx_cons, sumIdx_nil, site, List.getD_cons_zero, List.getD_cons_succ, Finset.mul_sum, Finset.sum_mul]
    rw [← perm8 (f := fun t j z b k a s i => L.get [a, i, j] * ((⟨[d, l, r], v.data⟩ : Nd R).get [s, i, k] * W.get [a, b, s, t] *
      (⟨[d, l, r], u.data⟩ : Nd R).get [t, j, z]) * Rt.get [b, k, z])]
    refine Finset.sum_congr rfl fun t ht => Finset.sum_congr rfl fun j hj => Finset.sum_congr rfl fun l' hl => ?_
    rw [g3 t (Finset.mem_range.1 ht) j (Finset.mem_range.1 hj) l' (Finset.mem_range.1 hl), Finset.mul_sum]
    refine Finset.sum_congr rfl fun b' hb => ?_
    rw [Finset.mul_sum]
    refine Finset.sum_congr rfl fun k hk => ?_
    rw [g2 b' (Finset.mem_range.1 hb) j (Finset.mem_range.1 hj) t (Finset.mem_range.1 ht) k (Finset.mem_range.1 hk), Finset.sum_mul,
      Finset.mul_sum]
    refine Finset.sum_congr rfl fun a' ha => ?_
    rw [Finset.sum_mul, Finset.mul_sum]
    refine Finset.sum_congr rfl fun s hs => ?_
    rw [g1 a' (Finset.mem_range.1 ha) j (Finset.mem_range.1 hj) s (Finset.mem_range.1 hs) k (Finset.mem_range.1 hk), Finset.sum_mul,
      Finset.sum_mul, Finset.mul_sum]
    refine Finset.sum_congr rfl fun i _ => ?_
    ring

theorem effective_eq {L W Rt u v : Nd R} {a b d l r : ℕ} (hL : L.shape = [a, l, l]) (hW : W.shape = [a, b, d, d])
    (hR : Rt.shape = [b, r, r]) (hu : IsVec (d * l * r) u) (hv : IsVec (d * l * r) v) :
    effective L W Rt u v = form a b d l r L W Rt ⟨[d, l, r], v.data⟩ ⟨[d, l, r], u.data⟩ := by
  obtain ⟨y, e, -, g⟩ := envMatvec_ok hL hW hR hv
  unfold effective
  rw [e]
  exact g u hu

end Dmrg
