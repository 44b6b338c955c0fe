import Verif.Spec.Dmrg
import Verif.Py.Lemmas
import Mathlib.Tactic.Ring

/-!
The contractions of `dmrg.py` compute sums over configurations.
-/

open scoped BigOperators
open Py

namespace Dmrg

variable {R : Type} [CommRing R]

/-- The contribution of one site. -/
def site (s t : ℕ) (A W B : Nd R) (p q : List ℕ) : R :=
  ∑ s' ∈ Finset.range s, ∑ t' ∈ Finset.range t,
    A.get [s', p.getD 1 0, q.getD 1 0] * W.get [p.getD 0 0, q.getD 0 0, s', t'] * B.get [t', p.getD 2 0, q.getD 2 0]

theorem sum_perm_left (x₁ x₂ x₃ x₄ x₅ : Finset ℕ) (f : ℕ → ℕ → ℕ → ℕ → ℕ → R) :
    ∑ a ∈ x₁, ∑ i ∈ x₂, ∑ k ∈ x₃, ∑ s ∈ x₄, ∑ t ∈ x₅, f a i k s t =
      ∑ t ∈ x₅, ∑ k ∈ x₃, ∑ a ∈ x₁, ∑ s ∈ x₄, ∑ i ∈ x₂, f a i k s t := by
  calc _ = ∑ a ∈ x₁, ∑ k ∈ x₃, ∑ i ∈ x₂, ∑ s ∈ x₄, ∑ t ∈ x₅, f a i k s t :=
        Finset.sum_congr rfl fun a _ => Finset.sum_comm
    _ = ∑ k ∈ x₃, ∑ a ∈ x₁, ∑ i ∈ x₂, ∑ s ∈ x₄, ∑ t ∈ x₅, f a i k s t := Finset.sum_comm
    _ = ∑ k ∈ x₃, ∑ a ∈ x₁, ∑ i ∈ x₂, ∑ t ∈ x₅, ∑ s ∈ x₄, f a i k s t :=
        Finset.sum_congr rfl fun k _ => Finset.sum_congr rfl fun a _ => Finset.sum_congr rfl fun i _ => Finset.sum_comm
    _ = ∑ k ∈ x₃, ∑ a ∈ x₁, ∑ t ∈ x₅, ∑ i ∈ x₂, ∑ s ∈ x₄, f a i k s t :=
        Finset.sum_congr rfl fun k _ => Finset.sum_congr rfl fun a _ => Finset.sum_comm
    _ = ∑ k ∈ x₃, ∑ t ∈ x₅, ∑ a ∈ x₁, ∑ i ∈ x₂, ∑ s ∈ x₄, f a i k s t :=
        Finset.sum_congr rfl fun k _ => Finset.sum_comm
    _ = ∑ t ∈ x₅, ∑ k ∈ x₃, ∑ a ∈ x₁, ∑ i ∈ x₂, ∑ s ∈ x₄, f a i k s t := Finset.sum_comm
    _ = _ := Finset.sum_congr rfl fun t _ => Finset.sum_congr rfl fun k _ => Finset.sum_congr rfl fun a _ => Finset.sum_comm

theorem contractFromLeft_some {L A W B : Nd R} {a b i j k l s t : ℕ} (hL : L.shape = [a, i, k]) (hA : A.shape = [s, i, j])
    (hW : W.shape = [a, b, s, t]) (hB : B.shape = [t, k, l]) :
    ∃ Z, contractFromLeft L A (some W) B = .ok Z ∧ Z.Wf ∧ Z.shape = [b, j, l] ∧
      ∀ q, Valid [b, j, l] q → Z.get q = sumIdx [a, i, k] fun p => L.get p * site s t A W B p q := by
  obtain ⟨Z1, e1, w1, s1, g1⟩ := Nd.ein_left1 hA hL
  obtain ⟨Z2, e2, w2, s2, g2⟩ := Nd.ein_left2 s1 hW
  obtain ⟨Z3, e3, w3, s3, g3⟩ := Nd.ein_left3 s2 hB
  refine ⟨Z3, ?_, w3, s3, ?_⟩
  · simp only [contractFromLeft, e1, e2, e3, ok_bind]
  · intro q hq
    obtain ⟨b', q, rfl, hb, hq⟩ := valid_cons_iff.1 hq
    obtain ⟨j', q, rfl, hj, hq⟩ := valid_cons_iff.1 hq
    obtain ⟨l', q, rfl, hl, hq⟩ := valid_cons_iff.1 hq
    obtain rfl := valid_nil_iff.1 hq
    rw [g3 b' hb j' hj l' hl]
    simp only [sumIdx_cons, sumIdx_nil, site, Finset.mul_sum, List.getD_cons_zero, List.getD_cons_succ]
    rw [sum_perm_left]
    refine Finset.sum_congr rfl fun t' ht => Finset.sum_congr rfl fun k' hk => ?_
    rw [g2 t' (Finset.mem_range.1 ht) b' hb j' hj k' (Finset.mem_range.1 hk), Finset.sum_mul]
    refine Finset.sum_congr rfl fun a' ha => ?_
    rw [Finset.sum_mul]
    refine Finset.sum_congr rfl fun s' hs => ?_
    rw [g1 s' (Finset.mem_range.1 hs) a' (Finset.mem_range.1 ha) j' hj k' (Finset.mem_range.1 hk), Finset.sum_mul, Finset.sum_mul]
    refine Finset.sum_congr rfl fun i' _ => ?_
    ring

theorem contractFromRight_some {Rt A W B : Nd R} {a b i j k l s t : ℕ} (hR : Rt.shape = [b, j, l]) (hA : A.shape = [s, i, j])
    (hW : W.shape = [a, b, s, t]) (hB : B.shape = [t, k, l]) :
    ∃ Z, contractFromRight Rt A (some W) B = .ok Z ∧ Z.Wf ∧ Z.shape = [a, i, k] ∧
      ∀ p, Valid [a, i, k] p → Z.get p = sumIdx [b, j, l] fun q => site s t A W B p q * Rt.get q := by
  obtain ⟨Z1, e1, w1, s1, g1⟩ := Nd.ein_right1 hA hR
  obtain ⟨Z2, e2, w2, s2, g2⟩ := Nd.ein_right2 s1 hW
  obtain ⟨Z3, e3, w3, s3, g3⟩ := Nd.ein_right3 s2 hB
  refine ⟨Z3, ?_, w3, s3, ?_⟩
  · simp only [contractFromRight, e1, e2, e3, ok_bind]
  · intro q hq
    obtain ⟨a', q, rfl, ha, hq⟩ := valid_cons_iff.1 hq
    obtain ⟨i', q, rfl, hi, hq⟩ := valid_cons_iff.1 hq
    obtain ⟨k', q, rfl, hk, hq⟩ := valid_cons_iff.1 hq
    obtain rfl := valid_nil_iff.1 hq
    rw [g3 a' ha i' hi k' hk]
    simp only [sumIdx_cons, sumIdx_nil, site, Finset.sum_mul, List.getD_cons_zero, List.getD_cons_succ]
    rw [sum_perm_left]
    refine Finset.sum_congr rfl fun t' ht => Finset.sum_congr rfl fun l' hl => ?_
    rw [g2 t' (Finset.mem_range.1 ht) a' ha i' hi l' (Finset.mem_range.1 hl), Finset.sum_mul]
    refine Finset.sum_congr rfl fun b' hb => ?_
    rw [Finset.sum_mul]
    refine Finset.sum_congr rfl fun s' hs => ?_
    rw [g1 s' (Finset.mem_range.1 hs) b' (Finset.mem_range.1 hb) i' hi l' (Finset.mem_range.1 hl), Finset.sum_mul, Finset.sum_mul]
    refine Finset.sum_congr rfl fun j' _ => ?_
    ring

theorem chain_cons {ds es : List ℕ} {m1 mo m2 : List (Nd R)} {A W B : Nd R} {a i k a' i' k' s t : ℕ}
    (hA : A.shape = [s, i, i']) (hW : W.shape = [a, a', s, t]) (hB : B.shape = [t, k, k']) (p q : List ℕ) :
    chain (s :: ds) (t :: es) (A :: m1) (W :: mo) (B :: m2) p q =
      sumIdx [a', i', k'] fun r => site s t A W B p r * chain ds es m1 mo m2 r q := by
  have dA : A.dim 2 = i' := by simp [Nd.dim, hA]
  have dW : W.dim 1 = a' := by simp [Nd.dim, hW]
  have dB : B.dim 2 = k' := by simp [Nd.dim, hB]
  have lhs : chain (s :: ds) (t :: es) (A :: m1) (W :: mo) (B :: m2) p q =
      ∑ s' ∈ Finset.range s, ∑ t' ∈ Finset.range t, sumIdx [a', i', k'] fun r =>
        A.get [s', p.getD 1 0, r.getD 1 0] * W.get [p.getD 0 0, r.getD 0 0, s', t'] * B.get [t', p.getD 2 0, r.getD 2 0] *
          chain ds es m1 mo m2 r q := by
    unfold chain
    rw [sumIdx_cons]
    refine Finset.sum_congr rfl fun s' _ => ?_
    simp only [sumIdx_cons]
    rw [sumIdx_sum]
    refine Finset.sum_congr rfl fun t' _ => ?_
    simp only [mpsProd, mpoProd, dA, dW, dB, sumIdx_nil, List.headD_cons, List.tail_cons, List.getD_cons_zero, List.getD_cons_succ]
    simp only [← sumIdx_mul_left, ← sumIdx_sum]
    refine sumIdx_congr fun σ _ => sumIdx_congr fun τ _ => ?_
    rw [Finset.sum_mul_sum, Finset.sum_mul]
    conv_rhs => rw [Finset.sum_comm]
    refine Finset.sum_congr rfl fun i _ => ?_
    rw [Finset.sum_mul_sum]
    refine Finset.sum_congr rfl fun a _ => ?_
    refine Finset.sum_congr rfl fun k _ => ?_
    ring
  rw [lhs]
  simp only [site, Finset.sum_mul]
  simp only [sumIdx_sum]

/-- The value of the contraction from the left with any left end. -/
theorem foldLeft_ok : ∀ {m1 mo m2 : List (Nd R)} {ds es : List ℕ} {a i k b j l : ℕ} {L : Nd R}, IsMps ds i j m1 → IsMpo ds es a b mo →
    IsMps es k l m2 → L.Wf → L.shape = [a, i, k] →
    ∃ Z, (m1.zip (mo.zip m2)).foldlM (fun L x => contractFromLeft L x.1 (some x.2.1) x.2.2) L = .ok Z ∧ Z.Wf ∧ Z.shape = [b, j, l] ∧
      ∀ q, Valid [b, j, l] q → Z.get q = sumIdx [a, i, k] fun p => L.get p * chain ds es m1 mo m2 p q := by
  intro m1
  induction m1 with
  | nil =>
    intro mo m2 ds es a i k b j l L h1 ho h2 hw hL
    match ds, es, mo, m2, h1, ho, h2 with
    | [], [], [], [], h1, ho, h2 =>
      cases h1; cases ho; cases h2
      refine ⟨L, rfl, hw, hL, fun q hq => ?_⟩
      obtain ⟨b', q, rfl, hb, hq⟩ := valid_cons_iff.1 hq
      obtain ⟨j', q, rfl, hj, hq⟩ := valid_cons_iff.1 hq
      obtain ⟨l', q, rfl, hl, hq⟩ := valid_cons_iff.1 hq
      obtain rfl := valid_nil_iff.1 hq
      simp [chain, mpsProd, mpoProd, sumIdx_cons, hb, hj, hl]
  | cons A m1 ih =>
    intro mo m2 ds es a i k b j l L h1 ho h2 hw hL
    match ds, es, mo, m2, h1, ho, h2 with
    | s :: ds, t :: es, W :: mo, B :: m2, ⟨i', hA, h1⟩, ⟨a', hW, ho⟩, ⟨k', hB, h2⟩ =>
      obtain ⟨L', e, w, sh, g⟩ := contractFromLeft_some hL hA hW hB
      obtain ⟨Z, e', w', sh', g'⟩ := ih h1 ho h2 w sh
      refine ⟨Z, ?_, w', sh', fun q hq => ?_⟩
      · simp only [List.zip_cons_cons, List.foldlM_cons, e, ok_bind, e']
      · rw [g' q hq]
        simp only [chain_cons hA hW hB, ← sumIdx_mul_left]
        rw [sumIdx_comm]
        refine sumIdx_congr fun r hr => ?_
        rw [g r hr, ← sumIdx_mul_right]
        exact sumIdx_congr fun p _ => by ring

/-- The value of the contraction from the right with any right end. -/
theorem foldRight_ok : ∀ {m1 mo m2 : List (Nd R)} {ds es : List ℕ} {a i k b j l : ℕ} {Rt : Nd R}, IsMps ds i j m1 →
    IsMpo ds es a b mo → IsMps es k l m2 → Rt.Wf → Rt.shape = [b, j, l] →
    ∃ Z, (m1.zip (mo.zip m2)).reverse.foldlM (fun Rt x => contractFromRight Rt x.1 (some x.2.1) x.2.2) Rt = .ok Z ∧ Z.Wf ∧
      Z.shape = [a, i, k] ∧
      ∀ p, Valid [a, i, k] p → Z.get p = sumIdx [b, j, l] fun q => chain ds es m1 mo m2 p q * Rt.get q := by
  intro m1
  induction m1 with
  | nil =>
    intro mo m2 ds es a i k b j l L h1 ho h2 hw hL
    match ds, es, mo, m2, h1, ho, h2 with
    | [], [], [], [], h1, ho, h2 =>
      cases h1; cases ho; cases h2
      refine ⟨L, rfl, hw, hL, fun q hq => ?_⟩
      obtain ⟨b', q, rfl, hb, hq⟩ := valid_cons_iff.1 hq
      obtain ⟨j', q, rfl, hj, hq⟩ := valid_cons_iff.1 hq
      obtain ⟨l', q, rfl, hl, hq⟩ := valid_cons_iff.1 hq
      obtain rfl := valid_nil_iff.1 hq
      simp [chain, mpsProd, mpoProd, sumIdx_cons, hb, hj, hl]
  | cons A m1 ih =>
    intro mo m2 ds es a i k b j l L h1 ho h2 hw hL
    match ds, es, mo, m2, h1, ho, h2 with
    | s :: ds, t :: es, W :: mo, B :: m2, ⟨i', hA, h1⟩, ⟨a', hW, ho⟩, ⟨k', hB, h2⟩ =>
      obtain ⟨Z, e', w', sh', g'⟩ := ih h1 ho h2 hw hL
      obtain ⟨L', e, w, sh, g⟩ := contractFromRight_some sh' hA hW hB
      refine ⟨L', ?_, w, sh, fun p hp => ?_⟩
      · simp only [List.zip_cons_cons, List.reverse_cons, List.foldlM_append, e', ok_bind, List.foldlM_cons, e, List.foldlM_nil]
        rfl
      · rw [g p hp]
        simp only [chain_cons hA hW hB, ← sumIdx_mul_right]
        rw [sumIdx_comm]
        refine sumIdx_congr fun r hr => ?_
        rw [g' r hr, ← sumIdx_mul_left]
        exact sumIdx_congr fun p _ => by ring

/-- The contribution of one site without operator. -/
def site2 (s : ℕ) (A B : Nd R) (p q : List ℕ) : R :=
  ∑ s' ∈ Finset.range s, A.get [s', p.getD 0 0, q.getD 0 0] * B.get [s', p.getD 1 0, q.getD 1 0]

theorem contractFromLeft_none {L A B : Nd R} {i j k l s : ℕ} (hL : L.shape = [i, k]) (hA : A.shape = [s, i, j])
    (hB : B.shape = [s, k, l]) :
    ∃ Z, contractFromLeft L A none B = .ok Z ∧ Z.Wf ∧ Z.shape = [j, l] ∧
      ∀ q, Valid [j, l] q → Z.get q = sumIdx [i, k] fun p => L.get p * site2 s A B p q := by
  obtain ⟨Z1, e1, w1, s1, g1⟩ := Nd.ein_left4 hA hL
  obtain ⟨Z2, e2, w2, s2, g2⟩ := Nd.ein_left5 s1 hB
  refine ⟨Z2, ?_, w2, s2, ?_⟩
  · simp only [contractFromLeft, e1, e2, ok_bind]
  · intro q hq
    obtain ⟨j', q, rfl, hj, hq⟩ := valid_cons_iff.1 hq
    obtain ⟨l', q, rfl, hl, hq⟩ := valid_cons_iff.1 hq
    obtain rfl := valid_nil_iff.1 hq
    rw [g2 j' hj l' hl]
    simp only [sumIdx_cons, sumIdx_nil, site2, Finset.mul_sum, List.getD_cons_zero, List.getD_cons_succ]
    rw [Finset.sum_comm]
    conv_rhs => rw [Finset.sum_comm]
    refine Finset.sum_congr rfl fun k' hk => ?_
    rw [Finset.sum_comm]
    refine Finset.sum_congr rfl fun s' hs => ?_
    rw [g1 s' (Finset.mem_range.1 hs) j' hj k' (Finset.mem_range.1 hk), Finset.sum_mul]
    refine Finset.sum_congr rfl fun i' _ => ?_
    ring

theorem contractFromRight_none {Rt A B : Nd R} {i j k l s : ℕ} (hR : Rt.shape = [j, l]) (hA : A.shape = [s, i, j])
    (hB : B.shape = [s, k, l]) :
    ∃ Z, contractFromRight Rt A none B = .ok Z ∧ Z.Wf ∧ Z.shape = [i, k] ∧
      ∀ p, Valid [i, k] p → Z.get p = sumIdx [j, l] fun q => site2 s A B p q * Rt.get q := by
  obtain ⟨Z1, e1, w1, s1, g1⟩ := Nd.ein_right4 hA hR
  obtain ⟨Z2, e2, w2, s2, g2⟩ := Nd.ein_right5 s1 hB
  refine ⟨Z2, ?_, w2, s2, ?_⟩
  · simp only [contractFromRight, e1, e2, ok_bind]
  · intro q hq
    obtain ⟨i', q, rfl, hi, hq⟩ := valid_cons_iff.1 hq
    obtain ⟨k', q, rfl, hk, hq⟩ := valid_cons_iff.1 hq
    obtain rfl := valid_nil_iff.1 hq
    rw [g2 i' hi k' hk]
    simp only [sumIdx_cons, sumIdx_nil, site2, Finset.sum_mul, List.getD_cons_zero, List.getD_cons_succ]
    rw [Finset.sum_comm]
    conv_rhs => rw [Finset.sum_comm]
    refine Finset.sum_congr rfl fun l' hl => ?_
    rw [Finset.sum_comm]
    refine Finset.sum_congr rfl fun s' hs => ?_
    rw [g1 s' (Finset.mem_range.1 hs) i' hi l' (Finset.mem_range.1 hl), Finset.sum_mul]
    refine Finset.sum_congr rfl fun j' _ => ?_
    ring

theorem overlap_cons {ds : List ℕ} {m1 m2 : List (Nd R)} {A B : Nd R} {i k i' k' s : ℕ}
    (hA : A.shape = [s, i, i']) (hB : B.shape = [s, k, k']) (p q : List ℕ) :
    overlap (s :: ds) (A :: m1) (B :: m2) p q = sumIdx [i', k'] fun r => site2 s A B p r * overlap ds m1 m2 r q := by
  have dA : A.dim 2 = i' := by simp [Nd.dim, hA]
  have dB : B.dim 2 = k' := by simp [Nd.dim, hB]
  simp only [site2, Finset.sum_mul]
  rw [sumIdx_sum]
  unfold overlap
  rw [sumIdx_cons]
  refine Finset.sum_congr rfl fun s' _ => ?_
  simp only [← sumIdx_mul_left]
  rw [sumIdx_comm]
  refine sumIdx_congr fun σ _ => ?_
  simp only [mpsProd, dA, dB, sumIdx_cons, sumIdx_nil, List.headD_cons, List.tail_cons, List.getD_cons_zero, List.getD_cons_succ]
  rw [Finset.sum_mul_sum]
  refine Finset.sum_congr rfl fun i _ => Finset.sum_congr rfl fun a _ => ?_
  ring

/-- The value of the contraction from the left without operator. -/
theorem foldLeft2_ok : ∀ {m1 m2 : List (Nd R)} {ds : List ℕ} {i k j l : ℕ} {L : Nd R}, IsMps ds i j m1 →
    IsMps ds k l m2 → L.Wf → L.shape = [i, k] →
    ∃ Z, (m1.zip m2).foldlM (fun L x => contractFromLeft L x.1 none x.2) L = .ok Z ∧ Z.Wf ∧ Z.shape = [j, l] ∧
      ∀ q, Valid [j, l] q → Z.get q = sumIdx [i, k] fun p => L.get p * overlap ds m1 m2 p q := by
  intro m1
  induction m1 with
  | nil =>
    intro m2 ds i k j l L h1 h2 hw hL
    match ds, m2, h1, h2 with
    | [], [], h1, h2 =>
      cases h1; cases h2
      refine ⟨L, rfl, hw, hL, fun q hq => ?_⟩
      obtain ⟨j', q, rfl, hj, hq⟩ := valid_cons_iff.1 hq
      obtain ⟨l', q, rfl, hl, hq⟩ := valid_cons_iff.1 hq
      obtain rfl := valid_nil_iff.1 hq
      simp [overlap, mpsProd, sumIdx_cons, hj, hl]
  | cons A m1 ih =>
    intro m2 ds i k j l L h1 h2 hw hL
    match ds, m2, h1, h2 with
    | s :: ds, B :: m2, ⟨i', hA, h1⟩, ⟨k', hB, h2⟩ =>
      obtain ⟨L', e, w, sh, g⟩ := contractFromLeft_none hL hA hB
      obtain ⟨Z, e', w', sh', g'⟩ := ih h1 h2 w sh
      refine ⟨Z, ?_, w', sh', fun q hq => ?_⟩
      · simp only [List.zip_cons_cons, List.foldlM_cons, e, ok_bind, e']
      · rw [g' q hq]
        simp only [overlap_cons hA hB, ← sumIdx_mul_left]
        rw [sumIdx_comm]
        refine sumIdx_congr fun r hr => ?_
        rw [g r hr, ← sumIdx_mul_right]
        exact sumIdx_congr fun p _ => by ring

/-- The value of the contraction from the right without operator. -/
theorem foldRight2_ok : ∀ {m1 m2 : List (Nd R)} {ds : List ℕ} {i k j l : ℕ} {Rt : Nd R}, IsMps ds i j m1 →
    IsMps ds k l m2 → Rt.Wf → Rt.shape = [j, l] →
    ∃ Z, (m1.zip m2).reverse.foldlM (fun Rt x => contractFromRight Rt x.1 none x.2) Rt = .ok Z ∧ Z.Wf ∧ Z.shape = [i, k] ∧
      ∀ p, Valid [i, k] p → Z.get p = sumIdx [j, l] fun q => overlap ds m1 m2 p q * Rt.get q := by
  intro m1
  induction m1 with
  | nil =>
    intro m2 ds i k j l L h1 h2 hw hL
    match ds, m2, h1, h2 with
    | [], [], h1, h2 =>
      cases h1; cases h2
      refine ⟨L, rfl, hw, hL, fun q hq => ?_⟩
      obtain ⟨j', q, rfl, hj, hq⟩ := valid_cons_iff.1 hq
      obtain ⟨l', q, rfl, hl, hq⟩ := valid_cons_iff.1 hq
      obtain rfl := valid_nil_iff.1 hq
      simp [overlap, mpsProd, sumIdx_cons, hj, hl]
  | cons A m1 ih =>
    intro m2 ds i k j l L h1 h2 hw hL
    match ds, m2, h1, h2 with
    | s :: ds, B :: m2, ⟨i', hA, h1⟩, ⟨k', hB, h2⟩ =>
      obtain ⟨Z, e', w', sh', g'⟩ := ih h1 h2 hw hL
      obtain ⟨L', e, w, sh, g⟩ := contractFromRight_none sh' hA hB
      refine ⟨L', ?_, w, sh, fun p hp => ?_⟩
      · simp only [List.zip_cons_cons, List.reverse_cons, List.foldlM_append, e', ok_bind, List.foldlM_cons, e, List.foldlM_nil]
        rfl
      · rw [g p hp]
        simp only [overlap_cons hA hB, ← sumIdx_mul_right]
        rw [sumIdx_comm]
        refine sumIdx_congr fun r hr => ?_
        rw [g' r hr, ← sumIdx_mul_left]
        exact sumIdx_congr fun p _ => by ring

theorem IsMps.length : ∀ {mps : List (Nd R)} {ds : List ℕ} {i j : ℕ}, IsMps ds i j mps → ds.length = mps.length
  | [], [], _, _, _ => rfl
  | _ :: _, _ :: _, _, _, ⟨_, _, h⟩ => by simp [IsMps.length h]
  | [], _ :: _, _, _, h => h.elim
  | _ :: _, [], _, _, h => h.elim

theorem IsMpo.length : ∀ {mpo : List (Nd R)} {ds es : List ℕ} {i j : ℕ}, IsMpo ds es i j mpo →
    ds.length = mpo.length ∧ es.length = mpo.length
  | [], [], [], _, _, _ => ⟨rfl, rfl⟩
  | _ :: _, _ :: _, _ :: _, _, _, ⟨_, _, h⟩ => by simp [IsMpo.length h]
  | [], _ :: _, es, _, _, h => by cases es <;> exact h.elim
  | [], [], _ :: _, _, _, h => h.elim
  | _ :: _, [], es, _, _, h => by cases es <;> exact h.elim
  | _ :: _, _ :: _, [], _, _, h => h.elim

theorem item_succ {α : Type} (x : α) (l : List α) (i : ℕ) : item (x :: l) (i + 1) = item l i := by simp [item]

theorem item_zero {α : Type} (x : α) (l : List α) : item (x :: l) 0 = .ok x := by simp [item]

/-- The loop of `mat_element` over the sites. -/
theorem loop3_eq {β : Type} (F : β → Nd R → Nd R → Nd R → Res β) : ∀ (m1 mo m2 : List (Nd R)) (z : β),
    m1.length = mo.length → m2.length = mo.length →
    (List.range mo.length).foldlM (fun L i => do
      let A ← item m1 i
      let W ← item mo i
      let B ← item m2 i
      F L A W B) z = (m1.zip (mo.zip m2)).foldlM (fun L x => F L x.1 x.2.1 x.2.2) z
  | [], [], [], z, _, _ => rfl
  | A :: m1, W :: mo, B :: m2, z, h1, h2 => by
    simp only [List.length_cons, List.range_succ_eq_map, List.foldlM_cons, List.foldlM_map, item_succ, item_zero, ok_bind,
      List.zip_cons_cons]
    congr 1
    funext y
    exact loop3_eq F m1 mo m2 y (by simpa using h1) (by simpa using h2)

theorem loop2_eq {β : Type} (F : β → Nd R → Nd R → Res β) : ∀ (m1 m2 : List (Nd R)) (z : β), m1.length = m2.length →
    (List.range m1.length).foldlM (fun L i => do
      let A ← item m1 i
      let B ← item m2 i
      F L A B) z = (m1.zip m2).foldlM (fun L x => F L x.1 x.2) z
  | [], [], z, _ => rfl
  | A :: m1, B :: m2, z, h1 => by
    simp only [List.length_cons, List.range_succ_eq_map, List.foldlM_cons, List.foldlM_map, item_succ, item_zero, ok_bind,
      List.zip_cons_cons]
    congr 1
    funext y
    exact loop2_eq F m1 m2 y (by simpa using h1)

theorem foldlM_ok_mem {α β : Type} (f : β → α → Res β) : ∀ (l : List α) (z y : β), l.foldlM f z = .ok y → ∀ x ∈ l, ∃ u v, f u x = .ok v
  | [], _, _, _, _, hx => by simp at hx
  | a :: l, z, y, h, x, hx => by
    rw [List.foldlM_cons] at h
    obtain ⟨w, e, h⟩ := bind_eq_ok.1 h
    rcases List.mem_cons.1 hx with rfl | hx
    · exact ⟨z, w, e⟩
    · exact foldlM_ok_mem f l w y h x hx

theorem item_ok {α : Type} {l : List α} {i : ℕ} {x : α} (h : item l i = .ok x) : i < l.length := by
  unfold item at h
  by_contra hc
  rw [List.getElem?_eq_none (by omega)] at h
  simp at h

end Dmrg
