import Verif.Lemmas.TreeSum2
import Verif.Lemmas.Moves

/-!
The array part of `partial_env`: multiplying the environments of the branches onto an array, then
tracing with another array.
-/

open scoped BigOperators
open Py

namespace TreeSum

variable {R : Type} [CommRing R]

/-- The value `e` of an environment (`none` is the identity) is the `n × m` matrix `E`. -/
def IsEnv (e : Option (Nd R)) (n m : ℕ) (E : ℕ → ℕ → R) : Prop :=
  match e with
  | none => n = m ∧ ∀ v < n, ∀ w < m, E v w = if v = w then 1 else 0
  | some M => M.Wf ∧ M.shape = [n, m] ∧ ∀ v < n, ∀ w < m, M.get [v, w] = E v w

/-- Dimensions of the axes of two arrays: `(0, k)` is axis `k` of `A`, `(1, k)` is axis `k` of `B`. -/
def dim2 (A B : Nd R) (p : ℕ × ℕ) : ℕ := if p.1 = 0 then A.shape.getD p.2 1 else B.shape.getD p.2 1

/-- The labels of the axes of `A`, after those in `S` have been multiplied. -/
def labs (S : List ℕ) (n : ℕ) : List (ℕ × ℕ) := (List.range n).map fun k => if k ∈ S then (1, k) else (0, k)

theorem sumOver_upd {κ : Type} [DecidableEq κ] {d : κ → ℕ} {L : List κ} {p : κ} (hp : p ∉ L) (g : (κ → ℕ) → R)
    (v : ℕ) (f : κ → ℕ) : sumOver d L (fun h => g (Nd.upd h p v)) f = sumOver d L g (Nd.upd f p v) := by
  induction L generalizing f with
  | nil => rfl
  | cons q L ih =>
    simp only [List.mem_cons, not_or] at hp
    simp only [sumOver]
    refine Finset.sum_congr rfl fun w _ => ?_
    rw [ih hp.2]
    congr 1
    funext x
    unfold Nd.upd
    by_cases h1 : x = p
    · subst h1; simp [hp.1]
    · simp [h1]

theorem Lab.relabel {κ : Type} [DecidableEq κ] {T : Nd R} {L₁ L₂ : List κ} {k k' : κ} {dim : κ → ℕ}
    {φ : (κ → ℕ) → R} (h : T.Lab (L₁ ++ k :: L₂) dim φ) (hk : k ∉ L₁ ++ L₂) (hd : dim k = dim k') :
    T.Lab (L₁ ++ k' :: L₂) dim (fun f => φ (Nd.upd f k (f k'))) := by
  simp only [List.mem_append, not_or] at hk
  refine ⟨h.wf, by rw [h.shape]; simp [hd], fun f hf => ?_⟩
  rw [← h.get]
  · simp only [List.map_append, List.map_cons, Nd.upd_self]
    rw [Nd.map_upd_of_notMem hk.1, Nd.map_upd_of_notMem hk.2]
  · intro x hx
    by_cases e : x = k
    · subst e; rw [Nd.upd_self, hd]; exact hf k' (by simp)
    · rw [Nd.upd_ne _ _ e]
      refine hf x ?_
      simp only [List.mem_append, List.mem_cons] at hx ⊢
      tauto

theorem labs_split {S : List ℕ} {n k : ℕ} (hk : k < n) :
    labs S n = (List.range k).map (fun l => if l ∈ S then (1, l) else (0, l)) ++
      (if k ∈ S then (1, k) else (0, k)) ::
        (List.range' (k + 1) (n - k - 1)).map (fun l => if l ∈ S then (1, l) else (0, l)) := by
  unfold labs
  rw [Heap.range_split hk]
  simp

theorem labs_cons {S : List ℕ} {n k : ℕ} (hk : k < n) :
    labs (k :: S) n = (List.range k).map (fun l => if l ∈ S then (1, l) else (0, l)) ++
      (1, k) :: (List.range' (k + 1) (n - k - 1)).map (fun l => if l ∈ S then (1, l) else (0, l)) := by
  rw [labs_split hk]
  congr 1
  · refine List.map_congr_left fun l hl => ?_
    have := List.mem_range.1 hl
    have : l ≠ k := by omega
    simp [this]
  · congr 1
    · simp
    · refine List.map_congr_left fun l hl => ?_
      have := List.mem_range'_1.1 hl
      have : l ≠ k := by omega
      simp [this]

/-- Multiplying one environment. -/
theorem step_env {A B T : Nd R} {S : List ℕ} {n k : ℕ} {φ : ((ℕ × ℕ) → ℕ) → R}
    (hT : T.Lab (labs S n) (dim2 A B) φ) (hk : k < n) (hS : k ∉ S) {e : Option (Nd R)} {E : ℕ → ℕ → R}
    (he : IsEnv e (A.shape.getD k 1) (B.shape.getD k 1) E) :
    ∃ T', Tensor.partialProduct T k e = .ok T' ∧ T'.Lab (labs (k :: S) n) (dim2 A B) (fun f =>
      ∑ v ∈ Finset.range (A.shape.getD k 1), φ (Nd.upd f (0, k) v) * E v (f (1, k))) := by
  rw [labs_split hk, if_neg hS] at hT
  rw [labs_cons hk]
  set L₁ := (List.range k).map (fun l => if l ∈ S then (1, l) else (0, l)) with h1
  set L₂ := (List.range' (k + 1) (n - k - 1)).map (fun l => if l ∈ S then (1, l) else (0, l)) with h2
  have hlen : L₁.length = k := by simp [h1]
  have hk1 : ((0, k) : ℕ × ℕ) ∉ L₁ ++ L₂ := by
    simp only [List.mem_append, h1, h2, List.mem_map, not_or, not_exists, not_and]
    constructor
    · intro l hl q
      have := List.mem_range.1 hl
      split at q <;> cases q; omega
    · intro l hl q
      have := List.mem_range'_1.1 hl
      split at q <;> cases q; omega
  have d0 : dim2 A B (0, k) = A.shape.getD k 1 := by simp [dim2]
  have d1 : dim2 A B (1, k) = B.shape.getD k 1 := by simp [dim2]
  cases e with
  | none =>
    obtain ⟨q1, q2⟩ := he
    refine ⟨T, rfl, (Lab.relabel hT hk1 (k' := (1, k)) (by rw [d0, d1, q1])).congr fun f hf => ?_⟩
    have hf1 : f (1, k) < B.shape.getD k 1 := by rw [← d1]; exact hf _ (by simp)
    rw [Finset.sum_eq_single (f (1, k))]
    · rw [q2 _ (by rw [q1]; exact hf1) _ hf1]; simp
    · intro v hv hne
      rw [q2 v (Finset.mem_range.1 hv) _ hf1, if_neg hne, mul_zero]
    · intro q; exact absurd (Finset.mem_range.2 (by rw [q1]; exact hf1)) q
  | some M =>
    obtain ⟨q1, q2, q3⟩ := he
    have hM : M.Lab ([] ++ ((0, k) : ℕ × ℕ) :: [(1, k)]) (dim2 A B) (fun f => E (f (0, k)) (f (1, k))) := by
      refine ⟨q1, by simp [q2, d0, d1], fun f hf => ?_⟩
      have a1 := hf (0, k) (by simp)
      have a2 := hf (1, k) (by simp)
      rw [d0] at a1
      rw [d1] at a2
      exact q3 _ a1 _ a2
    obtain ⟨C, c1, c2⟩ := Nd.Lab.partialProduct hT hM hk1 (by simp) rfl
    rw [hlen] at c1
    refine ⟨C, c1, ?_⟩
    rw [d0] at c2
    simp only [List.nil_append, List.append_assoc, List.singleton_append] at c2
    refine c2.congr fun f hf => Finset.sum_congr rfl fun v _ => ?_
    rw [Nd.upd_self, Nd.upd_ne _ _ (by simp)]

/-- Multiplying all environments. -/
theorem fold_env {A B T : Nd R} {S : List ℕ} {n : ℕ} {φ : ((ℕ × ℕ) → ℕ) → R}
    (hT : T.Lab (labs S n) (dim2 A B) φ) {env : List (ℕ × Option (Nd R))} {es : List (ℕ × (ℕ → ℕ → R))}
    (he : List.Forall₂ (fun p q => p.1 = q.1 ∧ IsEnv p.2 (A.shape.getD p.1 1) (B.shape.getD p.1 1) q.2) env es)
    (hlt : ∀ p ∈ es, p.1 < n) (hS : ∀ p ∈ es, p.1 ∉ S) (hn : (es.map Prod.fst).Nodup) :
    ∃ T', env.foldlM (fun a p => Tensor.partialProduct a p.1 p.2) T = .ok T' ∧
      T'.Lab (labs ((es.map Prod.fst).reverse ++ S) n) (dim2 A B) (fun f =>
        sumOver (dim2 A B) ((es.map Prod.fst).map fun k => (0, k)) (fun g =>
          φ g * (es.map fun p => p.2 (g (0, p.1)) (g (1, p.1))).prod) f) := by
  induction he generalizing T S φ with
  | nil =>
    refine ⟨T, rfl, ?_⟩
    simpa [sumOver] using hT
  | @cons p q env es hpq _ ih =>
    obtain ⟨k, e⟩ := p
    obtain ⟨k', E⟩ := q
    obtain ⟨rfl, hE⟩ := hpq
    simp only [List.map_cons, List.nodup_cons] at hn
    obtain ⟨T', t1, t2⟩ := step_env hT (hlt (k, E) List.mem_cons_self) (hS (k, E) List.mem_cons_self) hE
    obtain ⟨T'', t3, t4⟩ := ih t2 (fun p hp => hlt p (by simp [hp]))
      (fun p hp => by
        simp only [List.mem_cons, not_or]
        refine ⟨?_, hS p (by simp [hp])⟩
        rintro q
        exact hn.1 (List.mem_map.2 ⟨p, hp, q⟩)) hn.2
    refine ⟨T'', ?_, ?_⟩
    · rw [List.foldlM_cons]
      simp only [t1]
      exact t3
    · have el : (List.map Prod.fst ((k, E) :: es)).reverse ++ S = (List.map Prod.fst es).reverse ++ k :: S := by
        simp
      rw [el]
      refine t4.congr fun f hf => ?_
      simp only [List.map_cons, sumOver, List.prod_cons]
      have hk : ((0, k) : ℕ × ℕ) ∉ (es.map Prod.fst).map fun k => ((0 : ℕ), k) := by
        intro q
        obtain ⟨l, l1, l2⟩ := List.mem_map.1 q
        cases l2; exact hn.1 l1
      have d0 : dim2 A B (0, k) = A.shape.getD k 1 := by simp [dim2]
      rw [d0]
      rw [sumOver_congr (g' := fun g => ∑ v ∈ Finset.range (A.shape.getD k 1),
        (fun g => φ g * (E (g (0, k)) (g (1, k)) * (es.map fun p => p.2 (g (0, p.1)) (g (1, p.1))).prod)) (Nd.upd g (0, k) v)),
        sumOver_sum]
      · refine Finset.sum_congr rfl fun v _ => sumOver_upd hk (fun g => φ g *
          (E (g (0, k)) (g (1, k)) * (es.map fun p => p.2 (g (0, p.1)) (g (1, p.1))).prod)) v f
      · intro g _ _
        rw [Finset.sum_mul]
        refine Finset.sum_congr rfl fun v _ => ?_
        have e1 : (es.map fun p => p.2 (Nd.upd g (0, k) v (0, p.1)) (Nd.upd g (0, k) v (1, p.1))) =
            es.map fun p => p.2 (g (0, p.1)) (g (1, p.1)) := by
          refine List.map_congr_left fun p hp => ?_
          have hpk : p.1 ≠ k := fun q => hn.1 (List.mem_map.2 ⟨p, hp, q⟩)
          rw [Nd.upd_ne _ _ (by simpa using hpk), Nd.upd_ne _ _ (by simp)]
        simp only [e1, Nd.upd_self]
        rw [Nd.upd_ne (x := (1, k)) _ _ (by simp)]
        ring

/-- A sum over all multi-indices, by labels. -/
theorem sumIdx_eq_sumOver {κ : Type} [DecidableEq κ] (d : κ → ℕ) {L : List κ} (hL : L.Nodup) (g : List ℕ → R)
    (f : κ → ℕ) : sumIdx (L.map d) g = sumOver d L (fun h => g (L.map h)) f := by
  induction L generalizing g f with
  | nil => rfl
  | cons p L ih =>
    obtain ⟨h1, h2⟩ := List.nodup_cons.1 hL
    simp only [List.map_cons, sumIdx, sumOver]
    refine Finset.sum_congr rfl fun v _ => ?_
    rw [ih h2 _ (Nd.upd f p v)]
    refine sumOver_congr fun τ q1 _ => ?_
    rw [q1 p h1, Nd.upd_self]

/-- Sums over the axes of one tensor, keyed by half-edges or by axis numbers. -/
theorem sumOver_axes (d : ℕ × ℕ → ℕ) (t : ℕ) (K : List ℕ) (Φ : (ℕ → ℕ) → R) (σ : ℕ × ℕ → ℕ) :
    sumOver d (K.map fun k => (t, k)) (fun τ => Φ fun k => τ (t, k)) σ =
      sumOver (fun k => d (t, k)) K Φ fun k => σ (t, k) := by
  induction K generalizing σ with
  | nil => rfl
  | cons k K ih =>
    simp only [List.map_cons, sumOver, ih]
    refine Finset.sum_congr rfl fun v _ => ?_
    congr 1
    funext l
    by_cases hl : l = k
    · subst hl; simp
    · rw [Nd.upd_ne _ _ hl, Nd.upd_ne _ _ (by simpa using hl)]

/-- The recursive form of a contraction: over the axes `K` of both arrays. -/
def traceOver (A B : Nd R) (es : List (ℕ × (ℕ → ℕ → R))) (u w : ℕ → ℕ) : R :=
  sumOver (fun k => A.shape.getD k 1) (es.map Prod.fst) (fun u =>
    sumOver (fun k => B.shape.getD k 1) (es.map Prod.fst) (fun w =>
      A.get ((List.range A.ndim).map u) * (es.map fun p => p.2 (u p.1) (w p.1)).prod *
        B.get ((List.range B.ndim).map w)) w) u

theorem labs_full {n : ℕ} {K : List ℕ} (hK : ∀ k < n, k ∈ K) :
    labs K n = (List.range n).map fun k => (1, k) := by
  unfold labs
  refine List.map_congr_left fun k hk => ?_
  simp [hK k (List.mem_range.1 hk)]

/-- The part common to both kinds of trace. -/
theorem sum_ket {A B : Nd R} {es : List (ℕ × (ℕ → ℕ → R))} (f : ℕ × ℕ → ℕ) :
    sumOver (dim2 A B) ((es.map Prod.fst).map fun k => (0, k)) (fun g =>
      A.get ((List.range A.ndim).map fun k => g (0, k)) * (es.map fun p => p.2 (g (0, p.1)) (g (1, p.1))).prod) f =
    sumOver (fun k => A.shape.getD k 1) (es.map Prod.fst) (fun u =>
      A.get ((List.range A.ndim).map u) * (es.map fun p => p.2 (u p.1) (f (1, p.1))).prod) fun k => f (0, k) := by
  have h1 : sumOver (dim2 A B) ((es.map Prod.fst).map fun k => (0, k)) (fun g =>
      A.get ((List.range A.ndim).map fun k => g (0, k)) * (es.map fun p => p.2 (g (0, p.1)) (g (1, p.1))).prod) f =
      sumOver (dim2 A B) ((es.map Prod.fst).map fun k => (0, k)) (fun g =>
        (fun u : ℕ → ℕ => A.get ((List.range A.ndim).map u) * (es.map fun p => p.2 (u p.1) (f (1, p.1))).prod)
          fun k => g (0, k)) f := by
    refine sumOver_congr fun g q1 _ => ?_
    have : ∀ k, g (1, k) = f (1, k) := fun k => q1 _ (by simp)
    simp only [this]
  rw [h1, sumOver_axes (dim2 A B) 0 _
    (fun u : ℕ → ℕ => A.get ((List.range A.ndim).map u) * (es.map fun p => p.2 (u p.1) (f (1, p.1))).prod)]
  have : (fun k => dim2 A B (0, k)) = fun k => A.shape.getD k 1 := by funext k; simp [dim2]
  rw [this]

/-- Everything contracted. -/
theorem trace_none {A B : Nd R} (hA : A.Wf) (hAB : A.ndim = B.ndim) {env : List (ℕ × Option (Nd R))}
    {es : List (ℕ × (ℕ → ℕ → R))}
    (he : List.Forall₂ (fun p q => p.1 = q.1 ∧ IsEnv p.2 (A.shape.getD p.1 1) (B.shape.getD p.1 1) q.2) env es)
    (hK : es.map Prod.fst = List.range A.ndim) (u w : ℕ → ℕ) :
    ∃ T, env.foldlM (fun a p => Tensor.partialProduct a p.1 p.2) A = .ok T ∧
      Tensor.partialTrace T none B none = .ok ⟨[], [traceOver A B es u w]⟩ := by
  have hself := Nd.Lab.self hA
  have hA0 : A.Lab (labs [] A.ndim) (dim2 A B) (fun f => A.get ((List.range A.ndim).map fun k => f (0, k))) := by
    have h1 := Nd.Lab.map (dim := dim2 A B) (fun k : ℕ => ((0, k) : ℕ × ℕ))
      (hself.congr_dim fun k _ => by simp [dim2])
    have : labs [] A.ndim = (List.range A.ndim).map fun k => (0, k) := by simp [labs]
    rw [this]; exact h1
  have hmem : ∀ p ∈ es, p.1 < A.ndim := fun p hp => by
    have : p.1 ∈ es.map Prod.fst := List.mem_map.2 ⟨p, hp, rfl⟩
    rw [hK] at this; exact List.mem_range.1 this
  obtain ⟨T, t1, t2⟩ := fold_env hA0 he hmem (by simp) (by rw [hK]; exact List.nodup_range)
  refine ⟨T, t1, ?_⟩
  rw [List.append_nil, labs_full (by intro k hk; rw [List.mem_reverse, hK]; exact List.mem_range.2 hk)] at t2
  have hsh : T.shape = B.shape := by
    rw [t2.shape]
    refine List.ext_getElem (by simpa using hAB) fun k k1 k2 => ?_
    simp only [List.getElem_map, List.getElem_range, dim2]
    simp [k2]
  rw [Tensor.partialTrace_none_spec T B hsh]
  congr 3
  have hnd : ((List.range A.ndim).map fun k => ((1, k) : ℕ × ℕ)).Nodup :=
    Heap.nodup_map_of List.nodup_range (by simp)
  rw [t2.shape, sumIdx_eq_sumOver _ hnd _ (fun p => if p.1 = 0 then u p.2 else w p.2)]
  unfold traceOver
  rw [sumOver_swap]
  have e1 : ∀ (G : (ℕ → ℕ) → R), sumOver (fun k => B.shape.getD k 1) (es.map Prod.fst) G w =
      sumOver (dim2 A B) ((List.range A.ndim).map fun k => ((1, k) : ℕ × ℕ)) (fun τ => G fun k => τ (1, k))
        (fun p => if p.1 = 0 then u p.2 else w p.2) := by
    intro G
    rw [sumOver_axes, hK]
    have h1 : (fun k => dim2 A B (1, k)) = fun k => B.shape.getD k 1 := by funext k; simp [dim2]
    rw [h1]; rfl
  rw [e1]
  refine sumOver_congr fun f q1 q2 => ?_
  rw [t2.get f q2, sum_ket, sumOver_mul_right]
  have hf0 : (fun k => f (0, k)) = u := by
    funext k; rw [q1 _ (by simp)]; simp
  rw [hf0, List.map_map, hAB]
  rfl

/-- Everything but one axis contracted. -/
theorem trace_some {A B : Nd R} (hA : A.Wf) (hAB : A.ndim = B.ndim) (posA : ∀ d ∈ A.shape, 0 < d)
    (posB : ∀ d ∈ B.shape, 0 < d) {env : List (ℕ × Option (Nd R))} {es : List (ℕ × (ℕ → ℕ → R))}
    (he : List.Forall₂ (fun p q => p.1 = q.1 ∧ IsEnv p.2 (A.shape.getD p.1 1) (B.shape.getD p.1 1) q.2) env es)
    {j : ℕ} (hj : j < A.ndim) (hK : es.map Prod.fst = (List.range A.ndim).eraseIdx j) :
    ∃ T C, env.foldlM (fun a p => Tensor.partialProduct a p.1 p.2) A = .ok T ∧
      Tensor.partialTrace T (some j) B (some j) = .ok C ∧
      IsEnv (some C) (A.shape.getD j 1) (B.shape.getD j 1)
        (fun v w => traceOver A B es (Nd.upd (fun _ => 0) j v) (Nd.upd (fun _ => 0) j w)) := by
  have hself := Nd.Lab.self hA
  have hA0 : A.Lab (labs [] A.ndim) (dim2 A B) (fun f => A.get ((List.range A.ndim).map fun k => f (0, k))) := by
    have h1 := Nd.Lab.map (dim := dim2 A B) (fun k : ℕ => ((0, k) : ℕ × ℕ))
      (hself.congr_dim fun k _ => by simp [dim2])
    have : labs [] A.ndim = (List.range A.ndim).map fun k => (0, k) := by simp [labs]
    rw [this]; exact h1
  have hKe : (List.range A.ndim).eraseIdx j = List.range j ++ List.range' (j + 1) (A.ndim - j - 1) := by
    rw [Heap.range_split hj, List.eraseIdx_append_of_length_le (by simp)]
    simp
  have hmemK : ∀ k, k ∈ es.map Prod.fst ↔ k < A.ndim ∧ k ≠ j := by
    intro k
    rw [hK, hKe]
    simp only [List.mem_append, List.mem_range, List.mem_range'_1]
    omega
  have hnodup : (es.map Prod.fst).Nodup := by
    rw [hK]; exact List.nodup_range.sublist (List.eraseIdx_sublist _ _)
  have hmem : ∀ p ∈ es, p.1 < A.ndim := fun p hp => ((hmemK p.1).1 (List.mem_map.2 ⟨p, hp, rfl⟩)).1
  obtain ⟨T, t1, t2⟩ := fold_env hA0 he hmem (by simp) hnodup
  rw [List.append_nil] at t2
  set K := es.map Prod.fst with hKdef
  have hlabs : labs K.reverse A.ndim = (List.range j).map (fun k => ((1, k) : ℕ × ℕ)) ++ (0, j) ::
      (List.range' (j + 1) (A.ndim - j - 1)).map (fun k => (1, k)) := by
    rw [labs_split hj, if_neg (by rw [List.mem_reverse, hmemK]; simp)]
    congr 1
    · refine List.map_congr_left fun k hk => ?_
      have := List.mem_range.1 hk
      rw [if_pos (by rw [List.mem_reverse, hmemK]; omega)]
    · congr 1
      refine List.map_congr_left fun k hk => ?_
      have := List.mem_range'_1.1 hk
      rw [if_pos (by rw [List.mem_reverse, hmemK]; omega)]
  rw [hlabs] at t2
  set L₁ := (List.range j).map (fun k => ((1, k) : ℕ × ℕ)) with hL₁
  set L₂ := (List.range' (j + 1) (A.ndim - j - 1)).map (fun k => ((1, k) : ℕ × ℕ)) with hL₂
  have hl1 : L₁.length = j := by simp [hL₁]
  have hKmap : K.map (fun k => ((1, k) : ℕ × ℕ)) = L₁ ++ L₂ := by rw [hK, hKe, List.map_append]
  have nT : T.ndim = A.ndim := by
    rw [t2.ndim]; simp [hL₁, hL₂]; unfold Nd.ndim at *; omega
  have gT : T.shape.getD j 1 = A.shape.getD j 1 := by
    rw [t2.shape]
    have : (L₁.map (dim2 A B)).length = j := by simp [hl1]
    simp [hl1, dim2]
  have hTer : T.shape.eraseIdx j = (L₁ ++ L₂).map (dim2 A B) := by
    rw [t2.shape, List.map_append, List.map_cons, List.eraseIdx_append_of_length_le (by simp [hl1])]
    simp [hl1]
  have hBer : B.shape.eraseIdx j = (L₁ ++ L₂).map (dim2 A B) := by
    have h1 : B.shape = (List.range A.ndim).map fun k => B.shape.getD k 1 := by
      refine List.ext_getElem (by simpa using hAB.symm) fun k k1 k2 => ?_
      simp [k1]
    have h2 : ∀ l : List ℕ, ((l.map fun k => ((1, k) : ℕ × ℕ)).map (dim2 A B)) = l.map fun k => B.shape.getD k 1 := by
      intro l; rw [List.map_map]; rfl
    conv_lhs => rw [h1]
    rw [← Nd.map_eraseIdx, hKe, List.map_append, List.map_append, hL₁, hL₂, h2, h2]
  have p1 : A.shape.getD j 1 ≠ 0 := by
    rw [List.getD_eq_getElem _ _ hj]; exact (posA _ (List.getElem_mem hj)).ne'
  have hjB : j < B.ndim := by rw [← hAB]; exact hj
  have p2 : B.shape.getD j 1 ≠ 0 := by
    rw [List.getD_eq_getElem _ _ hjB]; exact (posB _ (List.getElem_mem hjB)).ne'
  obtain ⟨C, c1, c2, c3, c4⟩ := Tensor.partialTrace_spec T B (i := j) (j := j) (by rw [nT]; exact hj) hjB
    (by rw [hTer, hBer]) (by rw [gT]; exact p1) p2
  refine ⟨T, C, t1, c1, c2, by rw [c3, gT], fun v hv w hw => ?_⟩
  have hnd : (L₁ ++ L₂).Nodup := by rw [← hKmap]; exact Heap.nodup_map_of hnodup (by simp)
  rw [c4 v w (by rw [gT]; exact hv) hw, hTer, sumIdx_eq_sumOver _ hnd _
    (fun p => if p.1 = 0 then Nd.upd (fun _ => 0) j v p.2 else Nd.upd (fun _ => 0) j w p.2)]
  show _ = traceOver A B es _ _
  unfold traceOver
  rw [sumOver_swap, ← hKdef]
  have e1 : ∀ (G : (ℕ → ℕ) → R), sumOver (fun k => B.shape.getD k 1) K G (Nd.upd (fun _ => 0) j w) =
      sumOver (dim2 A B) (L₁ ++ L₂) (fun τ => G fun k => τ (1, k))
        (fun p => if p.1 = 0 then Nd.upd (fun _ => 0) j v p.2 else Nd.upd (fun _ => 0) j w p.2) := by
    intro G
    rw [← hKmap, sumOver_axes]
    have h1 : (fun k => dim2 A B (1, k)) = fun k => B.shape.getD k 1 := by funext k; simp [dim2]
    rw [h1]; rfl
  rw [e1]
  refine sumOver_congr fun f q1 q2 => ?_
  have hf0 : ∀ k, f (0, k) = Nd.upd (fun _ => 0) j v k := by
    intro k; rw [q1 _ (by simp [hL₁, hL₂])]; simp
  have hfj : f (1, j) = w := by
    rw [q1]
    · simp
    · simp [hL₁, hL₂]
  have eT : ((L₁ ++ L₂).map f).insertIdx j v = (L₁ ++ (0, j) :: L₂).map f := by
    rw [List.map_append, List.map_append, List.map_cons]
    have := Tensor.insertIdx_append_length (L₁.map f) (L₂.map f) v
    rw [List.length_map, hl1] at this
    rw [this, hf0, Nd.upd_self]
  have eB : ((L₁ ++ L₂).map f).insertIdx j w = (List.range B.ndim).map fun k => f (1, k) := by
    rw [← hAB, Heap.range_split hj]
    rw [List.map_append, List.map_append, List.map_cons]
    have := Tensor.insertIdx_append_length (L₁.map f) (L₂.map f) w
    rw [List.length_map, hl1] at this
    rw [this, hfj, hL₁, hL₂, List.map_map, List.map_map]
    rfl
  rw [eT, eB, t2.get f, sum_ket, sumOver_mul_right]
  · have : (fun k => f (0, k)) = Nd.upd (fun _ => 0) j v := funext hf0
    rw [this]
  · intro x hx
    simp only [List.mem_append, List.mem_cons] at hx
    rcases hx with hx | rfl | hx
    · exact q2 x (by simp [hx])
    · rw [hf0, Nd.upd_self]; simpa [dim2] using hv
    · exact q2 x (by simp [hx])

end TreeSum
