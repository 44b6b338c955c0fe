import Verif.Lemmas.DmrgDescent
import Verif.Lemmas.DmrgLimit
import Verif.Spec.DmrgTrunc

/-!
Lemmas on the truncation in DMRG.
-/

open scoped BigOperators
open Py

namespace Dmrg

/-- The Frobenius norm of a part of a singular value decomposition. -/
theorem gram {U V : ℕ → ℕ → ℝ} {s : ℕ → ℝ} {M N r : ℕ} (hU : ∀ z < r, ∀ w < r, ∑ x ∈ Finset.range M, U x z * U x w = if z = w then 1 else 0)
    (hV : ∀ z < r, ∀ w < r, ∑ y ∈ Finset.range N, V z y * V w y = if z = w then 1 else 0) {Z : Finset ℕ} (hZ : ∀ z ∈ Z, z < r) :
    ∑ x ∈ Finset.range M, ∑ y ∈ Finset.range N, (∑ z ∈ Z, U x z * s z * V z y) * (∑ z ∈ Z, U x z * s z * V z y) = ∑ z ∈ Z, s z ^ 2 := by
  have h1 : ∀ x y, (∑ z ∈ Z, U x z * s z * V z y) * (∑ z ∈ Z, U x z * s z * V z y) =
      ∑ z ∈ Z, ∑ w ∈ Z, s z * s w * ((U x z * U x w) * (V z y * V w y)) := by
    intro x y
    rw [Finset.sum_mul_sum]
    exact Finset.sum_congr rfl fun z _ => Finset.sum_congr rfl fun w _ => by ring
  simp only [h1]
  have h2 : ∑ x ∈ Finset.range M, ∑ y ∈ Finset.range N, ∑ z ∈ Z, ∑ w ∈ Z, s z * s w * ((U x z * U x w) * (V z y * V w y)) =
      ∑ z ∈ Z, ∑ w ∈ Z, s z * s w * ((∑ x ∈ Finset.range M, U x z * U x w) * ∑ y ∈ Finset.range N, V z y * V w y) := by
    have h3 : ∀ z w, s z * s w * ((∑ x ∈ Finset.range M, U x z * U x w) * ∑ y ∈ Finset.range N, V z y * V w y) =
        ∑ x ∈ Finset.range M, ∑ y ∈ Finset.range N, s z * s w * ((U x z * U x w) * (V z y * V w y)) := by
      intro z w
      rw [Finset.sum_mul_sum, Finset.mul_sum]
      exact Finset.sum_congr rfl fun x _ => Finset.mul_sum _ _ _
    simp only [h3]
    simp only [← Finset.sum_product']
    refine Finset.sum_bij' (fun t _ => (t.2.2.1, t.2.2.2, t.1, t.2.1)) (fun t _ => (t.2.2.1, t.2.2.2, t.1, t.2.1)) ?_ ?_ ?_ ?_ ?_ <;>
      first
        | (intro t ht; simp only [Finset.mem_product] at ht ⊢; tauto)
        | (intro t _; rfl)
  rw [h2]
  refine Finset.sum_congr rfl fun z hz => ?_
  rw [Finset.sum_eq_single z]
  · rw [hU z (hZ z hz) z (hZ z hz), hV z (hZ z hz) z (hZ z hz)]; simp; ring
  · intro w hw hne
    rw [hU z (hZ z hz) w (hZ w hw), if_neg (Ne.symm hne)]; simp
  · intro h; exact absurd hz h

/-- The squared norm of a pair tensor, as a matrix. -/
theorem inner_pair {C : Nd ℝ} {d1 d2 i k : ℕ} (hw : C.Wf) (hC : C.shape = [d1 * d2, i, k]) {g : ℕ → ℕ → ℝ}
    (h : ∀ s' < d1, ∀ t' < d2, ∀ i' < i, ∀ k' < k, C.get [s' * d2 + t', i', k'] = g (s' * i + i') (t' * k + k')) :
    inner C C = ∑ x ∈ Finset.range (d1 * i), ∑ y ∈ Finset.range (d2 * k), g x y * g x y := by
  rw [inner_eq hw hC hC]
  simp only [sumIdx_cons, sumIdx_nil, sum_pair]
  refine Finset.sum_congr rfl fun s' hs => ?_
  rw [Finset.sum_comm]
  refine Finset.sum_congr rfl fun i' hi => Finset.sum_congr rfl fun t' ht => Finset.sum_congr rfl fun k' hk => ?_
  rw [h _ (Finset.mem_range.1 hs) _ (Finset.mem_range.1 ht) _ (Finset.mem_range.1 hi) _ (Finset.mem_range.1 hk)]

/-- The pair after `fine_grain_mps` with truncation: the norm is that of the kept singular values, and so is the scalar product with the
pair before. -/
theorem fineGrain_trunc {svd : SvdFn ℝ} (hsvd : SvdShape svd) (hex : SvdExact svd) (hiso : SvdIso svd) {C : Nd ℝ} {d1 d2 i k : ℕ}
    (hw : C.Wf) (hC : C.shape = [d1 * d2, i, k]) (h1 : 0 < d1 * i) (h2 : 0 < d2 * k) (toRight : Bool) (trunc : ℕ) :
    ∃ E A B C', fineGrainMps svd C d1 d2 toRight trunc = .ok (A, B) ∧ E.Wf ∧ E.shape = [d1 * i, d2 * k] ∧
      (∀ s' < d1, ∀ t' < d2, ∀ i' < i, ∀ k' < k, E.get [s' * i + i', t' * k + k'] = C.get [s' * d2 + t', i', k']) ∧
      A.Wf ∧ A.shape = [d1, i, keptBond (min (d1 * i) (d2 * k)) trunc] ∧ B.Wf ∧
      B.shape = [d2, keptBond (min (d1 * i) (d2 * k)) trunc, k] ∧ coarseGrainMps A B = .ok C' ∧ C'.Wf ∧ C'.shape = [d1 * d2, i, k] ∧
      inner C C = ∑ z ∈ Finset.range (min (d1 * i) (d2 * k)), (svd E).2.1.getD z 0 ^ 2 ∧
      inner C' C' = ∑ z ∈ Finset.range (keptBond (min (d1 * i) (d2 * k)) trunc), (svd E).2.1.getD z 0 ^ 2 ∧
      (∀ D : Nd ℝ, D.Wf → D.shape = [d1 * d2, i, k] → (∀ p, Valid [d1 * d2, i, k] p → D.get p = C.get p - C'.get p) →
        inner D D = ∑ z ∈ Finset.Ico (keptBond (min (d1 * i) (d2 * k)) trunc) (min (d1 * i) (d2 * k)), (svd E).2.1.getD z 0 ^ 2) ∧
      (toRight = true → LeftCanonical A) ∧ (toRight = false → RightCanonical B) := by
  obtain ⟨E, A, B, e, wE, sE, gE, wA, sA, wB, sB, gA, gB⟩ := fineGrainMps_ok hsvd hC h1 h2 toRight trunc
  obtain ⟨C', e', wC', sC', gC'⟩ := coarseGrainMps_ok sA sB
  have hkr : keptBond (min (d1 * i) (d2 * k)) trunc ≤ min (d1 * i) (d2 * k) := by unfold keptBond; split <;> omega
  refine ⟨E, A, B, C', e, wE, sE, gE, wA, sA, wB, sB, e', wC', sC', ?_⟩
  generalize hm : keptBond (min (d1 * i) (d2 * k)) trunc = m at *
  have hU := fun z hz w hw => (hiso E _ _ wE sE z hz w hw).1
  have hV := fun z hz w hw => (hiso E _ _ wE sE z hz w hw).2
  have G := fun Z (hZ : ∀ z ∈ Z, z < min (d1 * i) (d2 * k)) => gram (U := fun x z => (svd E).1.get [x, z]) (V := fun z y => (svd E).2.2.get [z, y])
    (s := fun z => (svd E).2.1.getD z 0) hU hV (Z := Z) hZ
  have fC : ∀ s' < d1, ∀ t' < d2, ∀ i' < i, ∀ k' < k, C.get [s' * d2 + t', i', k'] =
      ∑ z ∈ Finset.range (min (d1 * i) (d2 * k)), (svd E).1.get [s' * i + i', z] * (svd E).2.1.getD z 0 * (svd E).2.2.get [z, t' * k + k'] := by
    intro s' hs t' ht i' hi k' hk
    rw [← gE _ hs _ ht _ hi _ hk, ← hex E _ _ wE sE _ (pair_lt hs hi) _ (pair_lt ht hk)]
  have fC' : ∀ s' < d1, ∀ t' < d2, ∀ i' < i, ∀ k' < k, C'.get [s' * d2 + t', i', k'] =
      ∑ z ∈ Finset.range m, (svd E).1.get [s' * i + i', z] * (svd E).2.1.getD z 0 * (svd E).2.2.get [z, t' * k + k'] := by
    intro s' hs t' ht i' hi k' hk
    rw [gC' _ hs _ ht _ hi _ hk]
    refine Finset.sum_congr rfl fun z hz => ?_
    rw [gA _ hs _ hi _ (Finset.mem_range.1 hz), gB _ ht _ (Finset.mem_range.1 hz) _ hk]
    cases toRight <;> simp [mul_assoc]
  refine ⟨?_, ?_, ?_, ?_, ?_⟩
  · rw [inner_pair hw hC (g := fun x y => ∑ z ∈ Finset.range (min (d1 * i) (d2 * k)), (svd E).1.get [x, z] * (svd E).2.1.getD z 0 * (svd E).2.2.get [z, y]) fC]
    exact G _ fun z hz => Finset.mem_range.1 hz
  · rw [inner_pair wC' sC' (g := fun x y => ∑ z ∈ Finset.range m, (svd E).1.get [x, z] * (svd E).2.1.getD z 0 * (svd E).2.2.get [z, y]) fC']
    exact G _ fun z hz => lt_of_lt_of_le (Finset.mem_range.1 hz) hkr
  · intro D wD sD gD
    rw [inner_pair wD sD (g := fun x y => ∑ z ∈ Finset.Ico m (min (d1 * i) (d2 * k)), (svd E).1.get [x, z] * (svd E).2.1.getD z 0 * (svd E).2.2.get [z, y])]
    · exact G _ fun z hz => (Finset.mem_Ico.1 hz).2
    · intro s' hs t' ht i' hi k' hk
      rw [gD _ (by simp [Valid, pair_lt hs ht, hi, hk]), fC _ hs _ ht _ hi _ hk, fC' _ hs _ ht _ hi _ hk, Finset.sum_Ico_eq_sub _ hkr]
  · rintro rfl
    have d0 : A.dim 0 = d1 := by simp [Nd.dim, sA]
    have d1' : A.dim 1 = i := by simp [Nd.dim, sA]
    have d2' : A.dim 2 = m := by simp [Nd.dim, sA]
    unfold LeftCanonical
    rw [d0, d1', d2']
    intro x hx y hy
    rw [← (hiso E _ _ wE sE x (by omega) y (by omega)).1, sum_pair]
    refine Finset.sum_congr rfl fun s' hs => Finset.sum_congr rfl fun i' hi => ?_
    rw [gA _ (Finset.mem_range.1 hs) _ (Finset.mem_range.1 hi) _ hx, gA _ (Finset.mem_range.1 hs) _ (Finset.mem_range.1 hi) _ hy]
    simp
  · rintro rfl
    have d0 : B.dim 0 = d2 := by simp [Nd.dim, sB]
    have d1' : B.dim 1 = m := by simp [Nd.dim, sB]
    have d2' : B.dim 2 = k := by simp [Nd.dim, sB]
    unfold RightCanonical
    rw [d0, d1', d2']
    intro x hx y hy
    rw [← (hiso E _ _ wE sE x (by omega) y (by omega)).2, sum_pair]
    refine Finset.sum_congr rfl fun t' ht => Finset.sum_congr rfl fun k' hk => ?_
    rw [gB _ (Finset.mem_range.1 ht) _ hx _ (Finset.mem_range.1 hk), gB _ (Finset.mem_range.1 ht) _ hy _ (Finset.mem_range.1 hk)]
    simp

/-- The products of matrices are linear in the end of the chain. -/
theorem mpsProd_sub : ∀ {X : List (Nd ℝ)} {dx : List ℕ} {i l : ℕ}, IsMps dx i l X → ∀ {Y Y₁ Y₂ : List (Nd ℝ)} {dy : List ℕ},
    (∀ m < l, ∀ σ, Valid dy σ → mpsProd Y σ m 0 = mpsProd Y₁ σ m 0 - mpsProd Y₂ σ m 0) →
    ∀ k < i, ∀ σ, Valid (dx ++ dy) σ → mpsProd (X ++ Y) σ k 0 = mpsProd (X ++ Y₁) σ k 0 - mpsProd (X ++ Y₂) σ k 0
  | [], [], _, _, h, _, _, _, _, H, k, hk, σ, hσ => by cases h; exact H k hk σ hσ
  | A :: X, d :: dx, i, l, ⟨m, hA, h⟩, Y, Y₁, Y₂, dy, H, k, hk, σ, hσ => by
    obtain ⟨s, τ, rfl, hs, hτ⟩ := valid_cons_iff.1 hσ
    simp only [List.cons_append, mpsProd]
    rw [← Finset.sum_sub_distrib]
    refine Finset.sum_congr rfl fun x hx => ?_
    have hx' : x < m := by simpa [Nd.dim, hA] using hx
    rw [List.tail_cons, mpsProd_sub h H x hx' τ hτ]
    ring
  | [], _ :: _, _, _, h, _, _, _, _, _, _, _, _, _ => h.elim
  | _ :: _, [], _, _, h, _, _, _, _, _, _, _, _, _ => h.elim

/-- The distance of two states that differ in a pair of matrices, the others being canonical. -/
theorem Centre.dist2 {ds : List ℕ} {c b : ℕ → ℕ} {mpo mps : List (Nd ℝ)} (hf : Fit ds c b mpo mps) {p m m' : ℕ} (hp : p + 1 < ds.length)
    (hc : Centre 2 p mps) {A B C A' B' C' D : Nd ℝ} (hA : A.shape = [ds.getD p 0, b p, m]) (hB : B.shape = [ds.getD (p + 1) 0, m, b (p + 2)])
    (eC : coarseGrainMps A B = .ok C) (hA' : A'.shape = [ds.getD p 0, b p, m']) (hB' : B'.shape = [ds.getD (p + 1) 0, m', b (p + 2)])
    (eC' : coarseGrainMps A' B' = .ok C') (wD : D.Wf) (sD : D.shape = [ds.getD p 0 * ds.getD (p + 1) 0, b p, b (p + 2)])
    (gD : ∀ q, Valid [ds.getD p 0 * ds.getD (p + 1) 0, b p, b (p + 2)] q → D.get q = C.get q - C'.get q) :
    distSq ds (mps.take p ++ A :: B :: mps.drop (p + 2)) (mps.take p ++ A' :: B' :: mps.drop (p + 2)) = inner D D := by
  have p1 : 0 < ds.getD p 0 * b p := Nat.mul_pos (hf.dpos p (by omega)) (hf.pos p (by omega))
  have p2 : 0 < ds.getD (p + 1) 0 * b (p + 2) := Nat.mul_pos (hf.dpos _ hp) (hf.pos _ (by omega))
  obtain ⟨A1, B1, m1, -, sA1, sB1, e1⟩ := C37_fine_grain_mps exSvd_shape exSvd_exact wD sD p1 p2 true 0 (Or.inl rfl)
  rw [← hc.norm2 hf hp sA1 sB1 e1]
  refine sumIdx_congr fun σ hσ => ?_
  have := mpsProd_sub (hf.left (k := p) (by omega)).1 (Y := A1 :: B1 :: mps.drop (p + 2)) (Y₁ := A :: B :: mps.drop (p + 2))
    (Y₂ := A' :: B' :: mps.drop (p + 2)) (dy := ds.getD p 0 :: ds.getD (p + 1) 0 :: ds.drop (p + 2)) (fun x hx τ hτ => by
      obtain ⟨s, τ, rfl, hs, hτ⟩ := valid_cons_iff.1 hτ
      obtain ⟨t, τ, rfl, ht, hτ⟩ := valid_cons_iff.1 hτ
      rw [mpsProd_pair hA hB eC _ hs ht hx τ, mpsProd_pair hA' hB' eC' _ hs ht hx τ, mpsProd_pair sA1 sB1 e1 _ hs ht hx τ, ← Finset.sum_sub_distrib]
      refine Finset.sum_congr rfl fun y hy => ?_
      rw [gD _ (valid3 (pair_lt hs ht) hx (Finset.mem_range.1 hy))]
      ring) 0 Nat.one_pos σ (by rwa [← split2 (getElem?_getD (show p < ds.length by omega)) (getElem?_getD hp)])
  unfold amplitude
  rw [this]
  ring

/-- What the eigensolver does at one site, compared with any unit vector. -/
theorem optOneSite_least {eig : EigFn ℝ} (hg : EigGround eig) {L W Rt A : Nd ℝ} {a b d l r : ℕ} (hL : L.shape = [a, l, l])
    (hW : W.shape = [a, b, d, d]) (hR : Rt.shape = [b, r, r]) (hw : A.Wf) (hA : A.shape = [d, l, r]) (hpos : 0 < d * l * r)
    (hsym : ∀ u v : Nd ℝ, u.Wf → u.shape = [d, l, r] → v.Wf → v.shape = [d, l, r] → form a b d l r L W Rt u v = form a b d l r L W Rt v u) :
    ∃ V, optOneSite eig L W Rt A = .ok V ∧ V.Wf ∧ V.shape = [d, l, r] ∧ inner V V = 1 ∧
      ∀ U : Nd ℝ, U.Wf → U.shape = [d, l, r] → inner U U = 1 → form a b d l r L W Rt V V ≤ form a b d l r L W Rt U U := by
  have hE : EnvShape L W Rt d l r := ⟨a, b, hL, hW, hR⟩
  have wfs : ∀ u : Nd ℝ, IsVec (d * l * r) u → (⟨[d, l, r], u.data⟩ : Nd ℝ).Wf := by
    intro u hu
    have := hu.1
    unfold Nd.Wf at this ⊢
    rw [this, hu.2]; simp [mul_assoc]
  obtain ⟨hv, h1, hmin⟩ := hg L W Rt (flatten A) d l r hE hpos (flatten_vec hw hA) (by
    intro u v hu hv
    rw [effective_eq hL hW hR hu hv, effective_eq hL hW hR hv hu]
    exact hsym _ _ (wfs _ hv) rfl (wfs _ hu) rfl)
  refine ⟨⟨[d, l, r], (eig L W Rt (flatten A)).data⟩, ?_, wfs _ hv, rfl, h1, fun U wU sU hn => ?_⟩
  · have eF : flatten A = ⟨[[d, l, r].prod], A.data⟩ := by rw [flatten, hA]
    rw [eF] at hv ⊢
    unfold optOneSite ioShape
    simp only [hL, hW, hR, item, List.getElem?_cons_zero, List.getElem?_cons_succ, ok_bind]
    have e1 : A.reshape [[d, l, r].prod] = .ok ⟨[[d, l, r].prod], A.data⟩ := by
      rw [Nd.reshape, if_pos]; rw [hA]; simp
    simp only [pure_bind, e1, ok_bind]
    rw [Nd.reshape, if_pos]
    rw [hv.2]; simp [mul_assoc]
  · have := hmin (flatten U) (flatten_vec wU sU) hn
    rw [effective_eq hL hW hR hv hv, effective_eq hL hW hR (flatten_vec wU sU) (flatten_vec wU sU), unflatten sU] at this
    exact this

/-- The bond dimension at the right end of a chain is determined by the chain. -/
theorem isMps_rest : ∀ {X : List (Nd ℝ)} {dx : List ℕ} {i l : ℕ}, IsMps dx i l X → ∀ {Y : List (Nd ℝ)} {dy : List ℕ} {k : ℕ},
    IsMps (dx ++ dy) i k (X ++ Y) → IsMps dy l k Y
  | [], [], _, _, h, _, _, _, H => by cases h; exact H
  | A :: X, d :: dx, i, l, ⟨m, hA, h⟩, Y, dy, k, ⟨m', hA', H⟩ => by
    rw [hA] at hA'
    simp only [List.cons.injEq, and_true, true_and] at hA'
    subst hA'
    exact isMps_rest h H
  | [], _ :: _, _, _, h, _, _, _, _ => h.elim
  | _ :: _, [], _, _, h, _, _, _, _ => h.elim

theorem isMps_append : ∀ {X : List (Nd ℝ)} {dx : List ℕ} {i l : ℕ}, IsMps dx i l X → ∀ {Y : List (Nd ℝ)} {dy : List ℕ} {k : ℕ},
    IsMps dy l k Y → IsMps (dx ++ dy) i k (X ++ Y)
  | [], [], _, _, h, _, _, _, H => by cases h; exact H
  | A :: X, d :: dx, i, l, ⟨m, hA, h⟩, Y, dy, k, H => ⟨m, hA, isMps_append h H⟩
  | [], _ :: _, _, _, h, _, _, _, _ => h.elim
  | _ :: _, [], _, _, h, _, _, _, _ => h.elim

/-- The shapes of a pair that fits into the chain. -/
theorem Fit.pair {ds : List ℕ} {c b : ℕ → ℕ} {mpo mps : List (Nd ℝ)} (hf : Fit ds c b mpo mps) {p : ℕ} (hp : p + 1 < ds.length) {A₂ B₂ : Nd ℝ}
    (hI' : IsMps ds 1 1 (mps.take p ++ A₂ :: B₂ :: mps.drop (p + 2))) :
    ∃ m, A₂.shape = [ds.getD p 0, b p, m] ∧ B₂.shape = [ds.getD (p + 1) 0, m, b (p + 2)] := by
  have eds := split2 (getElem?_getD (show p < ds.length by omega)) (getElem?_getD hp)
  rw [eds] at hI'
  obtain ⟨m₂, sA₂, k₂, sB₂, hZ⟩ := isMps_rest (hf.left (k := p) (by omega)).1 hI'
  have hk : k₂ = b (p + 2) := by
    have hr := (hf.right (k := p + 2) (by omega)).1
    by_cases hl : p + 2 < ds.length
    · have gZ := List.getElem?_eq_getElem (show p + 2 < mps.length by rw [hf.mps.1]; omega)
      have sZ := hf.mps.2 (p + 2) _ gZ
      rw [List.drop_eq_getElem_cons (show p + 2 < mps.length by rw [hf.mps.1]; omega), List.drop_eq_getElem_cons hl] at hZ
      obtain ⟨_, h1, -⟩ := hZ
      rw [sZ] at h1
      simp only [List.cons.injEq] at h1
      exact h1.2.1.symm
    · have e1 : mps.drop (p + 2) = [] := List.drop_eq_nil_of_le (by rw [hf.mps.1]; omega)
      have e2 : ds.drop (p + 2) = [] := List.drop_eq_nil_of_le (by omega)
      rw [e1, e2] at hZ hr
      have h1 : k₂ = 1 := hZ
      have h2 : b (p + 2) = 1 := hr
      omega
  subst hk
  exact ⟨m₂, sA₂, sB₂⟩

/-- The optimized pair, compared with any other pair. -/
theorem opt2_least {eig : EigFn ℝ} (hg : EigGround eig) {ds : List ℕ} {c b : ℕ → ℕ} {mpo mps : List (Nd ℝ)} (hs : Symmetric ds mpo)
    (hf : Fit ds c b mpo mps) {p : ℕ} (hp : p + 1 < ds.length) (hc : Centre 2 p mps) {L Rt W X Y A B C : Nd ℝ} (hL : LeftOf mpo mps p L)
    (hR : RightOf mpo mps (p + 2) Rt) (hW : mpo[p]? = some W) (hX : mpo[p + 1]? = some X) (hA : mps[p]? = some A) (hB : mps[p + 1]? = some B)
    (eC : coarseGrainMps A B = .ok C) (eY : coarseGrainMpo W X = .ok Y) :
    ∃ V, optOneSite eig L Y Rt C = .ok V ∧ V.Wf ∧ V.shape = [ds.getD p 0 * ds.getD (p + 1) 0, b p, b (p + 2)] ∧ inner V V = 1 ∧
      ∀ (A' B' : Nd ℝ) (m : ℕ), A'.shape = [ds.getD p 0, b p, m] → B'.shape = [ds.getD (p + 1) 0, m, b (p + 2)] →
        coarseGrainMps A' B' = .ok V → PairOptimum ds mpo mps p (mps.take p ++ A' :: B' :: mps.drop (p + 2)) := by
  have sL := (hL.env hf (by omega)).1
  have sR := (hR.env hf (by omega)).1
  have sW := hf.mpo.2 p W hW
  have sX := hf.mpo.2 (p + 1) X hX
  have sA := hf.mps.2 p A hA
  have sB := hf.mps.2 (p + 1) B hB
  have vL := hL.get hf (by omega)
  have vR := hR.get hf (by omega)
  obtain ⟨_, e, wC, sC, -⟩ := coarseGrainMps_ok sA sB
  rw [eC] at e; cases e
  obtain ⟨_, e, wY, sY, -⟩ := coarseGrainMpo_ok sW sX
  rw [eY] at e; cases e
  have p1 : 0 < ds.getD p 0 * b p := Nat.mul_pos (hf.dpos p (by omega)) (hf.pos p (by omega))
  have p2 : 0 < ds.getD (p + 1) 0 * b (p + 2) := Nat.mul_pos (hf.dpos _ hp) (hf.pos _ (by omega))
  have pos : 0 < ds.getD p 0 * ds.getD (p + 1) 0 * b p * b (p + 2) := by
    have := Nat.mul_pos p1 p2
    calc 0 < _ := this
      _ = _ := by ring
  obtain ⟨V, eV, wV, sV, nV, mV⟩ := optOneSite_least hg sL sY sR wC sC pos (by
    intro u v wu hu wv hv
    obtain ⟨A1, B1, m1, -, sA1, sB1, e1⟩ := C37_fine_grain_mps exSvd_shape exSvd_exact wu hu p1 p2 true 0 (Or.inl rfl)
    obtain ⟨A2, B2, m2, -, sA2, sB2, e2⟩ := C37_fine_grain_mps exSvd_shape exSvd_exact wv hv p1 p2 true 0 (Or.inl rfl)
    rw [← chain_pair hf hp vL vR hW hX eY sA1 sB1 sA2 sB2 e1 e2, ← chain_pair hf hp vL vR hW hX eY sA2 sB2 sA1 sB1 e2 e1]
    exact chain_symm hs _ _)
  have eds := split2 (getElem?_getD (show p < ds.length by omega)) (getElem?_getD hp)
  refine ⟨V, eV, wV, sV, nV, fun A' B' m sA' sB' e' => ⟨?_, ⟨A', B', rfl⟩, by rw [hc.norm2 hf hp sA' sB' e', nV], fun A₂ B₂ hI hn => ?_⟩⟩
  · rw [eds]
    exact isMps_append (hf.left (k := p) (by omega)).1 ⟨m, sA', b (p + 2), sB', (hf.right (k := p + 2) (by omega)).1⟩
  · obtain ⟨m₂, sA₂, sB₂⟩ := hf.pair hp hI
    obtain ⟨U, eU, wU, sU, -⟩ := coarseGrainMps_ok sA₂ sB₂
    have hU1 : inner U U = 1 := by rw [← hc.norm2 hf hp sA₂ sB₂ eU, hn]
    have := mV U wU sU hU1
    rw [← chain_pair hf hp vL vR hW hX eY sA' sB' sA' sB' e' e', ← chain_pair hf hp vL vR hW hX eY sA₂ sB₂ sA₂ sB₂ eU eU] at this
    exact this

/-- The state is what truncation makes of an optimized state. -/
def Cut (ds : List ℕ) (mpo mps : List (Nd ℝ)) (q : ℕ) : Prop :=
  ∃ φ, PairOptimum ds mpo mps q φ ∧ distSq ds φ mps = 1 - normSq ds mps

/-- Optimizing and splitting a pair. -/
theorem cut_step {svd : SvdFn ℝ} (hsvd : SvdShape svd) (hex : SvdExact svd) (hiso : SvdIso svd) {ds : List ℕ} {c b : ℕ → ℕ}
    {mpo mps : List (Nd ℝ)} (hf : Fit ds c b mpo mps) {p : ℕ} (hp : p + 1 < ds.length) (hc : Centre 2 p mps) {V : Nd ℝ} (wV : V.Wf)
    (sV : V.shape = [ds.getD p 0 * ds.getD (p + 1) 0, b p, b (p + 2)]) (nV : inner V V = 1)
    (H : ∀ (A' B' : Nd ℝ) (m : ℕ), A'.shape = [ds.getD p 0, b p, m] → B'.shape = [ds.getD (p + 1) 0, m, b (p + 2)] →
      coarseGrainMps A' B' = .ok V → PairOptimum ds mpo mps p (mps.take p ++ A' :: B' :: mps.drop (p + 2))) (toRight : Bool) (trunc : ℕ) :
    ∃ A B m, fineGrainMps svd V (ds.getD p 0) (ds.getD (p + 1) 0) toRight trunc = .ok (A, B) ∧ A.Wf ∧ A.shape = [ds.getD p 0, b p, m] ∧
      B.Wf ∧ B.shape = [ds.getD (p + 1) 0, m, b (p + 2)] ∧ (0 < trunc → m ≤ trunc) ∧ (toRight = true → LeftCanonical A) ∧
      (toRight = false → RightCanonical B) ∧ normSq ds (mps.take p ++ A :: B :: mps.drop (p + 2)) ≤ 1 ∧
      Cut ds mpo (mps.take p ++ A :: B :: mps.drop (p + 2)) p := by
  have p1 : 0 < ds.getD p 0 * b p := Nat.mul_pos (hf.dpos p (by omega)) (hf.pos p (by omega))
  have p2 : 0 < ds.getD (p + 1) 0 * b (p + 2) := Nat.mul_pos (hf.dpos _ hp) (hf.pos _ (by omega))
  obtain ⟨E, A, B, C', e, -, -, -, wA, sA, wB, sB, eC', wC', sC', nC, nC', nD, cA, cB⟩ := fineGrain_trunc hsvd hex hiso wV sV p1 p2 toRight trunc
  obtain ⟨A0, B0, m0, -, sA0, sB0, e0⟩ := C37_fine_grain_mps exSvd_shape exSvd_exact wV sV p1 p2 true 0 (Or.inl rfl)
  have hkr : keptBond (min (ds.getD p 0 * b p) (ds.getD (p + 1) 0 * b (p + 2))) trunc ≤ min (ds.getD p 0 * b p) (ds.getD (p + 1) 0 * b (p + 2)) := by
    unfold keptBond; split <;> omega
  have lm := hf.mps.1
  have hn := hc.norm2 hf hp sA sB eC'
  have hd := hc.dist2 hf hp sA0 sB0 e0 sA sB eC' (D := Nd.ofFn [ds.getD p 0 * ds.getD (p + 1) 0, b p, b (p + 2)] fun q => V.get q - C'.get q)
    (Nd.ofFn_wf _ _) rfl fun q hq => Nd.get_ofFn _ hq
  rw [nD _ (Nd.ofFn_wf _ _) rfl fun q hq => Nd.get_ofFn _ hq] at hd
  have hsum := Finset.sum_range_add_sum_Ico (fun z => (svd E).2.1.getD z 0 ^ 2) hkr
  rw [← nC, ← nC', nV, ← hn] at hsum
  have hpos : 0 ≤ ∑ z ∈ Finset.Ico (keptBond (min (ds.getD p 0 * b p) (ds.getD (p + 1) 0 * b (p + 2))) trunc)
      (min (ds.getD p 0 * b p) (ds.getD (p + 1) 0 * b (p + 2))), (svd E).2.1.getD z 0 ^ 2 := Finset.sum_nonneg fun z _ => sq_nonneg _
  refine ⟨A, B, _, e, wA, sA, wB, sB, fun ht => ?_, cA, cB, by linarith, mps.take p ++ A0 :: B0 :: mps.drop (p + 2), ?_, by rw [hd]; linarith⟩
  · unfold keptBond; rw [if_pos (by omega)]; omega
  · obtain ⟨h1, h2, h3, h4⟩ := H A0 B0 m0 sA0 sB0 e0
    have et : (mps.take p ++ A :: B :: mps.drop (p + 2)).take p = mps.take p := take_pair0 (by omega) _
    have ed : (mps.take p ++ A :: B :: mps.drop (p + 2)).drop (p + 2) = mps.drop (p + 2) := by
      rw [drop_pair (by omega)]; rfl
    unfold PairOptimum
    rw [et, ed]
    exact ⟨h1, ⟨A0, B0, rfl⟩, h3, h4⟩

/-- What is kept along the sweeps with truncation. -/
structure GoodT (ds : List ℕ) (p : ℕ) (st : State ℝ) : Prop where
  wf : ∀ A ∈ st.mps, A.Wf
  centre : Centre 2 p st.mps
  norm : normSq ds st.mps ≤ 1
  nlog : ∀ e ∈ st.log, normSq ds e.2.2.2 ≤ 1

/-- The bond dimension left of the site `k`. -/
def bond (mps : List (Nd ℝ)) (k : ℕ) : ℕ := (mps.getD k ⟨[], []⟩).dim 1

theorem bond_set2 {ds : List ℕ} {c b : ℕ → ℕ} {mpo mps : List (Nd ℝ)} (hf : Fit ds c b mpo mps) {p m : ℕ} (hp : p + 1 < ds.length)
    {A B : Nd ℝ} (sA : A.shape = [ds.getD p 0, b p, m]) (sB : B.shape = [ds.getD (p + 1) 0, m, b (p + 2)]) (k : ℕ) :
    bond (mps.take p ++ A :: B :: mps.drop (p + 2)) k = if k = p + 1 then m else bond mps k := by
  have lm := hf.mps.1
  unfold bond
  rw [← set2 (by omega)]
  simp only [List.getD_eq_getElem?_getD, List.getElem?_set, List.length_set]
  by_cases h1 : k = p + 1
  · subst h1
    rw [if_pos rfl, if_pos rfl, if_pos (by omega)]
    simp [Nd.dim, sB]
  · rw [if_neg (Ne.symm h1), if_neg h1]
    by_cases h2 : k = p
    · subst h2
      have gA := List.getElem?_eq_getElem (show k < mps.length by omega)
      have hA := hf.mps.2 k _ gA
      rw [if_pos rfl, if_pos (by omega), gA]
      simp [Nd.dim, sA, hA]
    · rw [if_neg (Ne.symm h2)]

theorem GoodT.step {ds : List ℕ} {p q i : ℕ} {st : State ℝ} (h : GoodT ds p st) {mps ls rs : List (Nd ℝ)} {L Rt : Nd ℝ}
    (wf : ∀ A ∈ mps, A.Wf) (hc : Centre 2 q mps) (hn : normSq ds mps ≤ 1) : GoodT ds q ⟨mps, ls, rs, st.log ++ [(i, L, Rt, st.mps)]⟩ := by
  refine ⟨wf, hc, hn, fun e hmem => ?_⟩
  rcases List.mem_append.1 hmem with hmem | hmem
  · exact h.nlog e hmem
  · obtain rfl := List.mem_singleton.1 hmem
    exact h.norm

theorem right2_trunc {svd : SvdFn ℝ} {eig : EigFn ℝ} (hsvd : SvdShape svd) (hex : SvdExact svd) (hiso : SvdIso svd) (he : EigSize eig)
    (hg : EigGround eig) {ds : List ℕ} {mpo : List (Nd ℝ)} (hs : Symmetric ds mpo) (trunc : ℕ) {p : ℕ} {st : State ℝ}
    (hinv : Inv ds mpo 2 p st) (hgood : GoodT ds p st) (hp : p + 2 < ds.length) :
    ∃ st', right2 svd eig mpo trunc st p = .ok st' ∧ Inv ds mpo 2 (p + 1) st' ∧ GoodT ds (p + 1) st' ∧ Cut ds mpo st'.mps p ∧
      (∀ k, k ≠ p + 1 → bond st'.mps k = bond st.mps k) ∧ (0 < trunc → bond st'.mps (p + 1) ≤ trunc) := by
  obtain ⟨st₂, e₂, hinv₂, -⟩ := right2_ok hsvd he trunc hinv hp
  refine ⟨st₂, e₂, hinv₂, ?_⟩
  obtain ⟨⟨c, b, hf⟩, hls, hrs, hlog⟩ := hinv
  have lm := hf.mps.1
  have lo := hf.mpo.1
  obtain ⟨L, ls, els, hL⟩ := hls.top
  obtain ⟨Rt, rs, ers, hR, hrs'⟩ := hrs.pop (by omega)
  have sL := (hL.env hf (by omega)).1
  have gA := List.getElem?_eq_getElem (show p < st.mps.length by omega)
  have gN := List.getElem?_eq_getElem (show p + 1 < st.mps.length by omega)
  have gW := List.getElem?_eq_getElem (show p < mpo.length by omega)
  have gX := List.getElem?_eq_getElem (show p + 1 < mpo.length by omega)
  have hA := hf.mps.2 p _ gA
  have hN := hf.mps.2 (p + 1) _ gN
  have hW := hf.mpo.2 p _ gW
  have hX := hf.mpo.2 (p + 1) _ gX
  obtain ⟨C, eC, wC, sC, -⟩ := coarseGrainMps_ok hA hN
  obtain ⟨Y, eY, wY, sY, -⟩ := coarseGrainMpo_ok hW hX
  obtain ⟨V, eV, wV, sV, nV, H⟩ := opt2_least hg hs hf (by omega) hgood.centre hL hR gW gX gA gN eC eY
  obtain ⟨A', N', m, eM, wA', sA', wN', sN', hm, cA', -, hn, hcut⟩ := cut_step hsvd hex hiso hf (by omega) hgood.centre wV sV nV H true trunc
  obtain ⟨L', eL, wL', sL', -⟩ := contractFromLeft_some sL sA' hW sA'
  have d1 : item (st.mps[p]'(by omega)).shape 0 = .ok (ds.getD p 0) := by simp [hA, item]
  have d2 : item (st.mps[p + 1]'(by omega)).shape 0 = .ok (ds.getD (p + 1) 0) := by simp [hN, item]
  have e : right2 svd eig mpo trunc st p =
      .ok ⟨(st.mps.set p A').set (p + 1) N', L' :: st.ls, rs, st.log ++ [(p, L, Rt, st.mps)]⟩ := by
    unfold right2
    simp only [els, ers, top, pop, ok_bind, item_some (show p < mpo.length by omega), item_some (show p < st.mps.length by omega),
      item_some (show p + 1 < st.mps.length by omega), item_some (show p + 1 < mpo.length by omega), d1, d2, eC, eY, eV, eM, eL]
    rfl
  rw [e₂] at e
  cases e
  have hb := bond_set2 hf (show p + 1 < ds.length by omega) sA' sN'
  rw [set2 (by omega)]
  refine ⟨hgood.step (forall_set2 hgood.wf wA' wN') ⟨?_, ?_⟩ hn, hcut, fun k hk => ?_, fun ht => ?_⟩
  · rw [take_pair (by omega)]
    intro A hmem
    rcases List.mem_append.1 hmem with hmem | hmem
    · exact hgood.centre.left A hmem
    · obtain rfl := List.mem_singleton.1 hmem; exact cA' rfl
  · rw [show p + 1 + 2 = p + (2 + 1) by omega, drop_pair (by omega)]
    simp only [List.drop_succ_cons, List.drop_drop]
    exact drop_tail hgood.centre.right (by omega)
  · dsimp only; rw [hb, if_neg hk]
  · dsimp only; rw [hb, if_pos rfl]; exact hm ht

theorem left2_trunc {svd : SvdFn ℝ} {eig : EigFn ℝ} (hsvd : SvdShape svd) (hex : SvdExact svd) (hiso : SvdIso svd) (he : EigSize eig)
    (hg : EigGround eig) {ds : List ℕ} {mpo : List (Nd ℝ)} (hs : Symmetric ds mpo) (trunc : ℕ) {p : ℕ} {st : State ℝ}
    (hinv : Inv ds mpo 2 (p + 1) st) (hgood : GoodT ds (p + 1) st) (hp : p + 2 < ds.length) :
    ∃ st', left2 svd eig mpo trunc st (p + 2) = .ok st' ∧ Inv ds mpo 2 p st' ∧ GoodT ds p st' ∧ Cut ds mpo st'.mps (p + 1) ∧
      (∀ k, k ≠ p + 2 → bond st'.mps k = bond st.mps k) ∧ (0 < trunc → bond st'.mps (p + 2) ≤ trunc) := by
  obtain ⟨st₂, e₂, hinv₂, -⟩ := left2_ok hsvd he trunc hinv hp
  refine ⟨st₂, e₂, hinv₂, ?_⟩
  obtain ⟨⟨c, b, hf⟩, hls, hrs, hlog⟩ := hinv
  have lm := hf.mps.1
  have lo := hf.mpo.1
  obtain ⟨L, ls, els, hL, hls'⟩ := hls.pop
  obtain ⟨Rt, rs, ers, hR⟩ := hrs.top
  have sR := (hR.env hf (by omega)).1
  have gA := List.getElem?_eq_getElem (show p + 1 < st.mps.length by omega)
  have gN := List.getElem?_eq_getElem (show p + 2 < st.mps.length by omega)
  have gW := List.getElem?_eq_getElem (show p + 1 < mpo.length by omega)
  have gX := List.getElem?_eq_getElem (show p + 2 < mpo.length by omega)
  have hA := hf.mps.2 (p + 1) _ gA
  have hN := hf.mps.2 (p + 2) _ gN
  have hW := hf.mpo.2 (p + 1) _ gW
  have hX := hf.mpo.2 (p + 2) _ gX
  obtain ⟨C, eC, wC, sC, -⟩ := coarseGrainMps_ok hA hN
  obtain ⟨Y, eY, wY, sY, -⟩ := coarseGrainMpo_ok hW hX
  obtain ⟨V, eV, wV, sV, nV, H⟩ := opt2_least hg hs hf hp hgood.centre hL hR gW gX gA gN eC eY
  obtain ⟨A', N', m, eM, wA', sA', wN', sN', hm, -, cN', hn, hcut⟩ := cut_step hsvd hex hiso hf hp hgood.centre wV sV nV H false trunc
  obtain ⟨R', eR, wR', sR', -⟩ := contractFromRight_some sR sN' hX sN'
  have d1 : item (st.mps[p + 1]'(by omega)).shape 0 = .ok (ds.getD (p + 1) 0) := by simp [hA, item]
  have d2 : item (st.mps[p + 2]'(by omega)).shape 0 = .ok (ds.getD (p + 2) 0) := by simp [hN, item]
  have e : left2 svd eig mpo trunc st (p + 2) =
      .ok ⟨(st.mps.set (p + 1) A').set (p + 2) N', ls, R' :: st.rs, st.log ++ [(p + 1, L, Rt, st.mps)]⟩ := by
    unfold left2
    simp only [els, ers, top, pop, ok_bind, item_some (show p + 1 < mpo.length by omega), item_some (show p + 2 < st.mps.length by omega),
      item_some (show p + 1 < st.mps.length by omega), item_some (show p + 2 < mpo.length by omega), d1, d2, eC, eY, eV, eM, eR,
      show p + 2 - 1 = p + 1 from rfl]
    rfl
  rw [e₂] at e
  cases e
  have hb := bond_set2 hf hp sA' sN'
  rw [set2 (p := p + 1) (by omega)]
  refine ⟨hgood.step (forall_set2 hgood.wf wA' wN') ⟨?_, ?_⟩ hn, hcut, fun k hk => ?_, fun ht => ?_⟩
  · refine take_tail (p := p + 1) ?_ (by omega)
    rw [take_pair0 (by omega)]
    exact hgood.centre.left
  · rw [show p + 2 = (p + 1) + (0 + 1) by omega, drop_pair (by omega)]
    intro A hmem
    rcases List.mem_cons.1 hmem with rfl | hmem
    · exact cN' rfl
    · exact hgood.centre.right A hmem
  · dsimp only; rw [hb, if_neg hk]
  · dsimp only; rw [hb, if_pos rfl]; exact hm ht

/-- One sweep with truncation. -/
theorem sweep2_trunc {svd : SvdFn ℝ} {eig : EigFn ℝ} (hsvd : SvdShape svd) (hex : SvdExact svd) (hiso : SvdIso svd) (he : EigSize eig)
    (hg : EigGround eig) {ds : List ℕ} {mpo : List (Nd ℝ)} (hs : Symmetric ds mpo) (trunc : ℕ) {st : State ℝ} (hinv : Inv ds mpo 2 0 st)
    (hgood : GoodT ds 0 st) (hd : 2 ≤ ds.length) :
    ∃ st', sweep2 svd eig mpo trunc st = .ok st' ∧ Inv ds mpo 2 0 st' ∧ GoodT ds 0 st' ∧
      (2 < ds.length → Cut ds mpo st'.mps 1 ∧ (0 < trunc → ∀ k, 0 < k → k < ds.length → bond st'.mps k ≤ trunc)) := by
  obtain ⟨c, b, hf⟩ := hinv.fit
  have lo := hf.mpo.1
  obtain ⟨st1, e1, h1⟩ := loopR
    (P := fun p st => Inv ds mpo 2 p st ∧ GoodT ds p st ∧ (0 < trunc → ∀ k, 0 < k → k ≤ p → bond st.mps k ≤ trunc))
    (fun p st h hp => by
      obtain ⟨st', e, h1, h2, -, h3, h4⟩ := right2_trunc hsvd hex hiso he hg hs trunc h.1 h.2.1 hp
      refine ⟨st', e, h1, h2, fun ht k hk hkp => ?_⟩
      by_cases hk' : k = p + 1
      · subst hk'; exact h4 ht
      · rw [h3 k hk']; exact h.2.2 ht k hk (by omega)) ⟨hinv, hgood, fun _ k hk hk' => by omega⟩ (ds.length - 2) (by omega)
  obtain ⟨st2, e2, h2⟩ := loopL
    (P := fun p st => Inv ds mpo 2 p st ∧ GoodT ds p st ∧ (p < ds.length - 2 → Cut ds mpo st.mps (p + 1)) ∧
      (0 < trunc → ∀ k, 0 < k → k < ds.length → (k ≤ ds.length - 2 ∨ p + 2 ≤ k) → bond st.mps k ≤ trunc))
    (fun p st h hp => by
      obtain ⟨st', e, h1, h2, h5, h3, h4⟩ := left2_trunc hsvd hex hiso he hg hs trunc h.1 h.2.1 hp
      refine ⟨st', e, h1, h2, fun _ => h5, fun ht k hk hkn hkp => ?_⟩
      by_cases hk' : k = p + 2
      · subst hk'; exact h4 ht
      · rw [h3 k hk']; exact h.2.2.2 ht k hk hkn (by omega))
    (ds.length - 2) st1 ⟨h1.1, h1.2.1, fun h => by omega, fun ht k hk hkn hkp => h1.2.2 ht k hk (by omega)⟩ (by omega)
  refine ⟨st2, ?_, h2.1, h2.2.1, fun h3 => ⟨h2.2.2.1 (by omega), fun ht k hk hkn => h2.2.2.2 ht k hk hkn (by omega)⟩⟩
  obtain ⟨c1, b1, hf1⟩ := h1.1.fit
  unfold sweep2
  rw [lo, e1, ok_bind, range_filter, hf1.mps.1]
  exact e2

end Dmrg
