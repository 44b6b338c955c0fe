import Verif.Lemmas.DmrgMove
import Verif.Props.C123
import Mathlib.Tactic.Linarith

/-!
One step of DMRG does not raise the energy.
-/

open scoped BigOperators
open Py

namespace Dmrg

section
variable {R : Type} [CommRing R]

/-- Replacing the end of a chain by one with the same products of matrices. -/
theorem mpsProd_congr : ∀ {X : List (Nd R)} {dx : List ℕ} {i l : ℕ}, IsMps dx i l X → ∀ {Y Y' : List (Nd R)} {dy : List ℕ},
    (∀ m < l, ∀ σ, Valid dy σ → mpsProd Y σ m 0 = mpsProd Y' σ m 0) →
    ∀ k < i, ∀ σ, Valid (dx ++ dy) σ → mpsProd (X ++ Y) σ k 0 = mpsProd (X ++ Y') σ k 0
  | [], [], _, _, h, _, _, _, H, k, hk, σ, hσ => by cases h; exact H k hk σ hσ
  | A :: X, d :: dx, i, l, ⟨m, hA, h⟩, Y, Y', dy, H, k, hk, σ, hσ => by
    obtain ⟨s, τ, rfl, hs, hτ⟩ := valid_cons_iff.1 hσ
    simp only [List.cons_append, mpsProd]
    refine Finset.sum_congr rfl fun x hx => ?_
    have hx' : x < m := by simpa [Nd.dim, hA] using hx
    rw [List.tail_cons, mpsProd_congr h H x hx' τ hτ]
  | [], _ :: _, _, _, h, _, _, _, _, _, _, _, _ => h.elim
  | _ :: _, [], _, _, h, _, _, _, _, _, _, _, _ => h.elim

theorem mpsProd_pair {A B C : Nd R} {d1 d2 i j k : ℕ} (hA : A.shape = [d1, i, j]) (hB : B.shape = [d2, j, k]) (eC : coarseGrainMps A B = .ok C)
    (Z : List (Nd R)) {s t x : ℕ} (hs : s < d1) (ht : t < d2) (hx : x < i) (σ : List ℕ) :
    mpsProd (A :: B :: Z) (s :: t :: σ) x 0 = ∑ y ∈ Finset.range k, C.get [s * d2 + t, x, y] * mpsProd Z σ y 0 := by
  obtain ⟨_, e, -, -, gC⟩ := coarseGrainMps_ok hA hB
  rw [eC] at e; cases e
  simp only [mpsProd, List.headD_cons, List.tail_cons, show A.dim 2 = j by simp [Nd.dim, hA], show B.dim 2 = k by simp [Nd.dim, hB]]
  simp only [Finset.mul_sum]
  rw [Finset.sum_comm]
  refine Finset.sum_congr rfl fun y hy => ?_
  rw [gC s hs t ht x hx y (Finset.mem_range.1 hy), Finset.sum_mul]
  exact Finset.sum_congr rfl fun z _ => by ring

/-- The amplitudes depend on a pair of matrices only through their product. -/
theorem amplitude_pair {X Z : List (Nd R)} {dx dz : List ℕ} {d1 d2 i j j' k : ℕ} (hX : IsMps dx 1 i X) {A B A' B' C : Nd R}
    (hA : A.shape = [d1, i, j]) (hB : B.shape = [d2, j, k]) (hA' : A'.shape = [d1, i, j']) (hB' : B'.shape = [d2, j', k])
    (e : coarseGrainMps A B = .ok C) (e' : coarseGrainMps A' B' = .ok C) {σ : List ℕ} (hσ : Valid (dx ++ d1 :: d2 :: dz) σ) :
    amplitude (X ++ A :: B :: Z) σ = amplitude (X ++ A' :: B' :: Z) σ := by
  refine mpsProd_congr hX (fun m hm τ hτ => ?_) 0 Nat.one_pos σ hσ
  obtain ⟨s, τ, rfl, hs, hτ⟩ := valid_cons_iff.1 hτ
  obtain ⟨t, τ, rfl, ht, hτ⟩ := valid_cons_iff.1 hτ
  rw [mpsProd_pair hA hB e Z hs ht hm τ, mpsProd_pair hA' hB' e' Z hs ht hm τ]

theorem energy_congr {ds : List ℕ} {mpo mps mps' : List (Nd R)} (h : ∀ σ, Valid ds σ → amplitude mps σ = amplitude mps' σ) :
    energy ds mpo mps = energy ds mpo mps' :=
  sumIdx_congr fun σ hσ => sumIdx_congr fun τ hτ => by rw [h σ hσ, h τ hτ]

theorem normSq_congr {ds : List ℕ} {mps mps' : List (Nd R)} (h : ∀ σ, Valid ds σ → amplitude mps σ = amplitude mps' σ) :
    normSq ds mps = normSq ds mps' :=
  sumIdx_congr fun σ hσ => by rw [h σ hσ]

theorem Fit.swap {ds : List ℕ} {c b : ℕ → ℕ} {mpo mps : List (Nd R)} (h : Fit ds c b mpo mps) {p m m' : ℕ} (hp : p + 1 < ds.length)
    {A B A' B' C : Nd R} (hA : A.shape = [ds.getD p 0, b p, m]) (hB : B.shape = [ds.getD (p + 1) 0, m, b (p + 2)])
    (hA' : A'.shape = [ds.getD p 0, b p, m']) (hB' : B'.shape = [ds.getD (p + 1) 0, m', b (p + 2)])
    (e : coarseGrainMps A B = .ok C) (e' : coarseGrainMps A' B' = .ok C) :
    energy ds mpo (mps.take p ++ A :: B :: mps.drop (p + 2)) = energy ds mpo (mps.take p ++ A' :: B' :: mps.drop (p + 2)) ∧
      normSq ds (mps.take p ++ A :: B :: mps.drop (p + 2)) = normSq ds (mps.take p ++ A' :: B' :: mps.drop (p + 2)) := by
  have H : ∀ σ, Valid ds σ → amplitude (mps.take p ++ A :: B :: mps.drop (p + 2)) σ = amplitude (mps.take p ++ A' :: B' :: mps.drop (p + 2)) σ := by
    intro σ hσ
    refine amplitude_pair (dz := ds.drop (p + 2)) (h.left (k := p) (by omega)).1 hA hB hA' hB' e e' ?_
    rwa [← split2 (getElem?_getD (show p < ds.length by omega)) (getElem?_getD hp)]
  exact ⟨energy_congr H, normSq_congr H⟩

theorem chain_symm {ds : List ℕ} {mpo : List (Nd R)} (h : Symmetric ds mpo) (X Y : List (Nd R)) :
    chain ds ds X mpo Y [0, 0, 0] [0, 0, 0] = chain ds ds Y mpo X [0, 0, 0] [0, 0, 0] := by
  unfold chain
  rw [sumIdx_comm]
  refine sumIdx_congr fun σ hσ => sumIdx_congr fun τ hτ => ?_
  have := h σ τ hσ hτ
  simp only [List.getD_cons_zero, List.getD_cons_succ]
  unfold operator at this
  rw [this]
  ring

end

/-- The window of the sites `p`, ..., `p + w - 1`: the matrices outside are canonical. -/
structure Centre (w p : ℕ) (mps : List (Nd ℝ)) : Prop where
  left : ∀ A ∈ mps.take p, LeftCanonical A
  right : ∀ A ∈ mps.drop (p + w), RightCanonical A

theorem Centre.norm1 {ds : List ℕ} {c b : ℕ → ℕ} {mpo mps : List (Nd ℝ)} (hf : Fit ds c b mpo mps) {p : ℕ} (hp : p < ds.length)
    (hc : Centre 1 p mps) {u : Nd ℝ} (hu : u.Wf) (su : u.shape = [ds.getD p 0, b p, b (p + 1)]) :
    normSq ds (mps.take p ++ u :: mps.drop (p + 1)) = inner u u := by
  have h := overlap_middle (hf.left (k := p) (by omega)).1 (hf.right (k := p + 1) (by omega)).1 hc.left hc.right (M := [u])
    (dm := [ds.getD p 0]) ⟨_, su, rfl⟩
  rw [overlap_one hu su] at h
  simp only [List.singleton_append] at h
  rw [← split1 (getElem?_getD hp)] at h
  exact h

theorem Centre.norm2 {ds : List ℕ} {c b : ℕ → ℕ} {mpo mps : List (Nd ℝ)} (hf : Fit ds c b mpo mps) {p m : ℕ} (hp : p + 1 < ds.length)
    (hc : Centre 2 p mps) {A B C : Nd ℝ} (hA : A.shape = [ds.getD p 0, b p, m]) (hB : B.shape = [ds.getD (p + 1) 0, m, b (p + 2)])
    (eC : coarseGrainMps A B = .ok C) :
    normSq ds (mps.take p ++ A :: B :: mps.drop (p + 2)) = inner C C := by
  have h := overlap_middle (hf.left (k := p) (by omega)).1 (hf.right (k := p + 2) (by omega)).1 hc.left hc.right (M := [A, B])
    (dm := [ds.getD p 0, ds.getD (p + 1) 0]) ⟨_, hA, _, hB, rfl⟩
  rw [overlap_two hA hB eC] at h
  simp only [List.cons_append, List.nil_append] at h
  rw [← split2 (getElem?_getD (show p < ds.length by omega)) (getElem?_getD hp)] at h
  exact h

/-- What the eigensolver does at one site. -/
theorem optOneSite_ground {eig : EigFn ℝ} (hg : EigGround eig) {L W Rt A : Nd ℝ} {a b d l r : ℕ} (hL : L.shape = [a, l, l])
    (hW : W.shape = [a, b, d, d]) (hR : Rt.shape = [b, r, r]) (hw : A.Wf) (hA : A.shape = [d, l, r]) (hpos : 0 < d * l * r)
    (hsym : ∀ u v : Nd ℝ, u.Wf → u.shape = [d, l, r] → v.Wf → v.shape = [d, l, r] → form a b d l r L W Rt u v = form a b d l r L W Rt v u) :
    ∃ V, optOneSite eig L W Rt A = .ok V ∧ V.Wf ∧ V.shape = [d, l, r] ∧ inner V V = 1 ∧
      (inner A A = 1 → form a b d l r L W Rt V V ≤ form a b d l r L W Rt A A) := by
  have hE : EnvShape L W Rt d l r := ⟨a, b, hL, hW, hR⟩
  have wfs : ∀ u : Nd ℝ, IsVec (d * l * r) u → (⟨[d, l, r], u.data⟩ : Nd ℝ).Wf := by
    intro u hu
    have := hu.1
    unfold Nd.Wf at this ⊢
    rw [this, hu.2]; simp [mul_assoc]
  obtain ⟨hv, h1, hmin⟩ := hg L W Rt (flatten A) d l r hE hpos (flatten_vec hw hA) (by
    intro u v hu hv
    rw [effective_eq hL hW hR hu hv, effective_eq hL hW hR hv hu]
    exact hsym _ _ (wfs _ hv) rfl (wfs _ hu) rfl)
  refine ⟨⟨[d, l, r], (eig L W Rt (flatten A)).data⟩, ?_, wfs _ hv, rfl, h1, fun hn => ?_⟩
  · have eF : flatten A = ⟨[[d, l, r].prod], A.data⟩ := by rw [flatten, hA]
    rw [eF] at hv ⊢
    unfold optOneSite ioShape
    simp only [hL, hW, hR, item, List.getElem?_cons_zero, List.getElem?_cons_succ, ok_bind]
    have e1 : A.reshape [[d, l, r].prod] = .ok ⟨[[d, l, r].prod], A.data⟩ := by
      rw [Nd.reshape, if_pos]; rw [hA]; simp
    simp only [pure_bind, e1, ok_bind]
    rw [Nd.reshape, if_pos]
    rw [hv.2]; simp [mul_assoc]
  · have := hmin (flatten A) (flatten_vec hw hA) hn
    rw [effective_eq hL hW hR hv hv, effective_eq hL hW hR (flatten_vec hw hA) (flatten_vec hw hA), unflatten hA] at this
    exact this

theorem opt1 {eig : EigFn ℝ} (hg : EigGround eig) {ds : List ℕ} {c b : ℕ → ℕ} {mpo mps : List (Nd ℝ)} (hs : Symmetric ds mpo)
    (hf : Fit ds c b mpo mps) {p : ℕ} (hp : p < ds.length) (hc : Centre 1 p mps) {L Rt W A : Nd ℝ} (hL : LeftOf mpo mps p L)
    (hR : RightOf mpo mps (p + 1) Rt) (hW : mpo[p]? = some W) (hA : mps[p]? = some A) (hw : A.Wf) (hn : normSq ds mps = 1) :
    ∃ V, optOneSite eig L W Rt A = .ok V ∧ V.Wf ∧ V.shape = [ds.getD p 0, b p, b (p + 1)] ∧
      normSq ds (mps.take p ++ V :: mps.drop (p + 1)) = 1 ∧
      energy ds mpo (mps.take p ++ V :: mps.drop (p + 1)) ≤ energy ds mpo mps := by
  have sL := (hL.env hf (by omega)).1
  have sR := (hR.env hf (by omega)).1
  have sW := hf.mpo.2 p W hW
  have sA := hf.mps.2 p A hA
  have vL := hL.get hf (by omega)
  have vR := hR.get hf (by omega)
  have key := fun (u v : Nd ℝ) (hu : u.shape = [ds.getD p 0, b p, b (p + 1)]) (hv : v.shape = [ds.getD p 0, b p, b (p + 1)]) =>
    chain_site hf hp vL vR hW hu hv
  have pos : 0 < ds.getD p 0 * b p * b (p + 1) :=
    Nat.mul_pos (Nat.mul_pos (hf.dpos p hp) (hf.pos p (by omega))) (hf.pos _ (by omega))
  obtain ⟨V, eV, wV, sV, nV, mV⟩ := optOneSite_ground hg sL sW sR hw sA pos (by
    intro u v _ hu _ hv
    rw [← key u v hu hv, ← key v u hv hu]
    exact chain_symm hs _ _)
  refine ⟨V, eV, wV, sV, by rw [hc.norm1 hf hp wV sV, nV], ?_⟩
  have e0 := split1 hA
  have hA1 : inner A A = 1 := by rw [← hc.norm1 hf hp hw sA, ← e0, hn]
  have := mV hA1
  rw [← key V V sV sV, ← key A A sA sA, ← e0] at this
  exact this

theorem opt2 {eig : EigFn ℝ} (hg : EigGround eig) {ds : List ℕ} {c b : ℕ → ℕ} {mpo mps : List (Nd ℝ)} (hs : Symmetric ds mpo)
    (hf : Fit ds c b mpo mps) {p : ℕ} (hp : p + 1 < ds.length) (hc : Centre 2 p mps) {L Rt W X Y A B C : Nd ℝ} (hL : LeftOf mpo mps p L)
    (hR : RightOf mpo mps (p + 2) Rt) (hW : mpo[p]? = some W) (hX : mpo[p + 1]? = some X) (hA : mps[p]? = some A) (hB : mps[p + 1]? = some B)
    (eC : coarseGrainMps A B = .ok C) (eY : coarseGrainMpo W X = .ok Y) (hn : normSq ds mps = 1) :
    ∃ V, optOneSite eig L Y Rt C = .ok V ∧ V.Wf ∧ V.shape = [ds.getD p 0 * ds.getD (p + 1) 0, b p, b (p + 2)] ∧
      ∀ (A' B' : Nd ℝ) (m : ℕ), A'.shape = [ds.getD p 0, b p, m] → B'.shape = [ds.getD (p + 1) 0, m, b (p + 2)] →
        coarseGrainMps A' B' = .ok V → normSq ds (mps.take p ++ A' :: B' :: mps.drop (p + 2)) = 1 ∧
          energy ds mpo (mps.take p ++ A' :: B' :: mps.drop (p + 2)) ≤ energy ds mpo mps := by
  have sL := (hL.env hf (by omega)).1
  have sR := (hR.env hf (by omega)).1
  have sW := hf.mpo.2 p W hW
  have sX := hf.mpo.2 (p + 1) X hX
  have sA := hf.mps.2 p A hA
  have sB := hf.mps.2 (p + 1) B hB
  have vL := hL.get hf (by omega)
  have vR := hR.get hf (by omega)
  obtain ⟨_, e, wC, sC, -⟩ := coarseGrainMps_ok sA sB
  rw [eC] at e; cases e
  obtain ⟨_, e, wY, sY, -⟩ := coarseGrainMpo_ok sW sX
  rw [eY] at e; cases e
  have p1 : 0 < ds.getD p 0 * b p := Nat.mul_pos (hf.dpos p (by omega)) (hf.pos p (by omega))
  have p2 : 0 < ds.getD (p + 1) 0 * b (p + 2) := Nat.mul_pos (hf.dpos _ hp) (hf.pos _ (by omega))
  have pos : 0 < ds.getD p 0 * ds.getD (p + 1) 0 * b p * b (p + 2) := by
    have := Nat.mul_pos p1 p2
    calc 0 < _ := this
      _ = _ := by ring
  obtain ⟨V, eV, wV, sV, nV, mV⟩ := optOneSite_ground hg sL sY sR wC sC pos (by
    intro u v wu hu wv hv
    obtain ⟨A1, B1, m1, -, sA1, sB1, e1⟩ := C37_fine_grain_mps exSvd_shape exSvd_exact wu hu p1 p2 true 0 (Or.inl rfl)
    obtain ⟨A2, B2, m2, -, sA2, sB2, e2⟩ := C37_fine_grain_mps exSvd_shape exSvd_exact wv hv p1 p2 true 0 (Or.inl rfl)
    rw [← chain_pair hf hp vL vR hW hX eY sA1 sB1 sA2 sB2 e1 e2, ← chain_pair hf hp vL vR hW hX eY sA2 sB2 sA1 sB1 e2 e1]
    exact chain_symm hs _ _)
  refine ⟨V, eV, wV, sV, fun A' B' m sA' sB' e' => ⟨by rw [hc.norm2 hf hp sA' sB' e', nV], ?_⟩⟩
  have e0 := split2 hA hB
  have hC1 : inner C C = 1 := by rw [← hc.norm2 hf hp sA sB eC, ← e0, hn]
  have := mV hC1
  rw [← chain_pair hf hp vL vR hW hX eY sA' sB' sA' sB' e' e', ← chain_pair hf hp vL vR hW hX eY sA sB sA sB eC eC, ← e0] at this
  exact this

/-- What is kept along the sweeps: `E₀` is the energy of the start. -/
structure Good (ds : List ℕ) (mpo : List (Nd ℝ)) (trunc : ℕ) (E₀ : ℝ) (w p : ℕ) (st : State ℝ) : Prop where
  wf : ∀ A ∈ st.mps, A.Wf
  small : w = 1 → ∀ A ∈ st.mps, A.dim 2 ≤ trunc
  centre : Centre w p st.mps
  norm : normSq ds st.mps = 1
  nlog : ∀ e ∈ st.log, normSq ds e.2.2.2 = 1
  mono : (E₀ :: (st.log.map (fun e => energy ds mpo e.2.2.2) ++ [energy ds mpo st.mps])).Pairwise (· ≥ ·)

theorem pairwise_snoc {E₀ e e' : ℝ} {l : List ℝ} (h : (E₀ :: (l ++ [e])).Pairwise (· ≥ ·)) (he : e' ≤ e) :
    (E₀ :: (l ++ [e] ++ [e'])).Pairwise (· ≥ ·) := by
  rw [← List.cons_append] at h ⊢
  refine List.pairwise_append.2 ⟨h, by simp, fun x hx y hy => ?_⟩
  obtain rfl := List.mem_singleton.1 hy
  have hx' : x ∈ (E₀ :: l) ++ [e] := by simpa using hx
  rcases List.mem_append.1 hx' with hx' | hx'
  · have h2 : ((E₀ :: l) ++ [e]).Pairwise (· ≥ ·) := by simpa using h
    have := (List.pairwise_append.1 h2).2.2 x hx' e (by simp)
    exact le_trans he this
  · obtain rfl := List.mem_singleton.1 hx'
    exact he

theorem Good.step {ds : List ℕ} {mpo : List (Nd ℝ)} {trunc : ℕ} {E₀ : ℝ} {w p q i : ℕ} {st : State ℝ} (h : Good ds mpo trunc E₀ w p st)
    {mps ls rs : List (Nd ℝ)} {L Rt : Nd ℝ} (wf : ∀ A ∈ mps, A.Wf) (small : w = 1 → ∀ A ∈ mps, A.dim 2 ≤ trunc) (hc : Centre w q mps)
    (hn : normSq ds mps = 1) (he : energy ds mpo mps ≤ energy ds mpo st.mps) :
    Good ds mpo trunc E₀ w q ⟨mps, ls, rs, st.log ++ [(i, L, Rt, st.mps)]⟩ := by
  refine ⟨wf, small, hc, hn, fun e hmem => ?_, ?_⟩
  · rcases List.mem_append.1 hmem with hmem | hmem
    · exact h.nlog e hmem
    · obtain rfl := List.mem_singleton.1 hmem
      exact h.norm
  · have := pairwise_snoc h.mono he
    simpa using this

/-- A property of all matrices outside the pair and of the new pair. -/
theorem forall_set2 {α : Type} {P : α → Prop} {l : List α} {p : ℕ} {x y : α} (h : ∀ a ∈ l, P a) (hx : P x) (hy : P y) :
    ∀ a ∈ l.take p ++ x :: y :: l.drop (p + 2), P a := by
  intro a ha
  simp only [List.mem_append, List.mem_cons] at ha
  rcases ha with ha | rfl | rfl | ha
  · exact h a (List.mem_of_mem_take ha)
  · exact hx
  · exact hy
  · exact h a (List.mem_of_mem_drop ha)

theorem take_pair {α : Type} {l : List α} {p : ℕ} (hp : p < l.length) (x y : α) (r : List α) :
    (l.take p ++ x :: y :: r).take (p + 1) = l.take p ++ [x] := by
  have : (l.take p).length = p := by simp; omega
  rw [List.take_append, this, List.take_of_length_le (by omega)]
  simp

theorem take_pair0 {α : Type} {l : List α} {p : ℕ} (hp : p < l.length) (r : List α) : (l.take p ++ r).take p = l.take p := by
  have : (l.take p).length = p := by simp; omega
  rw [List.take_append, this, List.take_of_length_le (by omega)]
  simp

theorem drop_pair {α : Type} {l : List α} {p : ℕ} (hp : p < l.length) (x y : α) (r : List α) (k : ℕ) :
    (l.take p ++ x :: y :: r).drop (p + (k + 1)) = (y :: r).drop k := by
  have : (l.take p).length = p := by simp; omega
  rw [List.drop_append, this, List.drop_of_length_le (by omega)]
  simp [show p + (k + 1) - p = k + 1 by omega]

theorem drop_tail {α : Type} {l : List α} {p q : ℕ} {P : α → Prop} (h : ∀ a ∈ l.drop p, P a) (hq : p ≤ q) : ∀ a ∈ l.drop q, P a := by
  intro a ha
  obtain ⟨k, rfl⟩ := Nat.exists_eq_add_of_le hq
  rw [← List.drop_drop] at ha
  exact h a (List.mem_of_mem_drop ha)

theorem take_tail {α : Type} {l : List α} {p q : ℕ} {P : α → Prop} (h : ∀ a ∈ l.take p, P a) (hq : q ≤ p) : ∀ a ∈ l.take q, P a := by
  intro a ha
  rw [← min_eq_left hq, ← List.take_take] at ha
  exact h a (List.mem_of_mem_take ha)

theorem right1_good {svd : SvdFn ℝ} {eig : EigFn ℝ} (hsvd : SvdShape svd) (hex : SvdExact svd) (hiso : SvdIso svd) (he : EigSize eig)
    (hg : EigGround eig) {ds : List ℕ} {mpo : List (Nd ℝ)} (hs : Symmetric ds mpo) {trunc : ℕ} (ht : 0 < trunc) {E₀ : ℝ} {p : ℕ}
    {st : State ℝ} (h : Inv ds mpo 1 p st ∧ Good ds mpo trunc E₀ 1 p st) (hp : p + 1 < ds.length) :
    ∃ st', right1 svd eig mpo trunc st p = .ok st' ∧ (Inv ds mpo 1 (p + 1) st' ∧ Good ds mpo trunc E₀ 1 (p + 1) st') := by
  obtain ⟨hinv, hgood⟩ := h
  obtain ⟨st₂, e₂, hinv₂, -⟩ := right1_ok hsvd he ht hinv hp
  refine ⟨st₂, e₂, hinv₂, ?_⟩
  obtain ⟨⟨c, b, hf⟩, hls, hrs, hlog⟩ := hinv
  have lm := hf.mps.1
  have lo := hf.mpo.1
  obtain ⟨L, ls, els, hL⟩ := hls.top
  obtain ⟨Rt, rs, ers, hR, hrs'⟩ := hrs.pop (by omega)
  have sL := (hL.env hf (by omega)).1
  have gA := List.getElem?_eq_getElem (show p < st.mps.length by omega)
  have gN := List.getElem?_eq_getElem (show p + 1 < st.mps.length by omega)
  have gW := List.getElem?_eq_getElem (show p < mpo.length by omega)
  have hA := hf.mps.2 p _ gA
  have hN := hf.mps.2 (p + 1) _ gN
  have hW := hf.mpo.2 p _ gW
  obtain ⟨V, eV, wV, sV, nV, mV⟩ := opt1 hg hs hf (by omega) hgood.centre hL hR gW gA (hgood.wf _ (List.getElem_mem _)) hgood.norm
  have pos1 : 0 < ds.getD p 0 * b p := Nat.mul_pos (hf.dpos p (by omega)) (hf.pos p (by omega))
  have hb : b (p + 1) ≤ trunc := by
    have := hgood.small rfl _ (List.getElem_mem (show p < st.mps.length by omega))
    simpa [Nd.dim, hA] using this
  have hb2 : b (p + 2) ≤ trunc := by
    have := hgood.small rfl _ (List.getElem_mem (show p + 1 < st.mps.length by omega))
    simpa [Nd.dim, hN] using this
  obtain ⟨A', N', C, eM, wA', sA', wN', sN', cA', eC, eC'⟩ := moveRight_exact hsvd hex hiso wV sV hN pos1 (hf.dpos _ hp) (trunc := trunc)
    (le_trans (min_le_right _ _) hb)
  obtain ⟨L', eL, wL', sL', -⟩ := contractFromLeft_some sL sA' hW sA'
  have e : right1 svd eig mpo trunc st p =
      .ok ⟨(st.mps.set p A').set (p + 1) N', L' :: st.ls, rs, st.log ++ [(p, L, Rt, st.mps)]⟩ := by
    unfold right1
    simp only [els, ers, top, pop, ok_bind, item_some (show p < mpo.length by omega), item_some (show p < st.mps.length by omega),
      item_some (show p + 1 < st.mps.length by omega), eV, eM, eL]
    rfl
  rw [e₂] at e
  cases e
  obtain ⟨s1, s2⟩ := hf.swap (mpo := mpo) hp sV hN sA' sN' eC eC'
  have hd : st.mps[p + 1] :: st.mps.drop (p + 2) = st.mps.drop (p + 1) := (List.drop_eq_getElem_cons (show p + 1 < st.mps.length by omega)).symm
  rw [hd] at s1 s2
  refine hgood.step ?_ ?_ ?_ ?_ ?_
  · rw [set2 (by omega)]; exact forall_set2 hgood.wf wA' wN'
  · intro _
    rw [set2 (by omega)]
    refine forall_set2 (hgood.small rfl) ?_ ?_
    · have : A'.dim 2 = min (ds.getD p 0 * b p) (b (p + 1)) := by simp [Nd.dim, sA']
      rw [this]; exact le_trans (min_le_right _ _) hb
    · simpa [Nd.dim, sN'] using hb2
  · rw [set2 (by omega)]
    refine ⟨?_, ?_⟩
    · rw [take_pair (by omega)]
      intro A hmem
      rcases List.mem_append.1 hmem with hmem | hmem
      · exact hgood.centre.left A hmem
      · obtain rfl := List.mem_singleton.1 hmem; exact cA'
    · rw [show p + 1 + 1 = p + (1 + 1) by omega, drop_pair (by omega)]
      change ∀ A ∈ st.mps.drop (p + 2), _
      exact drop_tail hgood.centre.right (by omega)
  · rw [set2 (by omega), ← s2]; exact nV
  · rw [set2 (by omega), ← s1]; exact mV

theorem left1_good {svd : SvdFn ℝ} {eig : EigFn ℝ} (hsvd : SvdShape svd) (hex : SvdExact svd) (hiso : SvdIso svd) (he : EigSize eig)
    (hg : EigGround eig) {ds : List ℕ} {mpo : List (Nd ℝ)} (hs : Symmetric ds mpo) {trunc : ℕ} (ht : 0 < trunc) {E₀ : ℝ} {p : ℕ}
    {st : State ℝ} (h : Inv ds mpo 1 (p + 1) st ∧ Good ds mpo trunc E₀ 1 (p + 1) st) (hp : p + 1 < ds.length) :
    ∃ st', left1 svd eig mpo trunc st (p + 1) = .ok st' ∧ (Inv ds mpo 1 p st' ∧ Good ds mpo trunc E₀ 1 p st') := by
  obtain ⟨hinv, hgood⟩ := h
  obtain ⟨st₂, e₂, hinv₂, -⟩ := left1_ok hsvd he ht hinv hp
  refine ⟨st₂, e₂, hinv₂, ?_⟩
  obtain ⟨⟨c, b, hf⟩, hls, hrs, hlog⟩ := hinv
  have lm := hf.mps.1
  have lo := hf.mpo.1
  obtain ⟨L, ls, els, hL, hls'⟩ := hls.pop
  obtain ⟨Rt, rs, ers, hR⟩ := hrs.top
  have sR := (hR.env hf (by omega)).1
  have gA := List.getElem?_eq_getElem (show p + 1 < st.mps.length by omega)
  have gN := List.getElem?_eq_getElem (show p < st.mps.length by omega)
  have gW := List.getElem?_eq_getElem (show p + 1 < mpo.length by omega)
  have hA := hf.mps.2 (p + 1) _ gA
  have hN := hf.mps.2 p _ gN
  have hW := hf.mpo.2 (p + 1) _ gW
  obtain ⟨V, eV, wV, sV, nV, mV⟩ := opt1 hg hs hf hp hgood.centre hL hR gW gA (hgood.wf _ (List.getElem_mem _)) hgood.norm
  have pos1 : 0 < ds.getD (p + 1) 0 * b (p + 2) := Nat.mul_pos (hf.dpos _ (by omega)) (hf.pos _ (by omega))
  have hb : b (p + 1) ≤ trunc := by
    have := hgood.small rfl _ (List.getElem_mem (show p < st.mps.length by omega))
    simpa [Nd.dim, hN] using this
  have hb2 : b (p + 2) ≤ trunc := by
    have := hgood.small rfl _ (List.getElem_mem (show p + 1 < st.mps.length by omega))
    simpa [Nd.dim, hA] using this
  obtain ⟨A', N', C, eM, wA', sA', wN', sN', cA', eC, eC'⟩ := moveLeft_exact hsvd hex hiso sV hN pos1 (hf.dpos _ hp) (trunc := trunc)
    (le_trans (min_le_left _ _) hb)
  obtain ⟨R', eR, wR', sR', -⟩ := contractFromRight_some sR sA' hW sA'
  have e : left1 svd eig mpo trunc st (p + 1) =
      .ok ⟨(st.mps.set (p + 1) A').set p N', ls, R' :: st.rs, st.log ++ [(p + 1, L, Rt, st.mps)]⟩ := by
    unfold left1
    simp only [els, ers, top, pop, ok_bind, item_some (show p + 1 < mpo.length by omega), item_some (show p < st.mps.length by omega),
      item_some (show p + 1 < st.mps.length by omega), eV, eM, eR, Nat.add_sub_cancel]
    rfl
  rw [e₂] at e
  cases e
  have hset : (st.mps.set (p + 1) A').set p N' = st.mps.take p ++ N' :: A' :: st.mps.drop (p + 2) := by
    rw [← set2 (by omega)]; exact List.set_comm _ _ (by omega)
  obtain ⟨s1, s2⟩ := hf.swap (mpo := mpo) hp hN sV sN' sA' eC eC'
  have hd : st.mps.take p ++ st.mps[p] :: V :: st.mps.drop (p + 2) = st.mps.take (p + 1) ++ V :: st.mps.drop (p + 2) := by
    rw [List.take_add_one, gN, List.append_assoc]; rfl
  rw [hd] at s1 s2
  rw [hset]
  refine hgood.step ?_ ?_ ?_ ?_ ?_
  · exact forall_set2 hgood.wf wN' wA'
  · intro _
    refine forall_set2 (hgood.small rfl) ?_ ?_
    · have : N'.dim 2 = min (b (p + 1)) (ds.getD (p + 1) 0 * b (p + 2)) := by simp [Nd.dim, sN']
      rw [this]; exact le_trans (min_le_left _ _) hb
    · simpa [Nd.dim, sA'] using hb2
  · refine ⟨?_, ?_⟩
    · rw [take_pair0 (by omega)]
      exact take_tail hgood.centre.left (by omega)
    · rw [show p + 1 = p + (0 + 1) by omega, drop_pair (by omega)]
      intro A hmem
      rcases List.mem_cons.1 hmem with rfl | hmem
      · exact cA'
      · exact hgood.centre.right A hmem
  · rw [← s2]; exact nV
  · rw [← s1]; exact mV

theorem right2_good {svd : SvdFn ℝ} {eig : EigFn ℝ} (hsvd : SvdShape svd) (hex : SvdExact svd) (hiso : SvdIso svd) (he : EigSize eig)
    (hg : EigGround eig) {ds : List ℕ} {mpo : List (Nd ℝ)} (hs : Symmetric ds mpo) {trunc : ℕ} {E₀ : ℝ} {p : ℕ}
    {st : State ℝ} (h : Inv ds mpo 2 p st ∧ Good ds mpo trunc E₀ 2 p st) (hp : p + 2 < ds.length) :
    ∃ st', right2 svd eig mpo 0 st p = .ok st' ∧ (Inv ds mpo 2 (p + 1) st' ∧ Good ds mpo trunc E₀ 2 (p + 1) st') := by
  obtain ⟨hinv, hgood⟩ := h
  obtain ⟨st₂, e₂, hinv₂, -⟩ := right2_ok hsvd he 0 hinv hp
  refine ⟨st₂, e₂, hinv₂, ?_⟩
  obtain ⟨⟨c, b, hf⟩, hls, hrs, hlog⟩ := hinv
  have lm := hf.mps.1
  have lo := hf.mpo.1
  obtain ⟨L, ls, els, hL⟩ := hls.top
  obtain ⟨Rt, rs, ers, hR, hrs'⟩ := hrs.pop (by omega)
  have sL := (hL.env hf (by omega)).1
  have gA := List.getElem?_eq_getElem (show p < st.mps.length by omega)
  have gN := List.getElem?_eq_getElem (show p + 1 < st.mps.length by omega)
  have gW := List.getElem?_eq_getElem (show p < mpo.length by omega)
  have gX := List.getElem?_eq_getElem (show p + 1 < mpo.length by omega)
  have hA := hf.mps.2 p _ gA
  have hN := hf.mps.2 (p + 1) _ gN
  have hW := hf.mpo.2 p _ gW
  have hX := hf.mpo.2 (p + 1) _ gX
  obtain ⟨C, eC, wC, sC, -⟩ := coarseGrainMps_ok hA hN
  obtain ⟨Y, eY, wY, sY, -⟩ := coarseGrainMpo_ok hW hX
  obtain ⟨V, eV, wV, sV, H⟩ := opt2 hg hs hf (by omega) hgood.centre hL hR gW gX gA gN eC eY hgood.norm
  have pos1 : 0 < ds.getD p 0 * b p := Nat.mul_pos (hf.dpos p (by omega)) (hf.pos p (by omega))
  have pos2 : 0 < ds.getD (p + 1) 0 * b (p + 2) := Nat.mul_pos (hf.dpos _ (by omega)) (hf.pos _ (by omega))
  obtain ⟨A', N', eM, wA', sA', wN', sN', eV', cA', -⟩ := fineGrain_exact hsvd hex hiso wV sV pos1 pos2 true
  obtain ⟨L', eL, wL', sL', -⟩ := contractFromLeft_some sL sA' hW sA'
  have d1 : item (st.mps[p]'(by omega)).shape 0 = .ok (ds.getD p 0) := by simp [hA, item]
  have d2 : item (st.mps[p + 1]'(by omega)).shape 0 = .ok (ds.getD (p + 1) 0) := by simp [hN, item]
  have e : right2 svd eig mpo 0 st p =
      .ok ⟨(st.mps.set p A').set (p + 1) N', L' :: st.ls, rs, st.log ++ [(p, L, Rt, st.mps)]⟩ := by
    unfold right2
    simp only [els, ers, top, pop, ok_bind, item_some (show p < mpo.length by omega), item_some (show p < st.mps.length by omega),
      item_some (show p + 1 < st.mps.length by omega), item_some (show p + 1 < mpo.length by omega), d1, d2, eC, eY, eV, eM, eL]
    rfl
  rw [e₂] at e
  cases e
  obtain ⟨hn, hE⟩ := H A' N' _ sA' sN' eV'
  rw [set2 (by omega)]
  refine hgood.step (forall_set2 hgood.wf wA' wN') (by omega) ⟨?_, ?_⟩ hn hE
  · rw [take_pair (by omega)]
    intro A hmem
    rcases List.mem_append.1 hmem with hmem | hmem
    · exact hgood.centre.left A hmem
    · obtain rfl := List.mem_singleton.1 hmem; exact cA' rfl
  · rw [show p + 1 + 2 = p + (2 + 1) by omega, drop_pair (by omega)]
    simp only [List.drop_succ_cons, List.drop_drop]
    exact drop_tail hgood.centre.right (by omega)

theorem left2_good {svd : SvdFn ℝ} {eig : EigFn ℝ} (hsvd : SvdShape svd) (hex : SvdExact svd) (hiso : SvdIso svd) (he : EigSize eig)
    (hg : EigGround eig) {ds : List ℕ} {mpo : List (Nd ℝ)} (hs : Symmetric ds mpo) {trunc : ℕ} {E₀ : ℝ} {p : ℕ}
    {st : State ℝ} (h : Inv ds mpo 2 (p + 1) st ∧ Good ds mpo trunc E₀ 2 (p + 1) st) (hp : p + 2 < ds.length) :
    ∃ st', left2 svd eig mpo 0 st (p + 2) = .ok st' ∧ (Inv ds mpo 2 p st' ∧ Good ds mpo trunc E₀ 2 p st') := by
  obtain ⟨hinv, hgood⟩ := h
  obtain ⟨st₂, e₂, hinv₂, -⟩ := left2_ok hsvd he 0 hinv hp
  refine ⟨st₂, e₂, hinv₂, ?_⟩
  obtain ⟨⟨c, b, hf⟩, hls, hrs, hlog⟩ := hinv
  have lm := hf.mps.1
  have lo := hf.mpo.1
  obtain ⟨L, ls, els, hL, hls'⟩ := hls.pop
  obtain ⟨Rt, rs, ers, hR⟩ := hrs.top
  have sR := (hR.env hf (by omega)).1
  have gA := List.getElem?_eq_getElem (show p + 1 < st.mps.length by omega)
  have gN := List.getElem?_eq_getElem (show p + 2 < st.mps.length by omega)
  have gW := List.getElem?_eq_getElem (show p + 1 < mpo.length by omega)
  have gX := List.getElem?_eq_getElem (show p + 2 < mpo.length by omega)
  have hA := hf.mps.2 (p + 1) _ gA
  have hN := hf.mps.2 (p + 2) _ gN
  have hW := hf.mpo.2 (p + 1) _ gW
  have hX := hf.mpo.2 (p + 2) _ gX
  obtain ⟨C, eC, wC, sC, -⟩ := coarseGrainMps_ok hA hN
  obtain ⟨Y, eY, wY, sY, -⟩ := coarseGrainMpo_ok hW hX
  obtain ⟨V, eV, wV, sV, H⟩ := opt2 hg hs hf hp hgood.centre hL hR gW gX gA gN eC eY hgood.norm
  have pos1 : 0 < ds.getD (p + 1) 0 * b (p + 1) := Nat.mul_pos (hf.dpos _ (by omega)) (hf.pos _ (by omega))
  have pos2 : 0 < ds.getD (p + 2) 0 * b (p + 3) := Nat.mul_pos (hf.dpos _ (by omega)) (hf.pos _ (by omega))
  obtain ⟨A', N', eM, wA', sA', wN', sN', eV', -, cN'⟩ := fineGrain_exact hsvd hex hiso wV sV pos1 pos2 false
  obtain ⟨R', eR, wR', sR', -⟩ := contractFromRight_some sR sN' hX sN'
  have d1 : item (st.mps[p + 1]'(by omega)).shape 0 = .ok (ds.getD (p + 1) 0) := by simp [hA, item]
  have d2 : item (st.mps[p + 2]'(by omega)).shape 0 = .ok (ds.getD (p + 2) 0) := by simp [hN, item]
  have e : left2 svd eig mpo 0 st (p + 2) =
      .ok ⟨(st.mps.set (p + 1) A').set (p + 2) N', ls, R' :: st.rs, st.log ++ [(p + 1, L, Rt, st.mps)]⟩ := by
    unfold left2
    simp only [els, ers, top, pop, ok_bind, item_some (show p + 1 < mpo.length by omega), item_some (show p + 2 < st.mps.length by omega),
      item_some (show p + 1 < st.mps.length by omega), item_some (show p + 2 < mpo.length by omega), d1, d2, eC, eY, eV, eM, eR,
      show p + 2 - 1 = p + 1 from rfl]
    rfl
  rw [e₂] at e
  cases e
  obtain ⟨hn, hE⟩ := H A' N' _ sA' sN' eV'
  rw [set2 (p := p + 1) (by omega)]
  refine hgood.step (forall_set2 hgood.wf wA' wN') (by omega) ⟨?_, ?_⟩ hn hE
  · refine take_tail (p := p + 1) ?_ (by omega)
    rw [take_pair0 (by omega)]
    exact hgood.centre.left
  · rw [show p + 2 = (p + 1) + (0 + 1) by omega, drop_pair (by omega)]
    intro A hmem
    rcases List.mem_cons.1 hmem with rfl | hmem
    · exact cN' rfl
    · exact hgood.centre.right A hmem

section
variable {R : Type}

/-- The loops, for any invariant. -/
theorem loopR {P : ℕ → State R → Prop} {N w : ℕ} {step : State R → ℕ → Res (State R)}
    (hstep : ∀ p st, P p st → p + w < N → ∃ st', step st p = .ok st' ∧ P (p + 1) st') {st : State R} (h : P 0 st) :
    ∀ n, n + w ≤ N → ∃ st', (List.range n).foldlM step st = .ok st' ∧ P n st'
  | 0, _ => ⟨st, rfl, h⟩
  | n + 1, hn => by
    obtain ⟨st1, e1, h1⟩ := loopR hstep h n (by omega)
    obtain ⟨st2, e2, h2⟩ := hstep n st1 h1 (by omega)
    refine ⟨st2, ?_, h2⟩
    rw [List.range_succ, List.foldlM_append, e1, ok_bind, List.foldlM_cons, e2, ok_bind]; rfl

theorem loopL {P : ℕ → State R → Prop} {N w : ℕ} {step : State R → ℕ → Res (State R)}
    (hstep : ∀ p st, P (p + 1) st → p + w < N → ∃ st', step st (p + w) = .ok st' ∧ P p st') :
    ∀ (n : ℕ) (st : State R), P n st → n + w ≤ N → ∃ st', (List.range' w n).reverse.foldlM step st = .ok st' ∧ P 0 st'
  | 0, st, h, _ => ⟨st, rfl, h⟩
  | n + 1, st, h, hn => by
    obtain ⟨st1, e1, h1⟩ := hstep n st h (by omega)
    obtain ⟨st2, e2, h2⟩ := loopL hstep n st1 h1 (by omega)
    refine ⟨st2, ?_, h2⟩
    rw [List.range'_concat, List.reverse_append]
    simp only [one_mul, List.reverse_cons, List.reverse_nil, List.nil_append, List.singleton_append, List.foldlM_cons]
    rw [Nat.add_comm w n, e1, ok_bind, e2]

theorem repeatP {P : State R → Prop} {sweep : State R → Res (State R)} (hs : ∀ st, P st → ∃ st', sweep st = .ok st' ∧ P st')
    {st : State R} (h : P st) : ∀ n, ∃ st', (List.range n).foldlM (fun st _ => sweep st) st = .ok st' ∧ P st'
  | 0 => ⟨st, rfl, h⟩
  | n + 1 => by
    obtain ⟨st1, e1, h1⟩ := repeatP hs h n
    obtain ⟨st2, e2, h2⟩ := hs st1 h1
    refine ⟨st2, ?_, h2⟩
    rw [List.range_succ, List.foldlM_append, e1, ok_bind, List.foldlM_cons, e2, ok_bind]; rfl

end

theorem sweep1_good {svd : SvdFn ℝ} {eig : EigFn ℝ} (hsvd : SvdShape svd) (hex : SvdExact svd) (hiso : SvdIso svd) (he : EigSize eig)
    (hg : EigGround eig) {ds : List ℕ} {mpo : List (Nd ℝ)} (hs : Symmetric ds mpo) {trunc : ℕ} (ht : 0 < trunc) {E₀ : ℝ}
    {st : State ℝ} (h : Inv ds mpo 1 0 st ∧ Good ds mpo trunc E₀ 1 0 st) (hd : 1 ≤ ds.length) :
    ∃ st', sweep1 svd eig mpo trunc st = .ok st' ∧ (Inv ds mpo 1 0 st' ∧ Good ds mpo trunc E₀ 1 0 st') := by
  obtain ⟨c, b, hf⟩ := h.1.fit
  have lo := hf.mpo.1
  obtain ⟨st1, e1, h1⟩ := loopR (P := fun p st => Inv ds mpo 1 p st ∧ Good ds mpo trunc E₀ 1 p st)
    (fun p st h hp => right1_good hsvd hex hiso he hg hs ht h hp) h (ds.length - 1) (by omega)
  obtain ⟨st2, e2, h2⟩ := loopL (P := fun p st => Inv ds mpo 1 p st ∧ Good ds mpo trunc E₀ 1 p st)
    (fun p st h hp => left1_good hsvd hex hiso he hg hs ht h hp) (ds.length - 1) st1 h1 (by omega)
  refine ⟨st2, ?_, h2⟩
  obtain ⟨c1, b1, hf1⟩ := h1.1.fit
  unfold sweep1
  rw [lo, e1, ok_bind, range_filter, hf1.mps.1]
  exact e2

theorem sweep2_good {svd : SvdFn ℝ} {eig : EigFn ℝ} (hsvd : SvdShape svd) (hex : SvdExact svd) (hiso : SvdIso svd) (he : EigSize eig)
    (hg : EigGround eig) {ds : List ℕ} {mpo : List (Nd ℝ)} (hs : Symmetric ds mpo) {trunc : ℕ} {E₀ : ℝ}
    {st : State ℝ} (h : Inv ds mpo 2 0 st ∧ Good ds mpo trunc E₀ 2 0 st) (hd : 2 ≤ ds.length) :
    ∃ st', sweep2 svd eig mpo 0 st = .ok st' ∧ (Inv ds mpo 2 0 st' ∧ Good ds mpo trunc E₀ 2 0 st') := by
  obtain ⟨c, b, hf⟩ := h.1.fit
  have lo := hf.mpo.1
  obtain ⟨st1, e1, h1⟩ := loopR (P := fun p st => Inv ds mpo 2 p st ∧ Good ds mpo trunc E₀ 2 p st)
    (fun p st h hp => right2_good hsvd hex hiso he hg hs h hp) h (ds.length - 2) (by omega)
  obtain ⟨st2, e2, h2⟩ := loopL (P := fun p st => Inv ds mpo 2 p st ∧ Good ds mpo trunc E₀ 2 p st)
    (fun p st h hp => left2_good hsvd hex hiso he hg hs h hp) (ds.length - 2) st1 h1 (by omega)
  refine ⟨st2, ?_, h2⟩
  obtain ⟨c1, b1, hf1⟩ := h1.1.fit
  unfold sweep2
  rw [lo, e1, ok_bind, range_filter, hf1.mps.1]
  exact e2

end Dmrg
