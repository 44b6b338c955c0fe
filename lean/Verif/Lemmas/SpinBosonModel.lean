import Verif.Model.SpinBosonModel
import Verif.Spec.SpinBoson
import Verif.Props.C53
import Verif.Lemmas.Phonon
import Std.Data.String.ToNat
import Mathlib.Tactic.FieldSimp
import Mathlib.Tactic.LinearCombination

/-!
Lemmas about the construction of the spin-boson Hamiltonian.
-/

open scoped BigOperators
open Py

namespace SpinBoson

open SpinBosonSpec

theorem arr2_wf (a b c d : ℝ) : (arr2 a b c d).Wf := by simp [Nd.Wf, arr2]
theorem arr2_shape (a b c d : ℝ) : (arr2 a b c d).shape = [2, 2] := rfl
theorem smul_shape (c : ℂ) (A : Nd ℂ) : (Nd.smul c A).shape = A.shape := rfl
theorem smul_wf' {c : ℂ} {A : Nd ℂ} (h : A.Wf) : (Nd.smul c A).Wf := by simpa [Nd.Wf, Nd.smul] using h

theorem lt_two {a : ℕ} (h : a < 2) : a = 0 ∨ a = 1 := by omega

theorem act_arr2 (e : String) (a b c d : ℝ) (k : ℂ) (ψ : Wave) {σ : String → ℕ} (hσ : σ e < 2) :
    act e (Nd.smul k (arr2 a b c d)) ψ σ =
      k * ((if σ e = 0 then (a : ℂ) else (d : ℂ)) * ψ σ + (if σ e = 0 then (b : ℂ) else (c : ℂ)) * exchange e ψ σ) := by
  unfold act exchange
  have hd : (Nd.smul k (arr2 a b c d)).dim 1 = 2 := rfl
  have g00 : (arr2 a b c d).get [0, 0] = a := rfl
  have g01 : (arr2 a b c d).get [0, 1] = b := rfl
  have g10 : (arr2 a b c d).get [1, 0] = c := rfl
  have g11 : (arr2 a b c d).get [1, 1] = d := rfl
  rw [hd, Finset.sum_range_succ, Finset.sum_range_succ, Finset.sum_range_zero, zero_add]
  simp only [Heom.smul_get]
  rcases lt_two hσ with h | h
  · have e0 : Function.update σ e 0 = σ := by rw [← h, Function.update_eq_self]
    rw [h, e0, if_pos rfl, if_pos rfl, g00, g01]
    ring
  · have e1 : Function.update σ e 1 = σ := by rw [← h, Function.update_eq_self]
    rw [h, e1, if_neg (by decide), if_neg (by decide), g10, g11]
    ring

theorem act_elec (e : String) (e1 e2 v : ℝ) (ψ : Wave) {σ : String → ℕ} (hσ : σ e < 2) :
    act e (arr2 e1 v v e2) ψ σ = electronic e e1 e2 v ψ σ := by
  have : arr2 e1 v v e2 = Nd.smul 1 (arr2 e1 v v e2) := by simp [Nd.smul, arr2]
  rw [this, act_arr2 e e1 v v e2 1 ψ hσ]
  unfold electronic
  rw [ite_self, one_mul]

theorem act_second (e : String) (k : ℂ) (ψ : Wave) {σ : String → ℕ} (hσ : σ e < 2) :
    act e (Nd.smul k (arr2 0 0 0 1)) ψ σ = k * second e ψ σ := by
  rw [act_arr2 e _ _ _ _ k ψ hσ]
  unfold second
  rcases lt_two hσ with h | h <;> simp [h]

theorem act_exchange (e : String) (k : ℂ) (ψ : Wave) {σ : String → ℕ} (hσ : σ e < 2) :
    act e (Nd.smul k (arr2 0 1 1 0)) ψ σ = k * exchange e ψ σ := by
  rw [act_arr2 e _ _ _ _ k ψ hσ]
  rcases lt_two hσ with h | h <;> simp [h]

theorem act_hamiltonian {l : String} {d : ℕ} {ω : ℝ} (ψ : Wave) {σ : String → ℕ} (hσ : σ l < d) :
    act l (Phonon.mk d ω 1 1).hamiltonian ψ σ = (ω : ℂ) * ((σ l : ℂ) + 1 / 2) * ψ σ := by
  unfold act
  have hd : (Phonon.mk d ω 1 1).hamiltonian.dim 1 = d := by
    unfold Nd.dim
    rw [Phonon.hamiltonian_shape]
    rfl
  rw [hd, Finset.sum_eq_single (σ l)]
  · rw [(Phonon.mk d ω 1 1).hamiltonian_get hσ hσ, if_pos rfl, Function.update_eq_self]
    simp only [one_mul]
    ring
  · intro b hb hne
    rw [(Phonon.mk d ω 1 1).hamiltonian_get hσ (Finset.mem_range.1 hb), if_neg (Ne.symm hne), zero_mul]
  · intro h
    exact absurd (Finset.mem_range.2 hσ) h

theorem act_coordinate {l : String} {d : ℕ} {ω : ℝ} (hd : 1 ≤ d) {X : Nd ℂ} (hX : (Phonon.mk d ω 1 1).coordinate = .ok X) (k : ℂ) (ψ : Wave)
    {σ : String → ℕ} (hσ : σ l < d) : act l (Nd.smul k X) ψ σ = k * q ω d l ψ σ := by
  obtain ⟨Y, y1, y2, y3, y4⟩ := (Phonon.mk d ω 1 1).coordinate_ok hd
  obtain rfl : Y = X := by rw [hX] at y1; exact (Except.ok.inj y1).symm
  unfold act
  have hdim : (Nd.smul k Y).dim 1 = d := by
    unfold Nd.dim
    rw [smul_shape, y3]
    rfl
  rw [hdim]
  have h1 : ∀ b ∈ Finset.range d, (Nd.smul k Y).get [σ l, b] * ψ (Function.update σ l b) =
      k * (Phonon.mk d ω 1 1).coordinateCoeff * ((Phonon.mk d ω 1 1).creation.get [σ l, b] * ψ (Function.update σ l b) +
        (Phonon.mk d ω 1 1).annihilation.get [σ l, b] * ψ (Function.update σ l b)) := by
    intro b hb
    rw [Heom.smul_get, y4 (σ l) b hσ (Finset.mem_range.1 hb)]
    ring
  rw [Finset.sum_congr rfl h1, ← Finset.mul_sum, Finset.sum_add_distrib]
  have c1 := (Phonon.mk d ω 1 1).creation_row (a := σ l) hσ fun b => ψ (Function.update σ l b)
  have c2 := (Phonon.mk d ω 1 1).annihilation_row (a := σ l) hσ fun b => ψ (Function.update σ l b)
  dsimp only at c1 c2
  rw [c1, c2]
  unfold q below above Phonon.coordinateCoeff
  dsimp only
  have : (1 : ℝ) / 1 / ω / 2 = 1 / (2 * ω) := by rw [div_one, div_div, mul_comm]
  rw [this]
  ring

/-- A wave function that is only changed at admissible electronic states. -/
theorem q_congr {ω : ℝ} {d : ℕ} {l e : String} (hne : e ≠ l) {φ χ : Wave} (h : ∀ σ : String → ℕ, σ e < 2 → φ σ = χ σ) {σ : String → ℕ} (hσ : σ e < 2) :
    q ω d l φ σ = q ω d l χ σ := by
  unfold q below above
  have h2 : ∀ b, Function.update σ l b e < 2 := fun b => by rw [Function.update_of_ne hne]; exact hσ
  rw [h _ (h2 _), h _ (h2 _)]

theorem q_smul {ω : ℝ} {d : ℕ} {l : String} (k : ℂ) (φ : Wave) (σ : String → ℕ) : q ω d l (fun τ => k * φ τ) σ = k * q ω d l φ σ := by
  unfold q below above
  dsimp only
  split_ifs <;> ring

theorem applyH_append (a b : List (Term ℂ)) (ψ : Wave) (σ : String → ℕ) : applyH (a ++ b) ψ σ = applyH a ψ σ + applyH b ψ σ := by
  simp [applyH]

theorem label_inj {pre : String} {i j : ℕ} (h : label pre i = label pre j) : i = j := by
  unfold label at h
  have h2 : (pre ++ toString i).toList = (pre ++ toString j).toList := by rw [h]
  rw [String.toList_append, String.toList_append] at h2
  exact Nat.repr_injective (String.toList_injective (List.append_cancel_left h2))

theorem label_ne {k : ℕ} : "ELEC" ≠ label "I" k := by
  intro h
  have h2 : "ELEC".toList = (label "I" k).toList := by rw [h]
  unfold label at h2
  rw [String.toList_append] at h2
  have e1 : "ELEC".toList = ['E', 'L', 'E', 'C'] := by decide
  have e2 : "I".toList = ['I'] := by decide
  rw [e1, e2] at h2
  simp at h2

theorem modesFrom_cons (n : ℕ) (v : Vib) (vs : List Vib) :
    modesFrom n (v :: vs) = (⟨label "I" n, v.ω, v.lam, v.d⟩, v.κ) :: modesFrom (n + 1) vs := by
  simp [modesFrom, List.zipIdx_cons]

theorem vibrationLoop_ok : ∀ (vs : List Vib) (n : ℕ) (s : State) (hs : List (Term ℂ)), (∀ v ∈ vs, v.Ok) →
    ∃ s' new, vibrationLoop "ELEC" "I" n (vs.map fun v => (v.d, v.ω, Real.sqrt (v.lam / 2) * v.ω)) s hs = .ok (s', hs ++ new) ∧
      s'.elecLeaf = s.elecLeaf ∧ s'.innerPrefix = s.innerPrefix ∧ s'.outerPrefix = s.outerPrefix ∧
      s'.leaves = s.leaves ++ (modesFrom n vs).map (·.1.l) ∧
      (∀ x, (∀ i, n ≤ i → x ≠ label "I" i) → s'.dimensions.get? x = s.dimensions.get? x) ∧
      (∀ m ∈ modesFrom n vs, s'.dimensions.get? m.1.l = some m.1.d) ∧
      (∀ A, [("ELEC", A)] ∈ new → A.Wf ∧ A.shape = [2, 2]) ∧
      ∀ ψ σ, Admissible (modesFrom n vs) σ → applyH new ψ σ = ((modesFrom n vs).map fun m => vibrationNumber "ELEC" m.1 ψ σ).sum
  | [], n, s, hs, _ => ⟨s, [], by simp [vibrationLoop], rfl, rfl, rfl, by simp [modesFrom], fun _ _ => rfl, by simp [modesFrom], by simp,
      by simp [modesFrom, applyH]⟩
  | v :: vs, n, s, hs, hv => by
    obtain ⟨⟨hω, hl, hd⟩, hvs⟩ := List.forall_mem_cons.1 hv
    obtain ⟨X, x1, -, x3, -⟩ := (Phonon.mk v.d v.ω 1 1).coordinate_ok hd
    set c : ℝ := Real.sqrt (v.lam / 2) * v.ω with hc
    set head : List (Term ℂ) := [[(label "I" n, (Phonon.mk v.d v.ω 1 1).hamiltonian)],
      [(label "I" n, Nd.smul ((-v.ω : ℝ) : ℂ) X), ("ELEC", Nd.smul ((2 * (c / v.ω) : ℝ) : ℂ) (arr2 0 0 0 1))],
      [("ELEC", Nd.smul ((2 * (c / v.ω) ^ 2 : ℝ) : ℂ) (arr2 0 0 0 1))]] with hhead
    obtain ⟨s', new, r1, r2, r3, r4, r5, r6, r7, r8, r9⟩ := vibrationLoop_ok vs (n + 1)
      { s with leaves := s.leaves ++ [label "I" n], dimensions := s.dimensions.set (label "I" n) v.d } (hs ++ head) hvs
    refine ⟨s', head ++ new, ?_, r2, r3, r4, ?_, ?_, ?_, ?_, ?_⟩
    · rw [List.map_cons, vibrationLoop, x1, ok_bind, ← List.append_assoc]
      exact r1
    · rw [r5, modesFrom_cons, List.map_cons, List.append_assoc]
      rfl
    · intro x hx
      rw [r6 x fun i hi => hx i (by omega)]
      dsimp only
      rw [Dict.get?_set, if_neg (hx n le_rfl).symm]
    · intro m hm
      rw [modesFrom_cons] at hm
      rcases List.mem_cons.1 hm with rfl | hm
      · rw [r6 _ fun i hi h => by have := label_inj h; omega]
        dsimp only
        rw [Dict.get?_set, if_pos rfl]
      · exact r7 m hm
    · intro A hA
      rcases List.mem_append.1 hA with hA | hA
      · simp only [hhead, List.mem_cons, List.not_mem_nil, or_false] at hA
        rcases hA with hA | hA | hA
        · simp only [List.cons.injEq, Prod.mk.injEq] at hA
          exact absurd hA.1.1 label_ne
        · simp at hA
        · simp only [List.cons.injEq, Prod.mk.injEq] at hA
          rw [hA.1.2]
          exact ⟨smul_wf' (arr2_wf _ _ _ _), rfl⟩
      · exact r8 A hA
    · intro ψ σ hσ
      rw [modesFrom_cons] at hσ ⊢
      have hσ2 : Admissible (modesFrom (n + 1) vs) σ := ⟨hσ.1, fun m hm => hσ.2 m (List.mem_cons_of_mem _ hm)⟩
      have hl0 : σ (label "I" n) < v.d := hσ.2 _ List.mem_cons_self
      have hE := hσ.1
      rw [applyH_append, r9 ψ σ hσ2, List.map_cons, List.sum_cons]
      congr 1
      have a1 : applyH head ψ σ = act (label "I" n) (Phonon.mk v.d v.ω 1 1).hamiltonian ψ σ +
          (act (label "I" n) (Nd.smul ((-v.ω : ℝ) : ℂ) X) (act "ELEC" (Nd.smul ((2 * (c / v.ω) : ℝ) : ℂ) (arr2 0 0 0 1)) ψ) σ +
            act "ELEC" (Nd.smul ((2 * (c / v.ω) ^ 2 : ℝ) : ℂ) (arr2 0 0 0 1)) ψ σ) := by
        simp [hhead, applyH, applyTerm]
      have a2 := q_congr (ω := v.ω) (d := v.d) (label_ne (k := n)) (fun τ hτ => act_second "ELEC" ((2 * (c / v.ω) : ℝ) : ℂ) ψ hτ) hE
      rw [a1, act_hamiltonian ψ hl0, act_coordinate hd x1 _ _ hl0, act_second "ELEC" _ ψ hE, a2, q_smul]
      unfold vibrationNumber Mode.c
      dsimp only
      have b1 : ((-v.ω : ℝ) : ℂ) * ((2 * (c / v.ω) : ℝ) : ℂ) = -(2 * ((v.ω * Real.sqrt (v.lam / 2) : ℝ) : ℂ)) := by
        rw [← Complex.ofReal_mul]
        have : -v.ω * (2 * (c / v.ω)) = -(2 * (v.ω * Real.sqrt (v.lam / 2))) := by rw [hc]; field_simp
        rw [this]
        push_cast
        ring
      have b2 : 2 * (c / v.ω) ^ 2 = v.lam := by
        have : c / v.ω = Real.sqrt (v.lam / 2) := by rw [hc]; field_simp
        rw [this, Real.sq_sqrt (by positivity)]
        ring
      rw [← mul_assoc, b1, b2]
      ring

theorem relaxationLoop_ok : ∀ (vs : List Vib) (n : ℕ) (hs : List (Term ℂ)), (∀ v ∈ vs, v.Ok) →
    ∃ new, relaxationLoop "ELEC" "I" n (vs.map fun v => (v.d, v.ω, v.κ)) hs = .ok (hs ++ new) ∧
      (∀ A, [("ELEC", A)] ∉ new) ∧
      ∀ ψ σ, Admissible (modesFrom n vs) σ → applyH new ψ σ = ((modesFrom n vs).map fun m => (m.2 : ℂ) * q m.1.ω m.1.d m.1.l (exchange "ELEC" ψ) σ).sum
  | [], n, hs, _ => ⟨[], by simp [relaxationLoop], by simp, by simp [modesFrom, applyH]⟩
  | v :: vs, n, hs, hv => by
    obtain ⟨⟨hω, hl, hd⟩, hvs⟩ := List.forall_mem_cons.1 hv
    obtain ⟨X, x1, -, x3, -⟩ := (Phonon.mk v.d v.ω 1 1).coordinate_ok hd
    set head : List (Term ℂ) := [[(label "I" n, Nd.smul (v.ω : ℂ) X), ("ELEC", Nd.smul ((v.κ / v.ω : ℝ) : ℂ) (arr2 0 1 1 0))]] with hhead
    obtain ⟨new, r1, r8, r9⟩ := relaxationLoop_ok vs (n + 1) (hs ++ head) hvs
    refine ⟨head ++ new, ?_, ?_, ?_⟩
    · rw [List.map_cons, relaxationLoop, x1, ok_bind, ← List.append_assoc]
      exact r1
    · intro A hA
      rcases List.mem_append.1 hA with hA | hA
      · simp [hhead] at hA
      · exact r8 A hA
    · intro ψ σ hσ
      rw [modesFrom_cons] at hσ ⊢
      have hσ2 : Admissible (modesFrom (n + 1) vs) σ := ⟨hσ.1, fun m hm => hσ.2 m (List.mem_cons_of_mem _ hm)⟩
      have hl0 : σ (label "I" n) < v.d := hσ.2 _ List.mem_cons_self
      have hE := hσ.1
      rw [applyH_append, r9 ψ σ hσ2, List.map_cons, List.sum_cons]
      congr 1
      have a1 : applyH head ψ σ =
          act (label "I" n) (Nd.smul (v.ω : ℂ) X) (act "ELEC" (Nd.smul ((v.κ / v.ω : ℝ) : ℂ) (arr2 0 1 1 0)) ψ) σ := by
        simp [hhead, applyH, applyTerm]
      have a2 := q_congr (ω := v.ω) (d := v.d) (label_ne (k := n)) (fun τ hτ => act_exchange "ELEC" ((v.κ / v.ω : ℝ) : ℂ) ψ hτ) hE
      rw [a1, act_coordinate hd x1 _ _ hl0, a2, q_smul]
      dsimp only
      have b1 : (v.ω : ℂ) * ((v.κ / v.ω : ℝ) : ℂ) = (v.κ : ℂ) := by
        rw [← Complex.ofReal_mul]
        congr 1
        field_simp
      rw [← mul_assoc, b1]

/-- `collect_electric_terms` does not change the operator, with any field. -/
theorem collect_ok {f : ℝ → Res (Nd ℂ)} {hList : List (Term ℂ)} (hex : ∃ A, [("ELEC", A)] ∈ hList)
    (hA : ∀ A, [("ELEC", A)] ∈ hList → A.Wf ∧ A.shape = [2, 2]) :
    ∃ h, collectElectricTerms "ELEC" f hList false = .ok (h, [[("ELEC", f)]]) ∧
      ∀ (ψ : Wave) (σ : String → ℕ), σ "ELEC" < 2 → applyH h ψ σ = applyH hList ψ σ := by
  obtain ⟨h, g, ft, c1, c2, c3⟩ := C53_collect (T := Unit) (field := fun _ => .ok (arr2 0 0 0 0)) (t := ()) hex hA rfl (arr2_wf _ _ _ _) rfl false
  refine ⟨h, ?_, fun ψ σ hσ => ?_⟩
  · unfold collectElectricTerms at c1 ⊢
    dsimp only at c1 ⊢
    cases hs : sumArrays ((hList.filter (isElec "ELEC")).map fun term => term.map Prod.snd).flatten with
    | error e => rw [hs] at c1; cases c1
    | ok a =>
      rw [hs, ok_bind] at c1
      rw [ok_bind]
      simp only [Bool.false_eq_true, if_false] at c1 ⊢
      have := Except.ok.inj c1
      rw [Prod.mk.injEq] at this
      rw [← this.1]
      rfl
  · have h3 := c3 ψ σ hσ
    have hg : ft = [[("ELEC", arr2 0 0 0 0)]] := by
      unfold collectElectricTerms at c1
      dsimp only at c1
      cases hs : sumArrays ((hList.filter (isElec "ELEC")).map fun term => term.map Prod.snd).flatten with
      | error e => rw [hs] at c1; cases c1
      | ok a =>
        rw [hs, ok_bind] at c1
        simp only [Bool.false_eq_true, if_false] at c1
        have := Except.ok.inj c1
        rw [Prod.mk.injEq] at this
        rw [← this.2] at c2
        exact (Except.ok.inj c2).symm
    have h4 : applyH ft ψ σ = act "ELEC" (arr2 0 0 0 0) ψ σ := by rw [hg]; simp [applyH, applyTerm]
    rw [h4] at h3
    exact add_right_cancel h3

end SpinBoson
