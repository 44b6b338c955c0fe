import Verif.Lemmas.SpinBosonModel

/-!
C115: `SpinBosonModel` builds the spin-boson Hamiltonian of its documentation.
-/

open scoped BigOperators
open Py

namespace SpinBoson

open SpinBosonSpec

/-! ### The two forms of a vibration -/

private theorem below_add (l : String) (φ χ : Wave) (σ : String → ℕ) : below l (fun τ => φ τ + χ τ) σ = below l φ σ + below l χ σ := by
  unfold below; split_ifs <;> ring
private theorem below_sub (l : String) (φ χ : Wave) (σ : String → ℕ) : below l (fun τ => φ τ - χ τ) σ = below l φ σ - below l χ σ := by
  unfold below; split_ifs <;> ring
private theorem below_smul (l : String) (k : ℂ) (φ : Wave) (σ : String → ℕ) : below l (fun τ => k * φ τ) σ = k * below l φ σ := by
  unfold below; split_ifs <;> ring
private theorem above_add (d : ℕ) (l : String) (φ χ : Wave) (σ : String → ℕ) : above d l (fun τ => φ τ + χ τ) σ = above d l φ σ + above d l χ σ := by
  unfold above; split_ifs <;> ring
private theorem above_sub (d : ℕ) (l : String) (φ χ : Wave) (σ : String → ℕ) : above d l (fun τ => φ τ - χ τ) σ = above d l φ σ - above d l χ σ := by
  unfold above; split_ifs <;> ring
private theorem above_smul (d : ℕ) (l : String) (k : ℂ) (φ : Wave) (σ : String → ℕ) : above d l (fun τ => k * φ τ) σ = k * above d l φ σ := by
  unfold above; split_ifs <;> ring

private theorem q_sub (ω : ℝ) (d : ℕ) (l : String) (φ χ : Wave) (σ : String → ℕ) : q ω d l (fun τ => φ τ - χ τ) σ = q ω d l φ σ - q ω d l χ σ := by
  unfold q
  rw [below_sub, above_sub]
  ring

private theorem below_above {d : ℕ} {l : String} (ψ : Wave) {σ : String → ℕ} (h : σ l < d) : below l (above d l ψ) σ = (σ l : ℂ) * ψ σ := by
  unfold below
  by_cases h0 : σ l = 0
  · rw [if_pos h0, h0, Nat.cast_zero, zero_mul]
  · obtain ⟨k, hk⟩ := Nat.exists_eq_succ_of_ne_zero h0
    rw [if_neg h0]
    unfold above
    have e1 : Function.update σ l (σ l - 1) l = k := by rw [Function.update_self]; omega
    rw [e1, if_pos (by omega), Function.update_idem]
    have e2 : k + 1 = σ l := by omega
    rw [e2, Function.update_eq_self, ← mul_assoc, ← Complex.ofReal_mul, Real.mul_self_sqrt (Nat.cast_nonneg _)]
    simp

private theorem above_below {d : ℕ} {l : String} (ψ : Wave) {σ : String → ℕ} (h : σ l + 1 < d) :
    above d l (below l ψ) σ = ((σ l : ℂ) + 1) * ψ σ := by
  unfold above
  rw [if_pos h]
  unfold below
  rw [Function.update_self, if_neg (by omega), Function.update_idem, Nat.add_sub_cancel, Function.update_eq_self, ← mul_assoc,
    ← Complex.ofReal_mul, Real.mul_self_sqrt (Nat.cast_nonneg _)]
  push_cast
  ring

private theorem second_second (e : String) (ψ : Wave) : second e (second e ψ) = second e ψ := by
  funext σ
  unfold second
  split_ifs <;> rfl

private theorem second_q {ω : ℝ} {d : ℕ} {l e : String} (hne : e ≠ l) (ψ : Wave) (σ : String → ℕ) :
    second e (q ω d l ψ) σ = q ω d l (second e ψ) σ := by
  unfold second q below above
  have : ∀ b, Function.update σ l b e = σ e := fun b => Function.update_of_ne hne b σ
  simp only [this]
  split_ifs <;> simp

/-- Below the highest state of the oscillator the documented form `½ (p² + ω² (q - (2 c/ω²) |2><2|)²)` and `ω (n + ½) - 2 c q |2><2| + λ |2><2|`
are the same; in the highest state they differ, because the truncated `q` and `p` have no state to go to. -/
theorem vibration_eq {e : String} {m : Mode} (hω : 0 < m.ω) (hl : 0 ≤ m.lam) (hne : e ≠ m.l) (ψ : Wave) {σ : String → ℕ} (h : σ m.l + 1 < m.d) :
    vibration e m ψ σ = vibrationNumber e m ψ σ := by
  have hω' : (m.ω : ℂ) ≠ 0 := by exact_mod_cast hω.ne'
  set s : ℂ := ((2 * m.c / m.ω ^ 2 : ℝ) : ℂ) with hs
  have hQ : displaced e m (displaced e m ψ) σ = q m.ω m.d m.l (q m.ω m.d m.l ψ) σ - 2 * s * q m.ω m.d m.l (second e ψ) σ + s ^ 2 * second e ψ σ := by
    have e1 : displaced e m ψ = fun τ => q m.ω m.d m.l ψ τ - s * second e ψ τ := rfl
    have e2 : displaced e m (displaced e m ψ) σ = q m.ω m.d m.l (displaced e m ψ) σ - s * second e (displaced e m ψ) σ := rfl
    have e3 : second e (displaced e m ψ) σ = second e (q m.ω m.d m.l ψ) σ - s * second e (second e ψ) σ := by
      rw [e1]
      by_cases hh : σ e = 1 <;> simp [second, hh]
    rw [e2, e3, e1, q_sub, q_smul, second_q hne, second_second]
    ring
  set A := below m.l (below m.l ψ) σ with hA
  set D := above m.d m.l (above m.d m.l ψ) σ with hD
  have hqq : q m.ω m.d m.l (q m.ω m.d m.l ψ) σ = 1 / (2 * m.ω) * (A + D + (2 * (σ m.l : ℂ) + 1) * ψ σ) := by
    have e1 : q m.ω m.d m.l ψ = fun τ => ((Real.sqrt (1 / (2 * m.ω)) : ℝ) : ℂ) * (below m.l ψ τ + above m.d m.l ψ τ) := rfl
    rw [e1, q_smul]
    unfold q
    rw [below_add, above_add, below_above ψ (by omega), above_below ψ h, ← hA, ← hD, ← mul_assoc, ← Complex.ofReal_mul,
      Real.mul_self_sqrt (by positivity)]
    push_cast
    ring
  have hpp : p m.ω m.d m.l (p m.ω m.d m.l ψ) σ = -(m.ω / 2) * (A + D - (2 * (σ m.l : ℂ) + 1) * ψ σ) := by
    have e1 : p m.ω m.d m.l ψ = fun τ => (Complex.I * ((Real.sqrt (m.ω / 2) : ℝ) : ℂ)) * (below m.l ψ τ - above m.d m.l ψ τ) := rfl
    have e2 : ∀ φ : Wave, p m.ω m.d m.l φ σ = (Complex.I * ((Real.sqrt (m.ω / 2) : ℝ) : ℂ)) * (below m.l φ σ - above m.d m.l φ σ) := fun _ => rfl
    have e3 : ((Real.sqrt (m.ω / 2) : ℝ) : ℂ) * ((Real.sqrt (m.ω / 2) : ℝ) : ℂ) = (m.ω : ℂ) / 2 := by
      rw [← Complex.ofReal_mul, Real.mul_self_sqrt (by positivity)]
      push_cast
      ring
    rw [e2, e1, below_smul, above_smul, below_sub, above_sub, below_above ψ (by omega), above_below ψ h, ← hA, ← hD]
    generalize ((Real.sqrt (m.ω / 2) : ℝ) : ℂ) = r at e3 ⊢
    have hI := Complex.I_mul_I
    generalize Complex.I = i at hI ⊢
    linear_combination ((A + D - (2 * (σ m.l : ℂ) + 1) * ψ σ) * r * r) * hI - (A + D - (2 * (σ m.l : ℂ) + 1) * ψ σ) * e3
  have hs1 : (m.ω : ℂ) ^ 2 * s = 2 * (m.c : ℂ) := by
    rw [hs]
    push_cast
    field_simp
  have hs2 : (m.ω : ℂ) ^ 2 * s ^ 2 = 2 * (m.lam : ℂ) := by
    have : (m.ω : ℝ) ^ 2 * (2 * m.c / m.ω ^ 2) ^ 2 = 2 * m.lam := by
      unfold Mode.c
      have hr := Real.sq_sqrt (show (0 : ℝ) ≤ m.lam / 2 by positivity)
      generalize Real.sqrt (m.lam / 2) = r at hr ⊢
      have : m.lam = 2 * r ^ 2 := by linarith
      rw [this]
      field_simp
    rw [hs]
    exact_mod_cast this
  unfold vibration vibrationNumber
  rw [hQ, hqq, hpp]
  have hinv : (m.ω : ℂ) ^ 2 * (1 / (2 * m.ω)) = m.ω / 2 := by field_simp
  generalize q m.ω m.d m.l (second e ψ) σ = Qs
  linear_combination (1 / 2 * (A + D + (2 * (σ m.l : ℂ) + 1) * ψ σ)) * hinv - Qs * hs1 + (1 / 2 * second e ψ σ) * hs2

/-! ### The constructor -/

/-- The arguments describe the electronic states and the vibrations `vs`. -/
structure Describes (P : Params) (e1 e2 v : ℝ) (vs : List Vib) : Prop where
  e1 : P.e1 = some e1
  e2 : P.e2 = some e2
  v : P.v = some v
  omega : P.omegaList = some (vs.map (·.ω))
  lam : P.lambdaList = some (vs.map (·.lam))
  dim : P.dimList = some (vs.map (·.d))
  ok : ∀ x ∈ vs, x.Ok

/-- The vibrations without relaxation. -/
def bare (vs : List Vib) : List Vib := vs.map fun x => { x with κ := 0 }

variable {P : Params} {e1 e2 v : ℝ} {vs : List Vib}

private theorem zip3 {α β γ : Type} (f : Vib → α) (g : Vib → β) (h : Vib → γ) : ∀ vs : List Vib,
    (vs.map f).zip ((vs.map g).zip (vs.map h)) = vs.map fun x => (f x, g x, h x)
  | [] => rfl
  | x :: vs => by simp [zip3 f g h vs]

private theorem electron_ok (hP : Describes P e1 e2 v vs) : electronHamiltonian P {} =
    .ok ({ elecLeaf := some "ELEC", leaves := ["ELEC"], dimensions := Dict.set [] "ELEC" 2 }, [[("ELEC", arr2 e1 v v e2)]]) := by
  unfold electronHamiltonian
  rw [hP.e1, hP.e2, hP.v]
  rfl

private theorem inner_ok (hP : Describes P e1 e2 v vs) {s : State} (hs : s.elecLeaf = some "ELEC") : innerHamiltonian P s =
    vibrationLoop "ELEC" "I" 0 (vs.map fun v => (v.d, v.ω, Real.sqrt (v.lam / 2) * v.ω)) { s with innerPrefix := some "I" } [] := by
  unfold innerHamiltonian
  rw [hP.omega, hP.lam, hP.dim]
  have e : npMul ((vs.map (·.lam)).map fun x => Real.sqrt (x / 2)) (vs.map (·.ω)) = .ok (vs.map fun x => Real.sqrt (x.lam / 2) * x.ω) := by
    unfold npMul
    rw [if_pos (by simp), List.map_map, List.zipWith_map]
    congr 1
    induction vs with
    | nil => rfl
    | cons x l ih => simp
  have g : ∀ (α : Type) (a : α), getAttr (some a) = .ok a := fun _ _ => rfl
  rw [g, ok_bind, g, ok_bind, g, ok_bind, e, ok_bind]
  unfold vibrationHamiltonian
  dsimp only
  rw [hs, g, ok_bind, zip3]

private theorem modes_bare (n : ℕ) (vs : List Vib) : (modesFrom n (bare vs)).map (·.1) = (modesFrom n vs).map (·.1) ∧
    ∀ m ∈ modesFrom n (bare vs), m.2 = 0 := by
  induction vs generalizing n with
  | nil => simp [bare, modesFrom]
  | cons x l ih =>
    have e : bare (x :: l) = { x with κ := 0 } :: bare l := rfl
    rw [e, modesFrom_cons, modesFrom_cons]
    obtain ⟨i1, i2⟩ := ih (n + 1)
    refine ⟨by simp [i1], fun m hm => ?_⟩
    rcases List.mem_cons.1 hm with rfl | hm
    · rfl
    · exact i2 m hm

/-- The relaxation couplings that are given, 0 without. -/
def withRelaxation (relaxed : Bool) (vs : List Vib) : List Vib := if relaxed then vs else bare vs

private theorem init_ok (hP : Describes P e1 e2 v vs) (relaxed : Bool) :
    ∃ M, init P false (if relaxed then some (vs.map (·.κ)) else none) = .ok M ∧ M.fList = [[("ELEC", field P)]] ∧ M.state.innerPrefix = some "I" ∧
      M.state.leaves = "ELEC" :: (modesFrom 0 vs).map (·.1.l) ∧ M.state.leaves.Nodup ∧ M.state.dimensions.get? "ELEC" = some 2 ∧
      (∀ m ∈ modesFrom 0 vs, M.state.dimensions.get? m.1.l = some m.1.d) ∧
      ∀ ψ σ, Admissible (modesFrom 0 vs) σ →
        applyH M.hList ψ σ = hamiltonian vibrationNumber "ELEC" e1 e2 v (modesFrom 0 (withRelaxation relaxed vs)) ψ σ := by
  set s0 : State := { elecLeaf := some "ELEC", leaves := ["ELEC"], dimensions := Dict.set [] "ELEC" 2 } with hs0
  obtain ⟨s', new, r1, r2, r3, r4, r5, r6, r7, r8, r9⟩ := vibrationLoop_ok vs 0 { s0 with innerPrefix := some "I" } [] hP.ok
  obtain ⟨rel, l1, l2, l3⟩ := relaxationLoop_ok vs 0 [] hP.ok
  rw [List.nil_append] at r1 l1
  have hel : s'.elecLeaf = some "ELEC" := r2
  have hrel : relaxationHamiltonian P (vs.map (·.κ)) "I" s' = .ok rel := by
    unfold relaxationHamiltonian
    rw [hP.omega, hP.lam, hP.dim, hel]
    have g : ∀ (α : Type) (a : α), getAttr (some a) = .ok a := fun _ _ => rfl
    rw [g, ok_bind, g, ok_bind, g, ok_bind, g, ok_bind, zip3, l1]
  have key : ∀ full : List (Term ℂ), full = [[("ELEC", arr2 e1 v v e2)]] ++ new ∨ full = [[("ELEC", arr2 e1 v v e2)]] ++ new ++ rel →
      ∃ h, collectElectricTerms "ELEC" (field P) full false = .ok (h, [[("ELEC", field P)]]) ∧
        ∀ (ψ : Wave) (σ : String → ℕ), σ "ELEC" < 2 → applyH h ψ σ = applyH full ψ σ := by
    intro full hf
    refine collect_ok ⟨arr2 e1 v v e2, ?_⟩ fun A hA => ?_
    · rcases hf with rfl | rfl <;> simp
    · have : A = arr2 e1 v v e2 ∨ [("ELEC", A)] ∈ new := by
        rcases hf with rfl | rfl
        · simpa using hA
        · simp only [List.mem_append] at hA
          rcases hA with (hA | hA) | hA
          · left; simpa using hA
          · exact Or.inr hA
          · exact absurd hA (l2 A)
      rcases this with rfl | hA
      · exact ⟨arr2_wf _ _ _ _, rfl⟩
      · exact r8 A hA
  have helec : ∀ (ψ : Wave) (σ : String → ℕ), σ "ELEC" < 2 → applyH [[("ELEC", arr2 e1 v v e2)]] ψ σ = electronic "ELEC" e1 e2 v ψ σ := by
    intro ψ σ hσ
    rw [← act_elec "ELEC" e1 e2 v ψ hσ]
    simp [applyH, applyTerm]
  have hleaves : s'.leaves = "ELEC" :: (modesFrom 0 vs).map (·.1.l) := r5
  have hlab : ∀ (l : List Vib) (n : ℕ), (modesFrom n l).map (·.1.l) = (List.range' n l.length).map (label "I") := by
    intro l
    induction l with
    | nil => intro n; rfl
    | cons x l ih => intro n; rw [modesFrom_cons, List.map_cons, ih (n + 1), List.length_cons, List.range'_succ, List.map_cons]
  have hnodup : s'.leaves.Nodup := by
    rw [hleaves, hlab, List.nodup_cons]
    refine ⟨fun hm => ?_, (List.nodup_range').map fun i j hij => label_inj hij⟩
    obtain ⟨k, -, hk⟩ := List.mem_map.1 hm
    exact label_ne hk.symm
  have hdimE : s'.dimensions.get? "ELEC" = some 2 := by
    rw [r6 "ELEC" fun i _ => label_ne]
    rfl
  have start : ∀ rl : Option (List ℝ), init P false rl = (do
      let hList ← match rl with
        | none => pure ([[("ELEC", arr2 e1 v v e2)]] ++ new)
        | some cs => do pure ([[("ELEC", arr2 e1 v v e2)]] ++ new ++ (← relaxationHamiltonian P cs "I" s'))
      let (h, f) ← collectElectricTerms "ELEC" (field P) hList false
      pure ⟨s', false, h, f⟩) := by
    intro rl
    unfold init
    rw [electron_ok hP, ok_bind]
    dsimp only
    rw [inner_ok hP rfl, r1, ok_bind]
    simp only [Bool.false_eq_true, if_false]
    have g : getAttr s'.elecLeaf = .ok "ELEC" := by rw [hel]; rfl
    cases rl with
    | none => simp only [pure_bind, g, ok_bind]
    | some cs => simp only [pure_bind, bind_assoc, g, ok_bind]
  cases relaxed with
  | false =>
    obtain ⟨h, k1, k2⟩ := key _ (Or.inl rfl)
    refine ⟨⟨s', false, h, [[("ELEC", field P)]]⟩, ?_, rfl, r3, hleaves, hnodup, hdimE, r7, fun ψ σ hσ => ?_⟩
    · rw [start]
      simp only [Bool.false_eq_true, if_false]
      change (do
        let (h, f) ← collectElectricTerms "ELEC" (field P) ([[("ELEC", arr2 e1 v v e2)]] ++ new) false
        pure (Model.mk s' false h f)) = _
      rw [k1]
      rfl
    · dsimp only
      rw [k2 ψ σ hσ.1, applyH_append, helec ψ σ hσ.1, r9 ψ σ hσ]
      unfold hamiltonian withRelaxation
      simp only [Bool.false_eq_true, if_false]
      obtain ⟨b1, b2⟩ := modes_bare 0 vs
      congr 1
      have t1 : ((modesFrom 0 vs).map fun m => vibrationNumber "ELEC" m.1 ψ σ) =
          ((modesFrom 0 vs).map (·.1)).map fun m => vibrationNumber "ELEC" m ψ σ := by rw [List.map_map]; rfl
      rw [t1, ← b1, List.map_map]
      congr 1
      refine List.map_congr_left fun m hm => ?_
      rw [b2 m hm]
      simp
  | true =>
    obtain ⟨h, k1, k2⟩ := key _ (Or.inr rfl)
    refine ⟨⟨s', false, h, [[("ELEC", field P)]]⟩, ?_, rfl, r3, hleaves, hnodup, hdimE, r7, fun ψ σ hσ => ?_⟩
    · rw [start]
      simp only [if_true]
      rw [hrel]
      change (do
        let (h, f) ← collectElectricTerms "ELEC" (field P) ([[("ELEC", arr2 e1 v v e2)]] ++ new ++ rel) false
        pure (Model.mk s' false h f)) = _
      rw [k1]
      rfl
    · dsimp only
      rw [k2 ψ σ hσ.1, applyH_append, applyH_append, helec ψ σ hσ.1, r9 ψ σ hσ, l3 ψ σ hσ]
      unfold hamiltonian withRelaxation
      simp only [if_true]
      rw [add_assoc, ← List.sum_map_add]

/-- For every list of vibrations with positive frequencies, reorganisation energies that are not negative and at least one state each, with
relaxation or without, the constructor without the outer bath succeeds; the leaves are the electronic one and one per vibration; their
dimensions are the given ones; the operator of `h_list` is `H_e + Σ_k (ω_k (n_k + ½) - 2 c_k q_k |2><2| + λ_k |2><2|)` and the relaxation,
with `c_k = ω_k √(λ_k/2)`. -/
theorem C115_hamiltonian_partial (hP : Describes P e1 e2 v vs) (relaxed : Bool) :
    ∃ M, init P false (if relaxed then some (vs.map (·.κ)) else none) = .ok M ∧
      M.state.leaves = "ELEC" :: (modesFrom 0 vs).map (·.1.l) ∧ M.state.leaves.Nodup ∧ M.state.dimensions.get? "ELEC" = some 2 ∧
      (∀ m ∈ modesFrom 0 vs, M.state.dimensions.get? m.1.l = some m.1.d) ∧
      ∀ ψ σ, Admissible (modesFrom 0 vs) σ →
        applyH M.hList ψ σ = hamiltonian vibrationNumber "ELEC" e1 e2 v (modesFrom 0 (withRelaxation relaxed vs)) ψ σ := by
  obtain ⟨M, h1, -, -, h2⟩ := init_ok hP relaxed
  exact ⟨M, h1, h2⟩

private theorem modes_ok {vs : List Vib} (h : ∀ x ∈ vs, x.Ok) : ∀ (n : ℕ), ∀ m ∈ modesFrom n vs, 0 < m.1.ω ∧ 0 ≤ m.1.lam ∧ "ELEC" ≠ m.1.l := by
  induction vs with
  | nil => intro n m hm; simp [modesFrom] at hm
  | cons x l ih =>
    intro n m hm
    obtain ⟨hx, hl⟩ := List.forall_mem_cons.1 h
    rw [modesFrom_cons] at hm
    rcases List.mem_cons.1 hm with rfl | hm
    · exact ⟨hx.1, hx.2.1, label_ne⟩
    · exact ih hl (n + 1) m hm

private theorem modes_relax (relaxed : Bool) (vs : List Vib) : (modesFrom 0 (withRelaxation relaxed vs)).map (·.1) = (modesFrom 0 vs).map (·.1) := by
  cases relaxed with
  | true => rfl
  | false => exact (modes_bare 0 vs).1

/-- The operator is the documented one, `H_e + ½ Σ_k (p_k² + ω_k² (q_k - (2 c_k/ω_k²) |2><2|)²)` and the relaxation, on every component in which
no oscillator is in the highest state of its basis. -/
theorem C115_documented_partial (hP : Describes P e1 e2 v vs) (relaxed : Bool) :
    ∃ M, init P false (if relaxed then some (vs.map (·.κ)) else none) = .ok M ∧
      ∀ ψ σ, σ "ELEC" < 2 → (∀ m ∈ modesFrom 0 vs, σ m.1.l + 1 < m.1.d) →
        applyH M.hList ψ σ = hamiltonian vibration "ELEC" e1 e2 v (modesFrom 0 (withRelaxation relaxed vs)) ψ σ := by
  obtain ⟨M, h1, -, -, -, -, h2⟩ := C115_hamiltonian_partial hP relaxed
  refine ⟨M, h1, fun ψ σ hE hσ => ?_⟩
  rw [h2 ψ σ ⟨hE, fun m hm => by have := hσ m hm; omega⟩]
  unfold hamiltonian
  congr 2
  refine List.map_congr_left fun m hm => ?_
  have hm1 : m.1 ∈ (modesFrom 0 vs).map (·.1) := by
    rw [← modes_relax relaxed vs]
    exact List.mem_map_of_mem hm
  obtain ⟨m', hm', e⟩ := List.mem_map.1 hm1
  obtain ⟨o1, o2, o3⟩ := modes_ok hP.ok 0 m' hm'
  have o4 := hσ m' hm'
  rw [e] at o1 o2 o3 o4
  rw [vibration_eq o1 o2 o3 ψ o4]

/-- `inner_leaves` are the leaves of the vibrations, in their order. -/
theorem C115_inner_leaves (hP : Describes P e1 e2 v vs) (relaxed : Bool) :
    ∃ M, init P false (if relaxed then some (vs.map (·.κ)) else none) = .ok M ∧ M.innerLeaves = .ok ((modesFrom 0 vs).map (·.1.l)) := by
  obtain ⟨M, h1, -, h3, h4, -⟩ := init_ok hP relaxed
  refine ⟨M, h1, ?_⟩
  unfold Model.innerLeaves
  rw [h3, h4]
  have e1 : "I".toList = ['I'] := by decide
  have e2 : "ELEC".toList = ['E', 'L', 'E', 'C'] := by decide
  dsimp only
  rw [e1, List.filter_cons, e2]
  have : List.isPrefixOf ['I'] ['E', 'L', 'E', 'C'] = false := by decide
  rw [this]
  simp only [Bool.false_eq_true, if_false]
  congr 1
  refine List.filter_eq_self.2 fun x hx => ?_
  obtain ⟨m, hm, rfl⟩ := List.mem_map.1 hx
  obtain ⟨y, -, rfl⟩ := List.mem_map.1 hm
  change List.isPrefixOf ['I'] (label "I" y.2).toList = true
  unfold label
  rw [String.toList_append, e1]
  simp [List.isPrefixOf]

/-- With the parameters of the field, the time-dependent term is `μ exp(-4 ln 2 ((t - t_d)/τ)²) cos(ω (t - t_d)) (|1><2| + |2><1|)` at every
time. -/
theorem C115_field (hP : Describes P e1 e2 v vs) (relaxed : Bool) {mu tau td omega : ℝ} (h1 : P.mu = some mu) (h2 : P.tau = some tau)
    (h3 : P.td = some td) (h4 : P.omega = some omega) (h0 : tau ≠ 0) :
    ∃ M, init P false (if relaxed then some (vs.map (·.κ)) else none) = .ok M ∧ ∀ t, ∃ ft, atTime M.fList t = .ok ft ∧
      ∀ ψ σ, σ "ELEC" < 2 → applyH ft ψ σ =
        ((mu * Real.exp (-4 * Real.log 2 * ((t - td) / tau) ^ 2) * Real.cos (omega * (t - td)) : ℝ) : ℂ) * exchange "ELEC" ψ σ := by
  obtain ⟨M, m1, m2, -⟩ := init_ok hP relaxed
  refine ⟨M, m1, fun t => ?_⟩
  have hf : field P t = .ok (Nd.smul ((Real.exp (-4 * Real.log 2 * ((t - td) / tau) ^ 2) * Real.cos (omega * (t - td)) : ℝ) : ℂ) (arr2 0 mu mu 0)) := by
    unfold field
    rw [h1, h2, h3, h4]
    have g : ∀ (α : Type) (a : α), getAttr (some a) = .ok a := fun _ _ => rfl
    rw [g, ok_bind, g, ok_bind, g, ok_bind, g, ok_bind]
    dsimp only
    rw [if_neg h0]
    rfl
  refine ⟨[[("ELEC", Nd.smul ((Real.exp (-4 * Real.log 2 * ((t - td) / tau) ^ 2) * Real.cos (omega * (t - td)) : ℝ) : ℂ) (arr2 0 mu mu 0))]],
    ?_, fun ψ σ hσ => ?_⟩
  · rw [m2]
    simp [atTime, hf, ok_bind]
  · have e : ∀ A : Nd ℂ, applyH [[("ELEC", A)]] ψ σ = act "ELEC" A ψ σ := fun A => by simp [applyH, applyTerm]
    rw [e, act_arr2 "ELEC" _ _ _ _ _ ψ hσ]
    rcases lt_two hσ with h | h <;> simp [h] <;> ring

/-- A parameter of the electronic or inner part that is missing raises `AttributeError`. -/
theorem C115_missing (bath : Bool) (rl : Option (List ℝ)) (h : P.e1 = none ∨ P.e2 = none ∨ P.v = none ∨ P.omegaList = none ∨
    P.lambdaList = none ∨ P.dimList = none) : init P bath rl = .error .attributeError := by
  have g : ∀ (α : Type) (a : α), getAttr (some a) = .ok a := fun _ _ => rfl
  have n : ∀ α : Type, getAttr (none : Option α) = .error .attributeError := fun _ => rfl
  have el : P.e1 = none ∨ P.e2 = none ∨ P.v = none → electronHamiltonian P {} = .error .attributeError := by
    intro h
    unfold electronHamiltonian
    cases a : P.e1 with
    | none => rw [n, error_bind]
    | some a =>
      rw [g, ok_bind]
      cases b : P.e2 with
      | none => rw [n, error_bind]
      | some b =>
        rw [g, ok_bind]
        cases c : P.v with
        | none => rw [n, error_bind]
        | some c => simp_all
  have inn : ∀ s, P.omegaList = none ∨ P.lambdaList = none ∨ P.dimList = none → innerHamiltonian P s = .error .attributeError := by
    intro s h
    unfold innerHamiltonian
    cases a : P.omegaList with
    | none => rw [n, error_bind]
    | some a =>
      rw [g, ok_bind]
      cases b : P.lambdaList with
      | none => rw [n, error_bind]
      | some b =>
        rw [g, ok_bind]
        cases c : P.dimList with
        | none => rw [n, error_bind]
        | some c => simp_all
  unfold init
  by_cases h1 : P.e1 = none ∨ P.e2 = none ∨ P.v = none
  · rw [el h1, error_bind]
  · have h2 : P.omegaList = none ∨ P.lambdaList = none ∨ P.dimList = none := by tauto
    cases hE : electronHamiltonian P {} with
    | error e =>
      exfalso
      unfold electronHamiltonian at hE
      cases a : P.e1 with
      | none => exact h1 (Or.inl a)
      | some a =>
        cases b : P.e2 with
        | none => exact h1 (Or.inr (Or.inl b))
        | some b =>
          cases c : P.v with
          | none => exact h1 (Or.inr (Or.inr c))
          | some c => rw [‹P.e1 = _›, ‹P.e2 = _›, ‹P.v = _›] at hE; cases hE
    | ok r =>
      rw [ok_bind]
      dsimp only
      rw [inn _ h2, error_bind]

/-- `including_bath=True` never works: for complete and correct parameters the constructor raises `AttributeError`, because it looks for
`bimodal_spectral_density` in the wrong module. -/
theorem C115_bath_violated : (∀ (P : Params) (rl : Option (List ℝ)) (M : Model), init P true rl ≠ .ok M) ∧
    ∀ (P : Params) (e1 e2 v : ℝ) (vs : List Vib) (rl : Option (List ℝ)), Describes P e1 e2 v vs → (∀ x ∈ P.outer, x.isSome) →
      init P true rl = .error .attributeError := by
  have ho : ∀ (P : Params) (s : State) r, outerHamiltonian P s ≠ .ok r := by
    intro P s r h
    unfold outerHamiltonian at h
    cases e : P.outer.mapM getAttr with
    | error e => rw [‹P.outer.mapM getAttr = _›] at h; cases h
    | ok a => rw [‹P.outer.mapM getAttr = _›] at h; cases h
  refine ⟨fun P rl M h => ?_, fun P e1 e2 v vs rl hP hout => ?_⟩
  · unfold init at h
    cases e1 : electronHamiltonian P {} with
    | error e => rw [e1] at h; cases h
    | ok r =>
      rw [e1, ok_bind] at h
      dsimp only at h
      cases e2 : innerHamiltonian P r.1 with
      | error e => rw [e2] at h; cases h
      | ok r2 =>
        rw [e2, ok_bind] at h
        simp only [if_true] at h
        cases e3 : outerHamiltonian P r2.1 with
        | error e => rw [e3] at h; cases h
        | ok r3 => exact ho P _ _ e3
  · have hout' : ∃ l, P.outer.mapM getAttr = .ok l := by
      revert hout
      generalize P.outer = l
      induction l with
      | nil => intro _; exact ⟨[], rfl⟩
      | cons x l ih =>
        intro h
        obtain ⟨hx, hl⟩ := List.forall_mem_cons.1 h
        obtain ⟨a, rfl⟩ := Option.isSome_iff_exists.1 hx
        obtain ⟨r, hr⟩ := ih hl
        refine ⟨a :: r, ?_⟩
        rw [List.mapM_cons, hr]
        rfl
    obtain ⟨l, hl⟩ := hout'
    obtain ⟨s', new, r1, -⟩ := vibrationLoop_ok vs 0
      { elecLeaf := some "ELEC", leaves := ["ELEC"], dimensions := Dict.set [] "ELEC" 2, innerPrefix := some "I" } [] hP.ok
    unfold init
    rw [electron_ok hP, ok_bind]
    dsimp only
    rw [inner_ok hP rfl, r1, ok_bind]
    simp only [if_true]
    have : outerHamiltonian P s' = .error .attributeError := by
      unfold outerHamiltonian
      rw [hl]
      rfl
    rw [this]
    rfl

/-- Vibrations without a number of states are left out without an error. -/
theorem C115_lengths_violated {ω lam : List ℝ} (h : lam.length = ω.length) (h1 : P.e1 = some e1) (h2 : P.e2 = some e2) (h3 : P.v = some v)
    (h4 : P.omegaList = some ω) (h5 : P.lambdaList = some lam) (h6 : P.dimList = some []) :
    ∃ M, init P false none = .ok M ∧ M.state.leaves = ["ELEC"] := by
  have g : ∀ (α : Type) (a : α), getAttr (some a) = .ok a := fun _ _ => rfl
  obtain ⟨H, c1, -⟩ := collect_ok (f := field P) (hList := [[("ELEC", arr2 e1 v v e2)]]) ⟨arr2 e1 v v e2, List.mem_singleton.2 rfl⟩
    (fun A hA => by
      have : A = arr2 e1 v v e2 := by simpa using hA
      rw [this]
      exact ⟨arr2_wf _ _ _ _, rfl⟩)
  refine ⟨⟨{ elecLeaf := some "ELEC", leaves := ["ELEC"], dimensions := Dict.set [] "ELEC" 2, innerPrefix := some "I" }, false, H, [[("ELEC", field P)]]⟩,
    ?_, rfl⟩
  unfold init electronHamiltonian
  rw [h1, h2, h3, g, ok_bind, g, ok_bind, g, ok_bind]
  dsimp only
  unfold innerHamiltonian
  rw [h4, h5, h6, g]
  simp only [pure_bind, ok_bind, g]
  have : npMul (lam.map fun x => Real.sqrt (x / 2)) ω = .ok (List.zipWith (· * ·) (lam.map fun x => Real.sqrt (x / 2)) ω) := by
    unfold npMul
    rw [if_pos (by simpa using h)]
  rw [this]
  simp only [pure_bind, ok_bind, vibrationHamiltonian, g, List.zip_nil_left, vibrationLoop, Bool.false_eq_true, if_false, List.append_nil, c1]
  rfl

/-! Two electronic states and two vibrations with two and three states meet the hypotheses. -/

private def exVibs : List Vib := [⟨1, 2, 2, 1⟩, ⟨3, 0, 3, 0⟩]
private def exParams : Params :=
  ⟨some 0, some 1, some 2, some [1, 3], some [2, 0], some [2, 3], List.replicate 7 (some 1), some 1, some 1, some 0, some 2⟩

private theorem exDescribes : Describes exParams 0 1 2 exVibs :=
  ⟨rfl, rfl, rfl, rfl, rfl, rfl, by
    intro x hx
    simp only [exVibs, List.mem_cons, List.not_mem_nil, or_false] at hx
    rcases hx with rfl | rfl <;> simp [Vib.Ok]⟩

example : Describes exParams 0 1 2 exVibs ∧ Admissible (modesFrom 0 exVibs) (fun _ => 1) ∧ (∀ m ∈ modesFrom 0 exVibs, (fun _ : String => 0) m.1.l + 1 < m.1.d) ∧
    (∀ x ∈ exParams.outer, x.isSome) := by
  refine ⟨exDescribes, ⟨by decide, ?_⟩, ?_, ?_⟩
  · intro m hm
    simp [modesFrom, exVibs] at hm
    rcases hm with rfl | rfl <;> simp
  · intro m hm
    simp [modesFrom, exVibs] at hm
    rcases hm with rfl | rfl <;> simp
  · intro x hx
    rw [List.eq_of_mem_replicate hx]
    rfl

end SpinBoson
