import Verif.Lemmas.Sbm
import Verif.Props.C42
import Mathlib.Algebra.BigOperators.Field

/-!
C77: `heom_h_list` of the spin-boson model gives the hierarchical equations of motion of its oscillators and its bath.
C78: the scale of the hierarchy does not change the physical density matrix.
-/

open scoped BigOperators
open Py

namespace Sbm

open SbmSpec Heom

variable {L : Type} [DecidableEq L]

/-- The arguments of the model fit: system operators on `d` states, as many dimensions as oscillators, as many tiers as terms of the bath,
and no oscillator of frequency zero (or infinite temperature). -/
structure Setup (S : SpinBoson) (d : ℕ) (beta : Option ℝ) (bath : List BathTerm) : Prop where
  h : S.h.shape = [d, d]
  op : S.op.shape = [d, d]
  ph : S.phDims.length = S.ph.length
  bathTerms : HasTerms S.bathCorr bath
  bathDims : S.bathDims.length = bath.length
  beta : ∀ b, beta = some b → ∀ p ∈ S.ph, b * p.1 ≠ 0

/-- The terms of the oscillators, two for each, and those of the bath. -/
noncomputable def allTerms (S : SpinBoson) (beta : Option ℝ) (bath : List BathTerm) : List BathTerm :=
  (S.ph.map fun p => modeTerms beta p.1 p.2).flatten ++ bath

/-- The tiers: the dimension of every oscillator twice, then those of the bath. -/
def tiers (S : SpinBoson) : List ℕ := (S.phDims.map fun m => [m, m]).flatten ++ S.bathDims

private theorem tiers_eq (S : SpinBoson) : S.nTiers = tiers S := by
  unfold SpinBoson.nTiers tiers
  rw [List.flatMap_def]
  rfl

private theorem allTerms_eq (S : SpinBoson) (beta : Option ℝ) (bath : List BathTerm) :
    (S.ph.flatMap fun p => modeTerms beta p.1 p.2) ++ bath = allTerms S beta bath := by
  unfold allTerms
  rw [List.flatMap_def]

variable {S : SpinBoson} {d : ℕ} {beta : Option ℝ} {bath : List BathTerm}

theorem Setup.length (hS : Setup S d beta bath) : (tiers S).length = (allTerms S beta bath).length := by
  rw [← tiers_eq, ← allTerms_eq]
  unfold SpinBoson.nTiers
  rw [List.length_append, List.length_append, repeat_length, modes_length, hS.ph, hS.bathDims]

/-- The correlation function of the hierarchy. -/
private noncomputable def corrOf (S : SpinBoson) (beta : Option ℝ) (bath : List BathTerm) : Corr.Correlation :=
  ⟨(allTerms S beta bath).length, beta, (allTerms S beta bath).map (·.c), (allTerms S beta bath).map (·.c'), (allTerms S beta bath).map (·.γ)⟩

private theorem heom_eq (hS : Setup S d beta bath) (i j : L) (inds : List L) (s : ℂ) :
    S.heomHList i j (some inds) beta s = hList ⟨tiers S, S.h, S.op, corrOf S beta bath, s⟩ i j inds := by
  unfold SpinBoson.heomHList
  rw [generateBCF_ok hS.beta hS.bathTerms, ok_bind, allTerms_eq, tiers_eq]
  unfold Hierachy.init
  have e := hS.length
  simp only [e, Nd.ndim, hS.op, hS.h, ne_eq, not_true_eq_false, if_false, List.length_cons, List.length_nil, zero_add, Nat.reduceAdd]
  rfl

private theorem getD_map' {α : Type} (f : α → ℂ) (l : List α) (k : ℕ) (x : α) (hx : f x = 0) : (l.map f).getD k 0 = f (l.getD k x) := by
  rw [← hx, List.getD_map]

/-- What the terms of `heom_h_list` do, for all system operators: they act from the left with the transposed ones. -/
theorem C77_transposed (hS : Setup S d beta bath) {i j : L} {inds : List L} (hl : inds.length = (tiers S).length)
    (hn : (inds ++ [i, j]).Nodup) {s : ℂ} (hs : s ≠ 0) :
    ∃ terms, S.heomHList i j (some inds) beta s = .ok terms ∧ ∀ rho : Nd ℂ, rho.Wf → rho.shape = tiers S ++ [d, d] →
      ∃ D, derivativeOf (onAxes (inds ++ [i, j]) terms) rho = .ok D ∧ D.Wf ∧ D.shape = rho.shape ∧
        ∀ n a b, Valid (tiers S) n → a < d → b < d → tier D n a b =
          rhs2 d (tiers S) (fun a b => S.h.get [b, a]) (entries S.h) (fun a b => S.op.get [b, a]) (entries S.op)
            (fun k => ((allTerms S beta bath).getD k ⟨0, 0, 0⟩).γ) (fun k => ((allTerms S beta bath).getD k ⟨0, 0, 0⟩).c)
            (fun k => ((allTerms S beta bath).getD k ⟨0, 0, 0⟩).c')
            (fun m => ((Real.sqrt m : ℝ) : ℂ) / s) (fun m => s * ((Real.sqrt (m + 1 : ℕ) : ℝ) : ℂ)) rho n a b := by
  have e := hS.length
  obtain ⟨ts, h1, h2, h3⟩ := Hierachy.diff_all ⟨tiers S, S.h, S.op, corrOf S beta bath, s⟩ hs hS.h hS.op
    (by simp [corrOf, e]) (by simp [corrOf, e]) (by simp [corrOf, e])
  obtain ⟨lts, g1, g2⟩ := hList_ok _ h1 h2 (sysI := i) (sysJ := j) (ph := inds) (by simp [hl]) hn
  refine ⟨lts, (heom_eq hS i j inds s).trans g1, fun rho hw hsh => ?_⟩
  obtain ⟨D, d1, d2, d3, d4⟩ := h3 rho hw hsh
  refine ⟨D, by rw [g2]; exact d1, d2, d3, fun n a b hn ha hb => ?_⟩
  rw [d4 n a b hn ha hb]
  have e1 : (fun k => (corrOf S beta bath).derivative.getD k 0) = fun k => ((allTerms S beta bath).getD k ⟨0, 0, 0⟩).γ :=
    funext fun k => getD_map' BathTerm.γ _ k ⟨0, 0, 0⟩ rfl
  have e2 : (fun k => (corrOf S beta bath).coeff.getD k 0) = fun k => ((allTerms S beta bath).getD k ⟨0, 0, 0⟩).c :=
    funext fun k => getD_map' BathTerm.c _ k ⟨0, 0, 0⟩ rfl
  have e3 : (fun k => (corrOf S beta bath).conjCoeff.getD k 0) = fun k => ((allTerms S beta bath).getD k ⟨0, 0, 0⟩).c' :=
    funext fun k => getD_map' BathTerm.c' _ k ⟨0, 0, 0⟩ rfl
  rw [← e1, ← e2, ← e3]

/-! ### C77 -/

/-- For symmetric system operators: with one distinct label per tier, `heom_h_list` succeeds, and its terms, acting on an array whose axes
are the tiers and the two system indices, give the right-hand side of the hierarchical equations of motion, with the coefficients of the
oscillators at the given temperature followed by those of the bath. -/
theorem C77_heom_partial (hS : Setup S d beta bath) (sh : Symmetric d S.h) (sop : Symmetric d S.op) {i j : L} {inds : List L}
    (hl : inds.length = (tiers S).length) (hn : (inds ++ [i, j]).Nodup) {s : ℂ} (hs : s ≠ 0) :
    ∃ terms, S.heomHList i j (some inds) beta s = .ok terms ∧ ∀ rho : Nd ℂ, rho.Wf → rho.shape = tiers S ++ [d, d] →
      ∃ D, derivativeOf (onAxes (inds ++ [i, j]) terms) rho = .ok D ∧ D.Wf ∧ D.shape = rho.shape ∧
        ∀ n a b, Valid (tiers S) n → a < d → b < d → tier D n a b =
          heomRhs d (tiers S) (entries S.h) (entries S.op)
            (fun k => ((allTerms S beta bath).getD k ⟨0, 0, 0⟩).γ) (fun k => ((allTerms S beta bath).getD k ⟨0, 0, 0⟩).c)
            (fun k => ((allTerms S beta bath).getD k ⟨0, 0, 0⟩).c')
            (fun m => ((Real.sqrt m : ℝ) : ℂ) / s) (fun m => s * ((Real.sqrt (m + 1 : ℕ) : ℝ) : ℂ)) rho n a b := by
  obtain ⟨terms, h1, h2⟩ := C77_transposed hS hl hn hs
  refine ⟨terms, h1, fun rho hw hsh => ?_⟩
  obtain ⟨D, d1, d2, d3, d4⟩ := h2 rho hw hsh
  refine ⟨D, d1, d2, d3, fun n a b hn ha hb => ?_⟩
  rw [d4 n a b hn ha hb, heomRhs_eq]
  exact rhs2_congr _ _ _ _ _ _ _ ha hb (fun a b ha hb => sh a b ha hb) (fun _ _ _ _ => rfl) (fun a b ha hb => sop a b ha hb)
    (fun _ _ _ _ => rfl)

private theorem init_eq (dims : List ℕ) (h op : Nd ℂ) (corr : Corr.Correlation) : Hierachy.init dims h op corr =
    if dims.length ≠ corr.kMax then .error .assertionError else if op.ndim ≠ 2 then .error .assertionError else
    if op.shape ≠ h.shape then .error .assertionError else .ok ⟨dims, h, op, corr, 1⟩ := by
  unfold Hierachy.init
  by_cases h1 : dims.length ≠ corr.kMax
  · rw [if_pos h1, if_pos h1]; rfl
  rw [if_neg h1, if_neg h1]
  by_cases h2 : op.ndim ≠ 2
  · rw [if_pos h2]; simp only [if_pos h2]; rfl
  rw [if_neg h2]; simp only [if_neg h2]
  by_cases h3 : op.shape ≠ h.shape
  · rw [if_pos h3]; simp only [if_pos h3]; rfl
  rw [if_neg h3]; simp only [if_neg h3]; rfl

/-- So, for symmetric operators, the trace of the physical density matrix is conserved. -/
theorem C77_trace_partial (hS : Setup S d beta bath) (sh : Symmetric d S.h) (sop : Symmetric d S.op) {i j : L} {inds : List L}
    (hl : inds.length = (tiers S).length) (hn : (inds ++ [i, j]).Nodup) {s : ℂ} (hs : s ≠ 0) (hpos : ∀ m ∈ tiers S, 0 < m) :
    ∃ terms, S.heomHList i j (some inds) beta s = .ok terms ∧ ∀ rho : Nd ℂ, rho.Wf → rho.shape = tiers S ++ [d, d] →
      ∃ D, derivativeOf (onAxes (inds ++ [i, j]) terms) rho = .ok D ∧ physicalTrace d (tiers S) D = 0 := by
  obtain ⟨terms, h1, h2⟩ := C77_heom_partial hS sh sop hl hn hs
  refine ⟨terms, h1, fun rho hw hsh => ?_⟩
  obtain ⟨D, d1, d2, d3, d4⟩ := h2 rho hw hsh
  refine ⟨D, d1, ?_⟩
  unfold physicalTrace
  rw [Finset.sum_congr rfl fun s hs => d4 _ s s (valid_zeros hpos) (Finset.mem_range.1 hs) (Finset.mem_range.1 hs)]
  exact rhs_trace

/-- `heom_h_list2` is `heom_h_list` with the default scale. -/
theorem C77_heom2 (S : SpinBoson) (i j : L) (inds : Option (List L)) (beta : Option ℝ) :
    S.heomHList2 i j inds beta = S.heomHList i j inds beta 1 := by
  unfold SpinBoson.heomHList2 SpinBoson.heomHList
  dsimp only
  have err : ∀ {α β : Type} (e : Err) (f : α → Res β), (Except.error e >>= f : Res β) = .error e := fun _ _ => rfl
  cases Corr.generateBCF S.ph S.bathCorr beta with
  | error e => rw [err, err]
  | ok corr =>
    rw [ok_bind, ok_bind]
    rw [init_eq]
    split_ifs
    · rw [err, err]
    · rw [err, err]
    · rw [err, err]
    · rw [ok_bind, ok_bind]

/-- The errors: a wrong number of tiers, a scale of zero, too few labels (in particular none although there is a bath). -/
theorem C77_errors :
    (∀ (S : SpinBoson) (bath : List BathTerm) (i j : L) (inds : Option (List L)) (s : ℂ), HasTerms S.bathCorr bath →
      (∀ b, beta = some b → ∀ p ∈ S.ph, b * p.1 ≠ 0) → (tiers S).length ≠ (allTerms S beta bath).length →
      S.heomHList i j inds beta s = .error .assertionError) ∧
    (∀ (S : SpinBoson) (d : ℕ) (bath : List BathTerm) (i j : L) (inds : Option (List L)), Setup S d beta bath → tiers S ≠ [] →
      S.heomHList i j inds beta 0 = .error .zeroDivisionError) ∧
    ∀ (S : SpinBoson) (d : ℕ) (bath : List BathTerm) (i j : L) (inds : Option (List L)) (s : ℂ), Setup S d beta bath → s ≠ 0 →
      (inds.getD []).length < (tiers S).length → S.heomHList i j inds beta s = .error .indexError := by
  have hsome : ∀ (S : SpinBoson) (i j : L) (inds : Option (List L)) (s : ℂ),
      S.heomHList i j inds beta s = S.heomHList i j (some (inds.getD [])) beta s := fun S i j inds s => by
    unfold SpinBoson.heomHList; cases inds <;> rfl
  refine ⟨fun S bath i j inds s hb hbeta hne => ?_, fun S d bath i j inds hS hne => ?_, fun S d bath i j inds s hS hs hlt => ?_⟩
  · unfold SpinBoson.heomHList
    rw [generateBCF_ok hbeta hb, ok_bind, allTerms_eq, tiers_eq]
    unfold Hierachy.init
    rw [if_pos hne]
    rfl
  · rw [hsome, heom_eq hS]
    unfold hList
    have : (⟨tiers S, S.h, S.op, corrOf S beta bath, 0⟩ : Hierachy).diff = .error .zeroDivisionError := by
      unfold Hierachy.diff
      have hp : 0 < (tiers S).length := List.length_pos_iff.2 hne
      obtain ⟨m, hm⟩ := Nat.exists_eq_add_of_lt hp
      have hk : (⟨tiers S, S.h, S.op, corrOf S beta bath, 0⟩ : Hierachy).diffK 0 = .error .zeroDivisionError := by
        have hl : 0 < (allTerms S beta bath).length := hS.length ▸ hp
        obtain ⟨R, r1, -⟩ := Hierachy.raiser_ok ⟨tiers S, S.h, S.op, corrOf S beta bath, 0⟩ hp
        obtain ⟨R', r2, -⟩ := Hierachy.lower_ok ⟨tiers S, S.h, S.op, corrOf S beta bath, 0⟩ hp
        unfold Hierachy.diffK
        rw [item_ok (by simpa [corrOf] using hl) 0, ok_bind, item_ok (by simpa [corrOf] using hl) 0, ok_bind,
          item_ok (by simpa [corrOf] using hl) 0, ok_bind, Hierachy.numberer_ok _ hp, ok_bind, r1, ok_bind, r2, ok_bind]
        unfold Corr.div
        rw [if_pos rfl]
        rfl
      have : (List.range (tiers S).length) = 0 :: (List.range m).map Nat.succ := by rw [hm, Nat.zero_add, List.range_succ_eq_map]
      dsimp only
      rw [this, List.mapM_cons, hk]
      rfl
    rw [this]
    rfl
  · rw [hsome, heom_eq hS]
    have e := hS.length
    obtain ⟨ts, h1, -, -⟩ := Hierachy.diff_all ⟨tiers S, S.h, S.op, corrOf S beta bath, s⟩ hs hS.h hS.op
      (by simp [corrOf, e]) (by simp [corrOf, e]) (by simp [corrOf, e])
    unfold hList
    rw [h1, ok_bind]
    unfold Hierachy.diff at h1
    simp only [bind_eq_ok] at h1
    obtain ⟨dks, -, h1⟩ := h1
    cases h1
    unfold Hierachy.i Hierachy.j
    dsimp only
    set conv := inds.getD [] ++ [i, j] with hc
    have hlen : conv.length = (inds.getD []).length + 2 := by simp [hc]
    have bad : ∀ k, conv.length ≤ k → item conv k = .error .indexError := fun k hk => by
      unfold item; rw [List.getElem?_eq_none hk]
    rw [List.cons_append, List.mapM_cons]
    by_cases h0 : conv.length ≤ (tiers S).length
    · simp only [List.mapM_cons, bad _ h0]
      rfl
    · have h0 : (tiers S).length < conv.length := by omega
      have hb := bad ((tiers S).length + 1) (by omega)
      simp only [List.mapM_cons, List.mapM_nil, item_ok h0 i, List.cons_append, hb]
      rfl

/-- With too many labels nothing fails, but the system operators act on the surplus labels instead of the system's. -/
theorem C77_labels_violated (hS : Setup S d beta bath) (i j : L) {inds : List L} (hl : (tiers S).length + 2 ≤ inds.length) {s : ℂ}
    (hs : s ≠ 0) :
    ∃ x y terms, inds[(tiers S).length]? = some x ∧ inds[(tiers S).length + 1]? = some y ∧
      S.heomHList i j (some inds) beta s = .ok ([(x, Nd.smul (-1 * Complex.I) S.h)] :: [(y, Nd.smul (1 * Complex.I) S.h)] :: terms) := by
  have e := hS.length
  obtain ⟨ts, h1, h2, -⟩ := Hierachy.diff_all ⟨tiers S, S.h, S.op, corrOf S beta bath, s⟩ hs hS.h hS.op
    (by simp [corrOf, e]) (by simp [corrOf, e]) (by simp [corrOf, e])
  refine ⟨inds[(tiers S).length], inds[(tiers S).length + 1], ?_⟩
  have h1' := h1
  unfold Hierachy.diff at h1'
  simp only [bind_eq_ok] at h1'
  obtain ⟨dks, -, h1'⟩ := h1'
  cases h1'
  have all : ∀ ts : List Term, (∀ t ∈ ts, Fits (tiers S ++ [d, d]) t) → ∃ lts : List (LTerm L),
      (ts.mapM fun t => t.mapM fun m => (do pure (← item (inds ++ [i, j]) m.1, m.2) : Res (L × Nd ℂ))) = .ok lts := by
    intro ts
    induction ts with
    | nil => intro _; exact ⟨[], rfl⟩
    | cons t ts ih =>
      intro h
      obtain ⟨lts, h1⟩ := ih fun x hx => h x (by simp [hx])
      have one : ∀ t : Term, Fits (tiers S ++ [d, d]) t →
          ∃ lt : LTerm L, (t.mapM fun m => (do pure (← item (inds ++ [i, j]) m.1, m.2) : Res (L × Nd ℂ))) = .ok lt := by
        intro t
        induction t with
        | nil => intro _; exact ⟨[], rfl⟩
        | cons m t ih =>
          intro h
          obtain ⟨lt, h1⟩ := ih fun x hx => h x (by simp [hx])
          have hm : m.1 < (inds ++ [i, j]).length := by
            have := (h m (by simp)).1
            simp at this ⊢; omega
          exact ⟨_, by rw [List.mapM_cons, h1, item_ok hm i]; rfl⟩
      obtain ⟨lt, g⟩ := one t (h t (by simp))
      exact ⟨_, by rw [List.mapM_cons, g, ok_bind, h1]; rfl⟩
  obtain ⟨lts, h3⟩ := all dks.flatten fun t ht => h2 t (by simp [ht])
  refine ⟨lts, by simp, by simp, ?_⟩
  rw [heom_eq hS]
  unfold hList
  rw [h1, ok_bind]
  unfold Hierachy.i Hierachy.j
  dsimp only [List.cons_append, List.nil_append]
  have a1 : item (inds ++ [i, j]) (tiers S).length = .ok inds[(tiers S).length] := by
    unfold item; rw [List.getElem?_append_left (by omega), List.getElem?_eq_getElem]
  have a2 : item (inds ++ [i, j]) ((tiers S).length + 1) = .ok inds[(tiers S).length + 1] := by
    unfold item; rw [List.getElem?_append_left (by omega), List.getElem?_eq_getElem]
  rw [List.mapM_cons, List.mapM_cons (l := dks.flatten), h3]
  simp only [List.mapM_cons, List.mapM_nil, a1, a2]
  rfl

/-- A spin with one oscillator of two levels and a bath with one term. -/
noncomputable def exModel : SpinBoson :=
  SpinBoson.init ⟨[2, 2], [1, 0, 0, -1]⟩ ⟨[2, 2], [0, 1, 1, 0]⟩ [(1, 1 / 2)] [2] (some ⟨1, none, [2 - Complex.I], [2 + Complex.I], [-3]⟩) (some [3])

theorem exModel_setup : Setup exModel 2 (some 1) [⟨2 - Complex.I, 2 + Complex.I, -3⟩] where
  h := rfl
  op := rfl
  ph := rfl
  bathTerms := ⟨rfl, rfl, rfl⟩
  bathDims := rfl
  beta := fun b hb p hp => by
    cases hb
    have : p = (1, 1 / 2) := by simpa [exModel, SpinBoson.init] using hp
    rw [this]; norm_num

theorem exModel_symmetric : Symmetric 2 exModel.h ∧ Symmetric 2 exModel.op := by
  constructor <;>
  · intro a b ha hb
    have : (a = 0 ∨ a = 1) ∧ (b = 0 ∨ b = 1) := ⟨by omega, by omega⟩
    rcases this with ⟨rfl | rfl, rfl | rfl⟩ <;> rfl

/-- The hypotheses can be met: temperature 1, scale 2. -/
example : ∃ terms, exModel.heomHList "i" "j" (some ["p", "q", "b"]) (some 1) 2 = .ok terms ∧ ∀ rho : Nd ℂ, rho.Wf →
    rho.shape = [2, 2, 3, 2, 2] → ∃ D, derivativeOf (onAxes ["p", "q", "b", "i", "j"] terms) rho = .ok D ∧ physicalTrace 2 [2, 2, 3] D = 0 :=
  C77_trace_partial exModel_setup exModel_symmetric.1 exModel_symmetric.2 (by rfl) (by decide) two_ne_zero (by decide)

/-! ### C78 -/

/-- The members of the hierarchy divided by the power of `s` given by their depth; `K` is the number of tiers. -/
noncomputable def rescale (s : ℂ) (K : ℕ) (rho : Nd ℂ) : Nd ℂ := Nd.ofFn rho.shape fun p => rho.get p / s ^ (p.take K).sum

/-- The `m`-th time derivative. -/
noncomputable def nthDerivative (terms : List Term) : ℕ → Nd ℂ → Res (Nd ℂ)
  | 0, rho => .ok rho
  | m + 1, rho => do nthDerivative terms m (← derivativeOf terms rho)

private theorem sum_set (n : List ℕ) (k x : ℕ) (hk : k < n.length) : (n.set k x).sum + n.getD k 0 = n.sum + x := by
  induction n generalizing k with
  | nil => simp at hk
  | cons a n ih =>
    cases k with
    | zero => simp; omega
    | succ k =>
      have := ih k (by simpa using hk)
      simp only [List.set_cons_succ, List.sum_cons, List.getD_cons_succ]
      omega

private theorem tier_rescale {s : ℂ} {dims n : List ℕ} {d a b : ℕ} {rho : Nd ℂ} (hsh : rho.shape = dims ++ [d, d]) (hn : Valid dims n)
    (ha : a < d) (hb : b < d) : tier (rescale s dims.length rho) n a b = tier rho n a b / s ^ n.sum := by
  unfold tier rescale
  rw [Nd.get_ofFn _ (by rw [hsh]; exact valid_append hn (by simpa [Valid] using ⟨ha, hb⟩)), ← hn.length_eq, List.take_left]

private theorem below_rescale {s : ℂ} (hs : s ≠ 0) {dims n : List ℕ} {d a b k : ℕ} {rho : Nd ℂ} (hsh : rho.shape = dims ++ [d, d]) (hn : Valid dims n)
    (ha : a < d) (hb : b < d) (hk : k < dims.length) :
    below (rescale s dims.length rho) n k a b = s * below rho n k a b / s ^ n.sum := by
  unfold below
  split_ifs with h0
  · simp
  · have hlt := hn.getD_lt hk 0 0
    have e := sum_set n k (n.getD k 0 - 1) (by rw [hn.length_eq]; exact hk)
    rw [tier_rescale hsh (valid_set hn (by omega)) ha hb]
    have : n.sum = (n.set k (n.getD k 0 - 1)).sum + 1 := by omega
    rw [this, pow_succ]
    field_simp

private theorem above_rescale {s : ℂ} (hs : s ≠ 0) {dims n : List ℕ} {d a b k : ℕ} {rho : Nd ℂ} (hsh : rho.shape = dims ++ [d, d]) (hn : Valid dims n)
    (ha : a < d) (hb : b < d) (hk : k < dims.length) :
    above dims (rescale s dims.length rho) n k a b = above dims rho n k a b / s / s ^ n.sum := by
  unfold above
  split_ifs with h0
  · have e := sum_set n k (n.getD k 0 + 1) (by rw [hn.length_eq]; exact hk)
    rw [tier_rescale hsh (valid_set hn h0) ha hb]
    have : (n.set k (n.getD k 0 + 1)).sum = n.sum + 1 := by omega
    rw [this, pow_succ]
    field_simp
  · simp

private theorem rhs2_rescale {s : ℂ} (hs : s ≠ 0) {dims n : List ℕ} {d a b : ℕ} {rho : Nd ℂ} (hsh : rho.shape = dims ++ [d, d]) (hn : Valid dims n)
    (ha : a < d) (hb : b < d) (hL hR qL qR : ℕ → ℕ → ℂ) (γ c c' down up : ℕ → ℂ) :
    rhs2 d dims hL hR qL qR γ c c' (fun m => down m / s) (fun m => s * up m) (rescale s dims.length rho) n a b =
      rhs2 d dims hL hR qL qR γ c c' down up rho n a b / s ^ n.sum := by
  have hX : ∀ (c : ℕ → ℂ) k a b, k < dims.length → a < d → b < d →
      c k * (down (n.getD k 0) / s) * below (rescale s dims.length rho) n k a b + s * up (n.getD k 0) * above dims (rescale s dims.length rho) n k a b =
      (c k * down (n.getD k 0) * below rho n k a b + up (n.getD k 0) * above dims rho n k a b) / s ^ n.sum := by
    intro c k a b hk ha hb
    rw [below_rescale hs hsh hn ha hb hk, above_rescale hs hsh hn ha hb hk]
    field_simp
  unfold rhs2
  dsimp only
  rw [add_div, mul_div_assoc, sub_div, Finset.sum_div, Finset.sum_div, Finset.sum_div]
  refine congrArg₂ (· + ·) (congrArg _ (congrArg₂ (· - ·) (Finset.sum_congr rfl fun x hx => ?_) (Finset.sum_congr rfl fun x hx => ?_)))
    (Finset.sum_congr rfl fun k hk => ?_)
  · rw [tier_rescale hsh hn (Finset.mem_range.1 hx) hb]; ring
  · rw [tier_rescale hsh hn ha (Finset.mem_range.1 hx)]; ring
  · have hk := Finset.mem_range.1 hk
    rw [tier_rescale hsh hn ha hb, sub_div, mul_div_assoc (Complex.I), sub_div, Finset.sum_div, Finset.sum_div]
    refine congrArg₂ (· - ·) (by ring) (congrArg _ (congrArg₂ (· - ·) (Finset.sum_congr rfl fun x hx => ?_) (Finset.sum_congr rfl fun x hx => ?_)))
    · rw [hX c k x b hk (Finset.mem_range.1 hx) hb]; ring
    · rw [hX c' k a x hk ha (Finset.mem_range.1 hx)]; ring

/-- The derivative with scale `s` of a rescaled extended density is the rescaled derivative with scale 1; for all system operators. -/
theorem C78_scale (hS : Setup S d beta bath) {i j : L} {inds : List L} (hl : inds.length = (tiers S).length)
    (hn : (inds ++ [i, j]).Nodup) {s : ℂ} (hs : s ≠ 0) :
    ∃ terms terms', S.heomHList i j (some inds) beta 1 = .ok terms ∧ S.heomHList i j (some inds) beta s = .ok terms' ∧
      ∀ rho : Nd ℂ, rho.Wf → rho.shape = tiers S ++ [d, d] → ∃ D, derivativeOf (onAxes (inds ++ [i, j]) terms) rho = .ok D ∧
        D.Wf ∧ D.shape = tiers S ++ [d, d] ∧
        derivativeOf (onAxes (inds ++ [i, j]) terms') (rescale s (tiers S).length rho) = .ok (rescale s (tiers S).length D) := by
  obtain ⟨t1, a1, a2⟩ := C77_transposed hS hl hn (one_ne_zero (α := ℂ))
  obtain ⟨t2, b1, b2⟩ := C77_transposed hS hl hn hs
  refine ⟨t1, t2, a1, b1, fun rho hw hsh => ?_⟩
  obtain ⟨D, d1, d2, d3, d4⟩ := a2 rho hw hsh
  obtain ⟨D', e1, e2, e3, e4⟩ := b2 (rescale s (tiers S).length rho) (Nd.ofFn_wf _ _) hsh
  refine ⟨D, d1, d2, d3.trans hsh, e1.trans (congrArg _ ?_)⟩
  refine Nd.ext_get e2 (Nd.ofFn_wf _ _) (e3.trans d3.symm) fun p hp => ?_
  have hp : Valid (tiers S ++ [d, d]) p := by
    have : D'.shape = tiers S ++ [d, d] := e3.trans hsh
    rwa [this] at hp
  obtain ⟨n, a, b, rfl, hv, ha, hb⟩ := valid_split hp
  have r := tier_rescale (s := s) (d3.trans hsh) hv ha hb
  have l := e4 n a b hv ha hb
  have q := d4 n a b hv ha hb
  simp only [div_one, one_mul] at q
  rw [rhs2_rescale hs hsh hv ha hb, ← q] at l
  exact l.trans r.symm

/-- So all time derivatives of the physical density matrix, for a hierarchy that starts from a system density, are the same for all
scales. -/
theorem C78_reduced (hS : Setup S d beta bath) {i j : L} {inds : List L} (hl : inds.length = (tiers S).length)
    (hn : (inds ++ [i, j]).Nodup) {s : ℂ} (hs : s ≠ 0) {rho : Nd ℂ} (hr : rho.shape = [d, d]) (hpos : ∀ m ∈ tiers S, 0 < m) (m : ℕ) :
    ∃ terms terms' A D D', S.heomHList i j (some inds) beta 1 = .ok terms ∧ S.heomHList i j (some inds) beta s = .ok terms' ∧
      genExtendedRho (tiers S) rho = .ok A ∧ nthDerivative (onAxes (inds ++ [i, j]) terms) m A = .ok D ∧
      nthDerivative (onAxes (inds ++ [i, j]) terms') m A = .ok D' ∧
      ∀ a b, a < d → b < d → tier D' (List.replicate (tiers S).length 0) a b = tier D (List.replicate (tiers S).length 0) a b := by
  obtain ⟨t1, t2, a1, b1, step⟩ := C78_scale hS hl hn hs
  obtain ⟨A, x1, x2, x3, x4⟩ := C45_extended hr hpos
  have iter : ∀ m (B : Nd ℂ), B.Wf → B.shape = tiers S ++ [d, d] → ∃ D, nthDerivative (onAxes (inds ++ [i, j]) t1) m B = .ok D ∧
      D.shape = tiers S ++ [d, d] ∧
      nthDerivative (onAxes (inds ++ [i, j]) t2) m (rescale s (tiers S).length B) = .ok (rescale s (tiers S).length D) := by
    intro m
    induction m with
    | zero => intro B _ hB; exact ⟨B, rfl, hB, rfl⟩
    | succ m ih =>
      intro B hw hB
      obtain ⟨D, e1, e2, e3, e4⟩ := step B hw hB
      obtain ⟨E, f1, f2, f3⟩ := ih D e2 e3
      refine ⟨E, ?_, f2, ?_⟩
      · show (do nthDerivative _ m (← derivativeOf _ B)) = _
        rw [e1]; exact f1
      · show (do nthDerivative _ m (← derivativeOf _ _)) = _
        rw [e4]; exact f3
  obtain ⟨D, f1, f2, f3⟩ := iter m A x2 x3
  have hA : rescale s (tiers S).length A = A := by
    refine Nd.ext_get (Nd.ofFn_wf _ _) x2 rfl fun p hp => ?_
    have hp : Valid (tiers S ++ [d, d]) p := by
      have : (rescale s (tiers S).length A).shape = tiers S ++ [d, d] := x3
      rwa [this] at hp
    obtain ⟨n, a, b, rfl, hv, ha, hb⟩ := valid_split hp
    refine (tier_rescale (s := s) x3 hv ha hb).trans ?_
    show tier A n a b / s ^ n.sum = tier A n a b
    rw [x4 n a b hv ha hb]
    split_ifs with h
    · rw [h]; simp
    · simp
  rw [hA] at f3
  refine ⟨t1, t2, A, D, _, a1, b1, x1, f1, f3, fun a b ha hb => ?_⟩
  rw [tier_rescale f2 (valid_zeros hpos) ha hb]
  simp

end Sbm
