import Verif.Model.SpinBoson
import Verif.Nd.AddLemmas
import Verif.Py.Lemmas
import Mathlib.Algebra.BigOperators.Group.Finset.Basic
import Mathlib.Algebra.BigOperators.Ring.Finset
import Mathlib.Logic.Function.Basic
import Mathlib.Algebra.Order.Ring.Int
import Mathlib.Tactic.Abel

/-!
C53: collecting the electronic terms does not change the Hamiltonian.
-/

open scoped BigOperators

namespace SpinBoson

open Py

variable {R : Type} [Ring R]

/-- The matrix `A` acting on one degree of freedom of a wave function of all of them: `(A ψ)(σ) = ∑ b, A[σ leaf, b] ψ(σ, leaf ↦ b)`. -/
def act (leaf : String) (A : Nd R) (ψ : (String → ℕ) → R) : (String → ℕ) → R :=
  fun σ => ∑ b ∈ Finset.range (A.dim 1), A.get [σ leaf, b] * ψ (Function.update σ leaf b)

/-- A term: the product of its operators. -/
def applyTerm (term : Term R) (ψ : (String → ℕ) → R) : (String → ℕ) → R := term.foldr (fun p ψ => act p.1 p.2 ψ) ψ

/-- The Hamiltonian: the sum of its terms. -/
def applyH (h : List (Term R)) (ψ : (String → ℕ) → R) (σ : String → ℕ) : R := (h.map fun term => applyTerm term ψ σ).sum

/-- The time-dependent terms at time `t`. -/
def atTime {T : Type} (f : List (List (String × (T → Res (Nd R))))) (t : T) : Res (List (Term R)) :=
  f.mapM fun term => term.mapM fun p => do pure (p.1, ← p.2 t)

private theorem sum_ok {d : ℕ} : ∀ (l : List (Nd R)) (a : Nd R), a.Wf → a.shape = [d, d] → (∀ b ∈ l, b.Wf ∧ b.shape = [d, d]) →
    ∃ c, l.foldlM Nd.add a = .ok c ∧ c.Wf ∧ c.shape = [d, d] ∧
      ∀ idx, Valid [d, d] idx → c.get idx = a.get idx + (l.map fun b => b.get idx).sum
  | [], a, hw, hs, _ => ⟨a, rfl, hw, hs, by simp⟩
  | b :: l, a, hw, hs, hl => by
    obtain ⟨hb, hl⟩ := List.forall_mem_cons.1 hl
    obtain ⟨c, e, cw, cs, cg⟩ := Nd.add_ok hw hb.1 (hs.trans hb.2.symm)
    obtain ⟨c', e', cw', cs', cg'⟩ := sum_ok l c cw (cs.trans hs) hl
    refine ⟨c', by rw [List.foldlM_cons, e]; exact e', cw', cs', fun idx hi => ?_⟩
    rw [cg' idx hi, cg idx (hs ▸ hi), List.map_cons, List.sum_cons, add_assoc]

private theorem act_sum {d : ℕ} {leaf : String} {c a : Nd R} {l : List (Nd R)} (hc : c.shape = [d, d]) (ha : a.shape = [d, d])
    (hl : ∀ b ∈ l, b.shape = [d, d]) (hg : ∀ idx, Valid [d, d] idx → c.get idx = a.get idx + (l.map fun b => b.get idx).sum)
    (ψ : (String → ℕ) → R) {σ : String → ℕ} (hσ : σ leaf < d) : act leaf c ψ σ = act leaf a ψ σ + (l.map fun b => act leaf b ψ σ).sum := by
  have hd : ∀ b : Nd R, b.shape = [d, d] → b.dim 1 = d := fun b h => by simp [Nd.dim, h]
  have e : (l.map fun b => act leaf b ψ σ) =
      l.map fun b => ∑ k ∈ Finset.range d, b.get [σ leaf, k] * ψ (Function.update σ leaf k) :=
    List.map_congr_left fun b hb => by rw [act, hd b (hl b hb)]
  rw [e, act, act, hd c hc, hd a ha]
  have : ∀ l : List (Nd R), (l.map fun b => ∑ k ∈ Finset.range d, b.get [σ leaf, k] * ψ (Function.update σ leaf k)).sum =
      ∑ k ∈ Finset.range d, (l.map fun b => b.get [σ leaf, k]).sum * ψ (Function.update σ leaf k) := by
    intro l
    induction l with
    | nil => simp
    | cons b l ih => simp only [List.map_cons, List.sum_cons, ih, add_mul, Finset.sum_add_distrib]
  rw [this, ← Finset.sum_add_distrib]
  refine Finset.sum_congr rfl fun k hk => ?_
  rw [hg _ (by simpa [Valid, hσ] using Finset.mem_range.1 hk), add_mul]

private theorem elec_form {elec : String} {term : Term R} (h : isElec elec term = true) : ∃ A, term = [(elec, A)] := by
  match term, h with
  | [(leaf, A)], h =>
    simp [isElec] at h
    exact ⟨A, by rw [h]⟩

private theorem split_sum (elec : String) (ψ : (String → ℕ) → R) (σ : String → ℕ) : ∀ h : List (Term R),
    applyH h ψ σ = (((h.filter (isElec elec)).map fun term => term.map Prod.snd).flatten.map fun b => act elec b ψ σ).sum +
      applyH (h.filter fun term => !isElec elec term) ψ σ
  | [] => by simp [applyH]
  | term :: h => by
    have ih := split_sum elec ψ σ h
    unfold applyH at ih ⊢
    cases e : isElec elec term with
    | true =>
      obtain ⟨A, rfl⟩ := elec_form e
      simp only [List.map_cons, List.sum_cons, List.filter_cons, e, if_true, ih, List.flatten_cons, List.map_nil, List.cons_append,
        List.nil_append, Bool.not_true, Bool.false_eq_true, if_false, add_assoc]
      rfl
    | false =>
      simp only [List.map_cons, List.sum_cons, List.filter_cons, e, if_true, ih, Bool.not_false, Bool.false_eq_true, if_false]
      abel

/-- For every list of terms with at least one purely electronic one, and every time-dependent field: the collected terms, at every time,
form the same operator as the given terms together with the field, for both values of `absorbed`. -/
theorem C53_collect {T : Type} {elec : String} {field : T → Res (Nd R)} {hList : List (Term R)} {d : ℕ}
    (hex : ∃ A, [(elec, A)] ∈ hList) (hA : ∀ A, [(elec, A)] ∈ hList → A.Wf ∧ A.shape = [d, d]) {t : T} {F : Nd R}
    (hF : field t = .ok F) (hw : F.Wf) (hs : F.shape = [d, d]) (absorbed : Bool) :
    ∃ h f ft, collectElectricTerms elec field hList absorbed = .ok (h, f) ∧ atTime f t = .ok ft ∧
      ∀ (ψ : (String → ℕ) → R) (σ : String → ℕ), σ elec < d →
        applyH h ψ σ + applyH ft ψ σ = applyH hList ψ σ + act elec F ψ σ := by
  set arrays := ((hList.filter (isElec elec)).map fun term => term.map Prod.snd).flatten with harr
  have hmem : ∀ A, A ∈ arrays ↔ [(elec, A)] ∈ hList := by
    intro A
    simp only [harr, List.mem_flatten, List.mem_map, List.mem_filter]
    constructor
    · rintro ⟨l, ⟨term, ⟨h1, h2⟩, rfl⟩, h3⟩
      obtain ⟨B, rfl⟩ := elec_form h2
      simp at h3
      rwa [h3]
    · intro h
      exact ⟨[A], ⟨[(elec, A)], ⟨h, by simp [isElec]⟩, rfl⟩, by simp⟩
  have hall : ∀ A ∈ arrays, A.Wf ∧ A.shape = [d, d] := fun A h => hA A ((hmem A).1 h)
  obtain ⟨A0, h0⟩ := hex
  obtain ⟨a, l, hal⟩ : ∃ a l, arrays = a :: l := List.exists_cons_of_ne_nil (List.ne_nil_of_mem ((hmem A0).2 h0))
  rw [hal] at hall
  obtain ⟨ha, hl⟩ := List.forall_mem_cons.1 hall
  obtain ⟨c, e, cw, cs, cg⟩ := sum_ok l a ha.1 ha.2 hl
  have hsum : sumArrays arrays = .ok c := by rw [hal]; exact e
  have hc : ∀ (ψ : (String → ℕ) → R) (σ : String → ℕ), σ elec < d → act elec c ψ σ = (arrays.map fun b => act elec b ψ σ).sum := by
    intro ψ σ hσ
    rw [hal, act_sum cs ha.2 (fun b hb => (hl b hb).2) cg ψ hσ, List.map_cons, List.sum_cons]
  unfold collectElectricTerms
  dsimp only
  rw [← harr, hsum]
  cases absorbed with
  | true =>
    obtain ⟨g, eg, gw, gs, gg⟩ := Nd.add_ok hw cw (hs.trans cs.symm)
    refine ⟨_, _, [[(elec, g)]], rfl, ?_, fun ψ σ hσ => ?_⟩
    · simp [atTime, hF, eg, ok_bind]
    · have := act_sum (l := [c]) (gs.trans hs) hs (by simpa using cs) (fun idx hi => by simpa using gg idx (hs ▸ hi)) ψ hσ
      simp only [List.map_cons, List.map_nil, List.sum_cons, List.sum_nil, add_zero] at this
      rw [split_sum elec ψ σ hList, ← harr, ← hc ψ σ hσ]
      have e2 : applyH [[(elec, g)]] ψ σ = act elec g ψ σ := by simp [applyH, applyTerm]
      rw [e2, this]
      abel
  | false =>
    refine ⟨_, _, [[(elec, F)]], rfl, ?_, fun ψ σ hσ => ?_⟩
    · simp [atTime, hF, ok_bind]
    · have e1 : ∀ l, applyH ([(elec, c)] :: l) ψ σ = act elec c ψ σ + applyH l ψ σ := fun l => by simp [applyH, applyTerm]
      have e2 : applyH [[(elec, F)]] ψ σ = act elec F ψ σ := by simp [applyH, applyTerm]
      rw [e1, e2, split_sum elec ψ σ hList, ← harr, ← hc ψ σ hσ]

/-- A model without the parameters of the field still gets a time-dependent term, and evaluating it raises `AttributeError`
(`f_list = None` was intended): the exception handler does not cover the call. -/
theorem C53_no_field {T : Type} {elec : String} {field : T → Res (Nd R)} {hList : List (Term R)} {t : T}
    (hF : field t = .error .attributeError) {h f} (hok : collectElectricTerms elec field hList false = .ok (h, f)) :
    atTime f t = .error .attributeError := by
  unfold collectElectricTerms at hok
  simp only [bind_eq_ok] at hok
  obtain ⟨c, -, hok⟩ := hok
  obtain ⟨-, rfl⟩ := Prod.mk.inj (Except.ok.inj hok)
  simp [atTime, hF, error_bind]

/-- A case with two electronic terms, a coupling term and a field. -/
example : ∃ h f ft, collectElectricTerms (T := ℤ) "ELEC" (fun t => .ok ⟨[2, 2], [0, t, t, 0]⟩)
      [[("ELEC", (⟨[2, 2], [1, 2, 2, 3]⟩ : Nd ℤ))], [("I0", ⟨[2, 2], [0, 1, 1, 0]⟩), ("ELEC", ⟨[2, 2], [0, 0, 0, 1]⟩)],
        [("ELEC", ⟨[2, 2], [0, 0, 0, 5]⟩)]] true = .ok (h, f) ∧ atTime f 7 = .ok ft ∧
      h = [[("I0", ⟨[2, 2], [0, 1, 1, 0]⟩), ("ELEC", ⟨[2, 2], [0, 0, 0, 1]⟩)]] ∧ ft = [[("ELEC", ⟨[2, 2], [1, 9, 9, 8]⟩)]] :=
  ⟨_, _, _, rfl, rfl, rfl, rfl⟩

end SpinBoson
