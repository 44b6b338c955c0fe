import Verif.Model.Expection
import Verif.Props.C16
import Verif.Props.C107
import Mathlib.Analysis.Complex.Basic
import Mathlib.Tactic.FieldSimp

/-!
C120: expectation values of observables, `expection(normalized=..., op=...)`, are real numbers for Hermitian operators and obey the variational principle.

The dense matrix is that of `dense_hamiltonian()` of an object whose terms are the terms visited, with the operators at the present time (`instant`).
-/

open scoped BigOperators
open Py

namespace ML

open Heap

section Instant

variable {T R : Type} [Zero T] [CommRing R] [StarRing R]

/-- A term with the operators at time `t`. -/
def termAt (t : T) (term : Term T R) : Term T R := term.map fun p => (p.1, .mat (p.2.at t))

/-- Specification: the object with the terms that `term_visitor(op=op)` visits as constant terms, their operators taken at the present time. -/
def instant (s : Obj T R) (op : Option (List (Term T R))) : Obj T R :=
  { s with hList := (match op with
      | some o => o
      | none => s.hList ++ s.fList.getD []).map (termAt s.now), fList := none }

theorem allTerms_eq (s : Obj T R) (op : Option (List (Term T R))) : s.allTerms op = (match op with
      | some o => o
      | none => s.hList ++ s.fList.getD []) := by
  unfold Obj.allTerms
  cases op with
  | some o => rfl
  | none => cases h : s.fList <;> simp

theorem setTerm_at (t t' : T) (term : Term T R) (h : Heap R) : setTerm t' (termAt t term) h = setTerm t term h := by
  unfold setTerm termAt
  induction term generalizing h with
  | nil => rfl
  | cons p term ih =>
    simp only [List.map_cons, List.foldlM_cons]
    have : (TermOp.mat (p.2.at t)).at t' = p.2.at t := rfl
    simp only [this]
    split
    · rw [ok_bind, ok_bind]; exact ih _
    · rw [error_bind, error_bind]

theorem resets_at (t : T) (term : Term T R) (h : Heap R) :
    (termAt t term).foldl (fun h p => h.reset p.1) h = term.foldl (fun h p => h.reset p.1) h := by
  unfold termAt
  rw [List.foldl_map]

/-- Results up to the lists of terms. -/
def SameRun {A : Type} (x y : Res (Obj T R × A)) : Prop :=
  match x, y with
  | .ok x, .ok y => x.1.heap = y.1.heap ∧ x.1.root = y.1.root ∧ x.1.env = y.1.env ∧ x.2 = y.2
  | .error e, .error e' => e = e'
  | _, _ => False

/-- The body of the loop in `expection`. -/
def expBody (fuel : ℕ) (_ : ℕ) (x : Obj T R × R) : Res (Obj T R × R) := do
  let (h, ans) ← Heap.expection fuel x.1.heap x.1.root
  let v ← scalar ans
  pure ({ x.1 with heap := h }, x.2 + v)

theorem pass_same (fuel root : ℕ) (t t' : T) (n : ℕ) (term : Term T R) {x y : Obj T R × R}
    (h : x.1.heap = y.1.heap ∧ x.1.root = y.1.root ∧ x.1.env = y.1.env ∧ x.2 = y.2) :
    SameRun (termPass fuel root false t (expBody fuel) n term x) (termPass fuel root false t' (expBody fuel) n (termAt t term) y) := by
  obtain ⟨h1, h2, h3, h4⟩ := h
  unfold termPass
  rw [h1, h3]
  cases hv : y.1.heap.visitor fuel root none false with
  | error e => rw [error_bind, error_bind]; exact rfl
  | ok ts =>
    rw [ok_bind, ok_bind]
    dsimp only
    rw [setTerm_at]
    cases hs : setTerm t term (ts.foldl (loadTensor false y.1.env n) y.1.heap) with
    | error e => rw [error_bind, error_bind]; exact rfl
    | ok h' =>
      rw [ok_bind, ok_bind]
      unfold expBody
      dsimp only
      rw [h2, h4]
      cases he : Heap.expection fuel h' y.1.root with
      | error e => simp only [error_bind]; exact rfl
      | ok r =>
        obtain ⟨h'', ans⟩ := r
        simp only [ok_bind]
        cases hsc : scalar ans with
        | error e => simp only [error_bind]; exact rfl
        | ok v =>
          simp only [ok_bind, pure_bind]
          refine ⟨?_, rfl, h3, rfl⟩
          exact (resets_at t term _).symm

theorem visit_same (fuel : ℕ) (s : Obj T R) (op : Option (List (Term T R))) :
    SameRun (termVisitor fuel false op false (expBody fuel) s 0) (termVisitor fuel false none false (expBody fuel) (instant s op) 0) := by
  unfold termVisitor
  have e1 : (instant s op).heap = s.heap := rfl
  have e2 : (instant s op).root = s.root := rfl
  rw [e1, e2]
  cases hv : s.heap.visitor fuel s.root none true with
  | error e => exact rfl
  | ok ts =>
    rw [ok_bind, ok_bind]
    dsimp only
    have e3 : (instant s op).allTerms none = (s.allTerms op).map (termAt s.now) := by
      rw [allTerms_eq s op]; rfl
    rw [e3, List.zipIdx_map, List.foldlM_map]
    simp only [Bool.and_false, Bool.false_and, Bool.false_eq_true, if_false]
    have e4 : (instant s op).time.getD 0 = s.now := rfl
    rw [e4]
    have key : ∀ (l : List (Term T R × ℕ)) (x y : Obj T R × R),
        (x.1.heap = y.1.heap ∧ x.1.root = y.1.root ∧ x.1.env = y.1.env ∧ x.2 = y.2) →
        SameRun (l.foldlM (fun x p => termPass fuel s.root false (s.time.getD 0) (expBody fuel) p.2 p.1 x) x)
          (l.foldlM (fun x p => termPass fuel s.root false s.now (expBody fuel) p.2 (termAt s.now p.1) x) y) := by
      intro l
      induction l with
      | nil => exact fun x y h => h
      | cons p l ih =>
        intro x y h
        have hp := pass_same fuel s.root s.now s.now p.2 p.1 h
        rw [List.foldlM_cons, List.foldlM_cons]
        have e5 : s.time.getD 0 = s.now := rfl
        rw [e5] at ih ⊢
        cases c1 : termPass fuel s.root false s.now (expBody fuel) p.2 p.1 x with
        | error e =>
          cases c2 : termPass fuel s.root false s.now (expBody fuel) p.2 (termAt s.now p.1) y with
          | error e' => rw [c1, c2] at hp; rw [error_bind, error_bind]; exact hp
          | ok y' => rw [c1, c2] at hp; exact hp.elim
        | ok x' =>
          cases c2 : termPass fuel s.root false s.now (expBody fuel) p.2 (termAt s.now p.1) y with
          | error e' => rw [c1, c2] at hp; exact hp.elim
          | ok y' => rw [c1, c2] at hp; rw [ok_bind, ok_bind]; exact ih _ _ hp
    exact key _ _ _ ⟨rfl, rfl, rfl, rfl⟩

/-- The sum over the terms visited and the squared norm after it, from the sum over the terms of the instant. -/
theorem core_op {s : Obj T R} {op : Option (List (Term T R))} {F : Forest} (hr : Ready (instant s op) F) (hne : (instant s op).hList ≠ []) {fuel : ℕ}
    (hf : F.depth < fuel) :
    ∃ s' H h', denseHamiltonian fuel (instant s op) = .ok (some H) ∧
      H.shape = [s.heap.stateDim s.root F, s.heap.stateDim s.root F] ∧
      termVisitor fuel false op false (expBody fuel) s 0 = .ok (s',
          ∑ i ∈ Finset.range (s.heap.stateDim s.root F), ∑ j ∈ Finset.range (s.heap.stateDim s.root F),
            s.heap.stateVec s.root F i * H.get [i, j] * star (s.heap.stateVec s.root F j)) ∧
      Heap.globalSquare fuel s'.heap s'.root = .ok (h', some ⟨[], [∑ i ∈ Finset.range (s.heap.stateDim s.root F),
          s.heap.stateVec s.root F i * star (s.heap.stateVec s.root F i)]⟩) := by
  obtain ⟨s', H, h', d1, -, d3, v1, v2⟩ := expection_core hr hne hf
  have hs := visit_same fuel s op
  have v1' : termVisitor fuel false none false (expBody fuel) (instant s op) 0 = .ok (s', _) := v1
  rw [v1'] at hs
  cases c : termVisitor fuel false op false (expBody fuel) s 0 with
  | error e => rw [c] at hs; exact hs.elim
  | ok r =>
    rw [c] at hs
    obtain ⟨s1, a⟩ := r
    obtain ⟨q1, q2, -, q4⟩ := hs
    dsimp only at q1 q2 q4
    refine ⟨s1, H, h', d1, d3, by rw [q4]; rfl, ?_⟩
    rw [q1, q2]
    exact v2

/-- Every operator of every term visited is Hermitian (at the present time). -/
def HermTerms (s : Obj T R) (op : Option (List (Term T R))) : Prop :=
  ∀ term ∈ s.allTerms op, ∀ p ∈ term, ∀ d, (p.2.at s.now).shape = [d, d] → ∀ i < d, ∀ j < d,
    (p.2.at s.now).get [i, j] = star ((p.2.at s.now).get [j, i])

theorem leafPoint_lt {L : List (ℕ × ℕ)} (hL : (L.map Prod.fst).Nodup) {idx : List ℕ} (hv : Valid (L.map Prod.snd) idx) (x : ℕ → ℕ) :
    ∀ p ∈ L, leafPoint L idx x p.1 < p.2 := by
  induction L generalizing idx x with
  | nil => intro p hp; cases hp
  | cons q L ih =>
    obtain ⟨l, d⟩ := q
    cases idx with
    | nil => cases hv
    | cons i is =>
      obtain ⟨h1, h2⟩ := List.forall₂_cons.1 hv
      obtain ⟨n1, n2⟩ := List.nodup_cons.1 hL
      intro p hp
      rcases List.mem_cons.1 hp with rfl | hp
      · change leafPoint L is (Nd.upd x l i) l < d
        rw [leafPoint_notMem n1]
        simpa [Nd.upd] using h1
      · exact ih n2 h2 _ p hp

/-- A sum of products of Hermitian operators on different leaves is a Hermitian matrix. -/
theorem C120_hermitian_terms {s : Obj T R} {op : Option (List (Term T R))} {F : Forest} (hr : Ready (instant s op) F) (hne : (instant s op).hList ≠ [])
    {fuel : ℕ} (hf : F.depth < fuel) (hh : HermTerms s op) {H : Nd R} (hH : denseHamiltonian fuel (instant s op) = .ok (some H)) :
    ∀ i < s.heap.stateDim s.root F, ∀ j < s.heap.stateDim s.root F, H.get [i, j] = star (H.get [j, i]) := by
  obtain ⟨H', d1, -, -, d4⟩ := denseHamiltonian_ok hr.ttn hr.axis hr.zero hr.const hne hr.fits hf
  rw [hH] at d1
  obtain rfl : H = H' := Option.some.inj (Except.ok.inj d1)
  intro i hi j hj
  rw [d4 i hi j hj, d4 j hj i hi]
  have hl : ∀ term ∈ (instant s op).hList, (denseTerm ((instant s op).heap.leafList (instant s op).root F) term).get [i, j] =
      star ((denseTerm ((instant s op).heap.leafList (instant s op).root F) term).get [j, i]) := by
    intro term ht
    obtain ⟨-, -, e3⟩ := denseTerm_spec (leafList_nodup hr.ttn) (hr.fits term ht)
    rw [e3 i hi j hj, e3 j hj i hi]
    have ht' : ∃ t0 ∈ s.allTerms op, termAt s.now t0 = term := by
      rw [allTerms_eq]
      exact List.mem_map.1 ht
    obtain ⟨t0, m0, rfl⟩ := ht'
    have hop : ∀ (l : ℕ) (q : List (ℕ × TermOp T R)) (acc : Option (Nd R)), (∀ p ∈ q, p ∈ t0) →
        (∀ d, OpFits acc d d → ∀ v < d, ∀ w < d, opEntry acc v w = star (opEntry acc w v)) →
        ∀ d, OpFits ((termAt s.now q).foldl (fun acc p => if p.1 = l then some (p.2.at 0) else acc) acc) d d → ∀ v < d, ∀ w < d,
        opEntry ((termAt s.now q).foldl (fun acc p => if p.1 = l then some (p.2.at 0) else acc) acc) v w =
          star (opEntry ((termAt s.now q).foldl (fun acc p => if p.1 = l then some (p.2.at 0) else acc) acc) w v) := by
      intro l q
      induction q with
      | nil => exact fun acc _ h => h
      | cons p q ih =>
        intro acc hm hacc
        unfold termAt
        rw [List.map_cons, List.foldl_cons]
        refine ih _ (fun p' hp' => hm p' (List.mem_cons_of_mem _ hp')) ?_
        split
        · exact fun d hd v hv w hw => hh t0 m0 p (hm p (by simp)) d hd.2 v hv w hw
        · exact hacc
    have hone : ∀ v w : ℕ, opEntry (none : Option (Nd R)) v w = star (opEntry (none : Option (Nd R)) w v) := by
      intro v w
      unfold opEntry
      dsimp only
      split <;> rename_i q
      · rw [if_pos q.symm, star_one]
      · rw [if_neg (fun q' => q q'.symm), star_zero]
    have hlt : ∀ k < s.heap.stateDim s.root F, ∀ p ∈ (instant s op).heap.leafList (instant s op).root F,
        leafPoint ((instant s op).heap.leafList (instant s op).root F)
          (unravel (((instant s op).heap.leafList (instant s op).root F).map Prod.snd) k) (fun _ => 0) p.1 < p.2 :=
      fun k hk p hp => leafPoint_lt (leafList_nodup hr.ttn) (valid_unravel hk) _ p hp
    have hpt : ∀ p ∈ (instant s op).heap.leafList (instant s op).root F, ∀ v < p.2, ∀ w < p.2,
        opEntry (opOn 0 (termAt s.now t0) p.1) v w = star (opEntry (opOn 0 (termAt s.now t0) p.1) w v) :=
      fun p hp v hv w hw => hop p.1 t0 none (fun _ h => h) (fun _ _ v _ w _ => hone v w) p.2 (hr.fits _ ht p hp) v hv w hw
    have hfin : ∀ L : List (ℕ × ℕ), (∀ p ∈ L, p ∈ (instant s op).heap.leafList (instant s op).root F) → ∀ x y : ℕ → ℕ,
        (∀ p ∈ L, x p.1 < p.2) → (∀ p ∈ L, y p.1 < p.2) →
        ((L.map Prod.fst).map fun l => opEntry (opOn 0 (termAt s.now t0) l) (x l) (y l)).prod =
          star (((L.map Prod.fst).map fun l => opEntry (opOn 0 (termAt s.now t0) l) (y l) (x l)).prod) := by
      intro L
      induction L with
      | nil => intro _ x y _ _; simp
      | cons p L ih =>
        intro hm x y hx hy
        simp only [List.map_cons, List.prod_cons]
        rw [star_mul, ← ih (fun q hq => hm q (List.mem_cons_of_mem _ hq)) x y (fun q hq => hx q (List.mem_cons_of_mem _ hq))
          (fun q hq => hy q (List.mem_cons_of_mem _ hq)), ← hpt p (hm p (by simp)) _ (hx p (by simp)) _ (hy p (by simp)), mul_comm]
    exact hfin _ (fun _ h => h) _ _ (fun p hp => hlt i hi p hp) (fun p hp => hlt j hj p hp)
  generalize (instant s op).hList = ts at hl
  induction ts with
  | nil => simp
  | cons t ts ih =>
    simp only [List.map_cons, List.sum_cons, star_add]
    rw [hl t (by simp), ih fun t' h' => hl t' (List.mem_cons_of_mem _ h')]

end Instant

variable {T : Type} [Zero T]

/-- Specification: `Σ conj(v[i]) H[i, j] v[j]`. -/
noncomputable def quad (n : ℕ) (H : Nd ℂ) (v : ℕ → ℂ) : ℂ := ∑ i ∈ Finset.range n, ∑ j ∈ Finset.range n, star (v i) * H.get [i, j] * v j

/-- Specification: `Σ |v[i]|²`. -/
noncomputable def normSq (n : ℕ) (v : ℕ → ℂ) : ℝ := ∑ i ∈ Finset.range n, ‖v i‖ ^ 2

/-- The state of the network. -/
noncomputable abbrev psi (s : Obj T ℂ) (F : Forest) : ℕ → ℂ := s.heap.stateVec s.root F

theorem sum_normSq (n : ℕ) (v : ℕ → ℂ) : ∑ i ∈ Finset.range n, v i * star (v i) = ((normSq n v : ℝ) : ℂ) := by
  unfold normSq
  rw [Complex.ofReal_sum]
  refine Finset.sum_congr rfl fun i _ => ?_
  rw [Complex.star_def, Complex.mul_conj, Complex.normSq_eq_norm_sq]

/-- What `expection` returns for every list of operators: with `Q` the sum of the matrix elements, in the transposed matrix, and `N` the squared norm (or 1),
it is the real part of `Q / N` if the imaginary part is below `1.5 * 10^-7` in absolute value; otherwise, and for `N = 0`, `AssertionError`. -/
theorem C120_value {s : Obj T ℂ} {op : Option (List (Term T ℂ))} {F : Forest} (hr : Ready (instant s op) F) (hne : (instant s op).hList ≠ []) {fuel : ℕ}
    (hf : F.depth < fuel) (normalized : Bool) {H : Nd ℂ} (hH : denseHamiltonian fuel (instant s op) = .ok (some H)) {N : ℝ}
    (hN : N = if normalized then normSq (s.heap.stateDim s.root F) (psi s F) else 1) {z : ℂ}
    (hz : z = quad (s.heap.stateDim s.root F) H (fun i => star (psi s F i)) / N) :
    ∃ s', expectionReal fuel normalized op s =
      if N = 0 then .error .assertionError
      else if 15 / 100000000 ≤ |z.im| then .error .assertionError else .ok (s', z.re) := by
  obtain ⟨s', H', h', d1, d2, v1, v2⟩ := core_op hr hne hf
  rw [hH] at d1
  obtain rfl : H = H' := Option.some.inj (Except.ok.inj d1)
  have hq : ∑ i ∈ Finset.range (s.heap.stateDim s.root F), ∑ j ∈ Finset.range (s.heap.stateDim s.root F),
      s.heap.stateVec s.root F i * H.get [i, j] * star (s.heap.stateVec s.root F j) =
      quad (s.heap.stateDim s.root F) H (fun i => star (psi s F i)) := by
    unfold quad
    simp only [star_star]
  rw [hq] at v1
  rw [sum_normSq] at v2
  have v1' : termVisitor fuel false op false (fun _ x => do
    let (h, ans) ← Heap.expection fuel x.1.heap x.1.root
    let v ← scalar ans
    pure ({ x.1 with heap := h }, x.2 + v)) s 0 = _ := v1
  unfold expectionReal
  rw [v1', ok_bind]
  dsimp only
  cases normalized with
  | false =>
    simp only [Bool.false_eq_true, if_false] at hN
    subst hN
    rw [Complex.ofReal_one, div_one] at hz
    subst hz
    refine ⟨s', ?_⟩
    rw [if_neg one_ne_zero]
    simp only [Bool.false_eq_true, if_false, pure_bind]
    split <;> rfl
  | true =>
    simp only [if_true] at hN
    simp only [if_true, v2, ok_bind, scalar]
    have hN' : ((normSq (s.heap.stateDim s.root F) (s.heap.stateVec s.root F) : ℝ) : ℂ) = (N : ℂ) := by rw [hN]
    rw [hN']
    refine ⟨{ s' with heap := h' }, ?_⟩
    by_cases h0 : N = 0
    · rw [if_pos h0, if_pos (by rw [h0]; simp)]
      rfl
    · rw [if_neg h0, if_neg (by simpa using h0)]
      simp only [pure_bind]
      rw [← hz]
      split <;> rfl

theorem quad_conj {n : ℕ} {H : Nd ℂ} (hh : ∀ i < n, ∀ j < n, H.get [i, j] = star (H.get [j, i])) (u v : ℕ → ℂ) :
    star (∑ i ∈ Finset.range n, ∑ j ∈ Finset.range n, star (u i) * H.get [i, j] * v j) =
      ∑ i ∈ Finset.range n, ∑ j ∈ Finset.range n, star (v i) * H.get [i, j] * u j := by
  rw [_root_.star_sum]
  simp only [_root_.star_sum]
  rw [Finset.sum_comm]
  refine Finset.sum_congr rfl fun i hi => Finset.sum_congr rfl fun j hj => ?_
  rw [hh i (Finset.mem_range.1 hi) j (Finset.mem_range.1 hj)]
  simp only [star_mul, star_star]
  ring

theorem quad_im {n : ℕ} {H : Nd ℂ} (hh : ∀ i < n, ∀ j < n, H.get [i, j] = star (H.get [j, i])) (v : ℕ → ℂ) : (quad n H v).im = 0 := by
  have := quad_conj hh v v
  exact Complex.conj_eq_iff_im.1 this

theorem normSq_star (n : ℕ) (v : ℕ → ℂ) : normSq n (fun i => star (v i)) = normSq n v := by
  unfold normSq
  simp

/-- For a Hermitian matrix the check passes: `expection` returns a real number `E`, and `E N = Σ conj(φ[i]) H[i, j] φ[j]` where `φ` is the conjugate of the
state and `N` the squared norm if `normalized`. -/
theorem C120_real {s : Obj T ℂ} {op : Option (List (Term T ℂ))} {F : Forest} (hr : Ready (instant s op) F) (hne : (instant s op).hList ≠ []) {fuel : ℕ}
    (hf : F.depth < fuel) (normalized : Bool) {H : Nd ℂ} (hH : denseHamiltonian fuel (instant s op) = .ok (some H))
    (hh : ∀ i < s.heap.stateDim s.root F, ∀ j < s.heap.stateDim s.root F, H.get [i, j] = star (H.get [j, i]))
    (h0 : normalized = true → ∃ i < s.heap.stateDim s.root F, psi s F i ≠ 0) :
    ∃ s' E, expectionReal fuel normalized op s = .ok (s', E) ∧
      ((E * if normalized then normSq (s.heap.stateDim s.root F) (psi s F) else 1 : ℝ) : ℂ) =
        quad (s.heap.stateDim s.root F) H (fun i => star (psi s F i)) := by
  set n := s.heap.stateDim s.root F
  set N : ℝ := if normalized then normSq n (psi s F) else 1 with hN
  have hN0 : N ≠ 0 := by
    rw [hN]
    split
    · rename_i q
      obtain ⟨i, h1, h2⟩ := h0 q
      refine ne_of_gt (lt_of_lt_of_le (pow_pos (norm_pos_iff.2 h2) 2) ?_)
      exact Finset.single_le_sum (f := fun i => ‖psi s F i‖ ^ 2) (fun _ _ => by positivity) (Finset.mem_range.2 h1)
    · exact one_ne_zero
  obtain ⟨s', e⟩ := C120_value hr hne hf normalized hH hN rfl
  have him := quad_im hh (fun i => star (psi s F i))
  set q := quad n H (fun i => star (psi s F i))
  have hq : q = ((q.re : ℝ) : ℂ) := by
    apply Complex.ext
    · simp
    · simp [him]
  have hz : q / (N : ℂ) = ((q.re / N : ℝ) : ℂ) := by rw [Complex.ofReal_div, ← hq]
  rw [hz, if_neg hN0, if_neg (by rw [Complex.ofReal_im, abs_zero]; norm_num), Complex.ofReal_re] at e
  refine ⟨s', q.re / N, e, ?_⟩
  rw [div_mul_cancel₀ _ hN0]
  exact hq.symm

/-- **Variational principle**: with a Hermitian matrix the energy of a normalized state lies between every lower and every upper bound of the matrix. -/
theorem C120_variational {s : Obj T ℂ} {op : Option (List (Term T ℂ))} {F : Forest} (hr : Ready (instant s op) F) (hne : (instant s op).hList ≠ [])
    {fuel : ℕ} (hf : F.depth < fuel) {H : Nd ℂ} (hH : denseHamiltonian fuel (instant s op) = .ok (some H))
    (hh : ∀ i < s.heap.stateDim s.root F, ∀ j < s.heap.stateDim s.root F, H.get [i, j] = star (H.get [j, i]))
    (h0 : ∃ i < s.heap.stateDim s.root F, psi s F i ≠ 0) {lo hi : ℝ}
    (hlo : ∀ v : ℕ → ℂ, lo * normSq (s.heap.stateDim s.root F) v ≤ (quad (s.heap.stateDim s.root F) H v).re)
    (hhi : ∀ v : ℕ → ℂ, (quad (s.heap.stateDim s.root F) H v).re ≤ hi * normSq (s.heap.stateDim s.root F) v) :
    ∃ s' E, expectionReal fuel true op s = .ok (s', E) ∧ lo ≤ E ∧ E ≤ hi := by
  obtain ⟨s', E, e1, e2⟩ := C120_real hr hne hf true hH hh fun _ => h0
  simp only [if_true] at e2
  have hre := congrArg Complex.re e2
  rw [Complex.ofReal_re] at hre
  have hpos : 0 < normSq (s.heap.stateDim s.root F) (psi s F) := by
    obtain ⟨i, h1, h2⟩ := h0
    refine lt_of_lt_of_le (pow_pos (norm_pos_iff.2 h2) 2) ?_
    exact Finset.single_le_sum (f := fun i => ‖psi s F i‖ ^ 2) (fun _ _ => by positivity) (Finset.mem_range.2 h1)
  have a1 := hlo fun i => star (psi s F i)
  have a2 := hhi fun i => star (psi s F i)
  rw [normSq_star, ← hre] at a1 a2
  exact ⟨s', E, e1, le_of_mul_le_mul_right a1 hpos, le_of_mul_le_mul_right a2 hpos⟩

/-- The minimum is attained by eigenvectors only: if the energy of the state is a lower bound of the (Hermitian) matrix, then the state is an eigenvector of
the transposed matrix with this energy. -/
theorem C120_ground {s : Obj T ℂ} {op : Option (List (Term T ℂ))} {F : Forest} (hr : Ready (instant s op) F) (hne : (instant s op).hList ≠ [])
    {fuel : ℕ} (hf : F.depth < fuel) {H : Nd ℂ} (hH : denseHamiltonian fuel (instant s op) = .ok (some H))
    (hh : ∀ i < s.heap.stateDim s.root F, ∀ j < s.heap.stateDim s.root F, H.get [i, j] = star (H.get [j, i]))
    (h0 : ∃ i < s.heap.stateDim s.root F, psi s F i ≠ 0) {E : ℝ} {s' : Obj T ℂ}
    (hlo : ∀ v : ℕ → ℂ, E * normSq (s.heap.stateDim s.root F) v ≤ (quad (s.heap.stateDim s.root F) H v).re)
    (hE : expectionReal fuel true op s = .ok (s', E)) :
    ∀ i < s.heap.stateDim s.root F, ∑ j ∈ Finset.range (s.heap.stateDim s.root F), psi s F j * H.get [j, i] = E * psi s F i := by
  obtain ⟨s2, E2, e1, e2⟩ := C120_real hr hne hf true hH hh fun _ => h0
  rw [hE] at e1
  obtain ⟨-, rfl⟩ := Prod.mk.inj (Except.ok.inj e1)
  simp only [if_true] at e2
  have hre := congrArg Complex.re e2
  rw [Complex.ofReal_re] at hre
  set n := s.heap.stateDim s.root F
  set φ : ℕ → ℂ := fun i => star (psi s F i) with hφ
  have hphi : normSq n φ = normSq n (psi s F) := normSq_star n _
  rw [← hphi] at hre
  set g : ℕ → ℂ := fun i => ∑ j ∈ Finset.range n, H.get [i, j] * φ j - E * φ i with hg
  set S : ℂ := ∑ i ∈ Finset.range n, ∑ j ∈ Finset.range n, star (g i) * H.get [i, j] * φ j with hS
  have hS' : ∑ i ∈ Finset.range n, ∑ j ∈ Finset.range n, star (φ i) * H.get [i, j] * g j = star S := (quad_conj hh g φ).symm
  set P : ℂ := ∑ i ∈ Finset.range n, star (g i) * φ i with hP
  -- the sum of the squares of the residual
  have hres : S - E * P = ((normSq n g : ℝ) : ℂ) := by
    rw [← sum_normSq, hS, hP, Finset.mul_sum, ← Finset.sum_sub_distrib]
    refine Finset.sum_congr rfl fun i _ => ?_
    have : g i * star (g i) = star (g i) * (∑ j ∈ Finset.range n, H.get [i, j] * φ j - E * φ i) := by rw [hg]; ring
    rw [this, mul_sub, Finset.mul_sum]
    congr 1
    · exact Finset.sum_congr rfl fun j _ => by ring
    · ring
  have hquad : ∀ t : ℝ, (quad n H fun i => φ i + t * g i) = quad n H φ + t * (S + star S) + t ^ 2 * quad n H g := by
    intro t
    rw [← hS', hS]
    unfold quad
    rw [mul_add, Finset.mul_sum, Finset.mul_sum, Finset.mul_sum]
    simp only [← Finset.sum_add_distrib]
    refine Finset.sum_congr rfl fun i _ => ?_
    rw [Finset.mul_sum, Finset.mul_sum, Finset.mul_sum]
    simp only [← Finset.sum_add_distrib]
    refine Finset.sum_congr rfl fun j _ => ?_
    rw [star_add, star_mul, show star (t : ℂ) = (t : ℂ) from Complex.conj_ofReal t]
    ring
  have hnorm : ∀ t : ℝ, ((normSq n fun i => φ i + t * g i : ℝ) : ℂ) = (normSq n φ : ℝ) + t * (P + star P) + t ^ 2 * (normSq n g : ℝ) := by
    intro t
    rw [← sum_normSq, ← sum_normSq, ← sum_normSq, hP, _root_.star_sum, mul_add, Finset.mul_sum, Finset.mul_sum, Finset.mul_sum]
    simp only [← Finset.sum_add_distrib]
    refine Finset.sum_congr rfl fun i _ => ?_
    rw [star_add, star_mul, star_mul, star_star (g i), show star (t : ℂ) = (t : ℂ) from Complex.conj_ofReal t]
    ring
  have hreal : ∀ t : ℝ, 0 ≤ 2 * t * normSq n g + t ^ 2 * ((quad n H g).re - E * normSq n g) := by
    intro t
    have h1 := hlo fun i => φ i + t * g i
    have h2 := congrArg Complex.re (hnorm t)
    have h3 := congrArg Complex.re hres
    rw [hquad] at h1
    simp only [Complex.add_re, Complex.mul_re, Complex.ofReal_re, Complex.ofReal_im, zero_mul, sub_zero, Complex.sub_re, Complex.star_def,
      Complex.conj_re, Complex.add_im, Complex.conj_im, ← Complex.ofReal_pow] at h1 h2 h3
    rw [h2] at h1
    have h4 : E * (normSq n φ + t * (P.re + P.re) + t ^ 2 * normSq n g) =
        E * normSq n φ + 2 * t * (E * P.re) + t ^ 2 * (E * normSq n g) := by ring
    rw [h4, hre] at h1
    have h5 : 2 * t * normSq n g = 2 * t * S.re - 2 * t * (E * P.re) := by rw [← h3]; ring
    rw [h5]
    nlinarith [h1]
  -- a parabola that is nonnegative and vanishes at 0 has derivative 0 there
  have hzero : normSq n g = 0 := by
    set a := normSq n g
    set b := (quad n H g).re - E * a
    have ha : 0 ≤ a := Finset.sum_nonneg fun _ _ => by positivity
    by_contra hne
    have hpos : 0 < a := lt_of_le_of_ne ha (Ne.symm hne)
    have hb1 : 0 < |b| + 1 := by positivity
    have h1 := hreal (-(a / (|b| + 1)))
    have h2 : (a / (|b| + 1)) ^ 2 * b ≤ (a / (|b| + 1)) ^ 2 * (|b| + 1) :=
      mul_le_mul_of_nonneg_left ((le_abs_self b).trans (by linarith)) (by positivity)
    have h3 : (a / (|b| + 1)) ^ 2 * (|b| + 1) = a / (|b| + 1) * a := by field_simp
    have h4 : 0 < a / (|b| + 1) * a := by positivity
    nlinarith [h1, h2, h3, h4]
  have hgi : ∀ i < n, g i = 0 := by
    intro i hi
    have := (Finset.sum_eq_zero_iff_of_nonneg (fun j _ => by positivity)).1 hzero i (Finset.mem_range.2 hi)
    exact norm_eq_zero.1 (pow_eq_zero_iff (two_ne_zero) |>.1 this)
  intro i hi
  have h1 := congrArg star (hgi i hi)
  rw [hg] at h1
  simp only [star_sub, _root_.star_sum, star_mul, hφ, star_star, star_zero] at h1
  rw [show star (E : ℂ) = (E : ℂ) from Complex.conj_ofReal E] at h1
  have h2 := sub_eq_zero.1 h1
  rw [mul_comm, ← h2]
  refine Finset.sum_congr rfl fun j hj => ?_
  rw [← hh j (Finset.mem_range.1 hj) i hi]

/-! ### Examples -/

/-- The state `(|00> + |11>) / √2` with two leaves 1 and 2; the term `σ_y` on leaf 1, multiplied by the time, times a real symmetric matrix on leaf 2. -/
noncomputable def exY : Obj ℝ ℂ :=
  { heap := exPair, root := 0,
    hList := [[(1, .fn fun t => ⟨[2, 2], [0, -Complex.I * t, Complex.I * t, 0]⟩), (2, .mat ⟨[2, 2], [1, 2, 2, 0]⟩)]], fList := none, time := some 3, env := [] }

theorem exY_leaves : exY.heap.leafList exY.root exPairForest = [(1, 2), (2, 2)] := exPair_leaves

theorem exY_ready : Ready (instant exY none) exPairForest where
  ttn := exPair_ttn
  axis := rfl
  zero := by
    have : ∀ e ∈ exPairForest.edges 0, exPair.isLeaf e.2.2.1 = true → e.2.2.2 = 0 := by decide +kernel
    exact this
  const := rfl
  mats := by
    intro term ht p hp
    obtain ⟨t0, -, rfl⟩ := List.mem_map.1 ht
    obtain ⟨p0, -, rfl⟩ := List.mem_map.1 hp
    exact ⟨_, rfl⟩
  leaf := by
    intro term ht p hp
    simp only [instant, exY, termAt, Option.getD_none, List.append_nil, List.map_cons, List.map_nil, List.mem_cons, List.not_mem_nil, or_false] at ht
    subst ht
    simp only [List.mem_cons, List.not_mem_nil, or_false] at hp
    rcases hp with rfl | rfl <;> rfl
  fits := by
    intro term ht p hp
    have hp' : p ∈ exY.heap.leafList exY.root exPairForest := hp
    rw [exY_leaves] at hp'
    simp only [instant, exY, termAt, Option.getD_none, List.append_nil, List.map_cons, List.map_nil, List.mem_cons, List.not_mem_nil, or_false] at ht hp'
    subst ht
    rcases hp' with rfl | rfl
    · exact ⟨rfl, rfl⟩
    · exact ⟨rfl, rfl⟩

theorem exY_herm : HermTerms exY none := by
  intro term ht p hp d hd i hi j hj
  simp only [Obj.allTerms, exY, List.mem_cons, List.not_mem_nil, or_false] at ht
  subst ht
  simp only [List.mem_cons, List.not_mem_nil, or_false] at hp
  rcases hp with rfl | rfl
  · obtain rfl : d = 2 := by
      have : [2, 2] = [d, d] := hd
      simp only [List.cons.injEq, and_true] at this
      exact this.1.symm
    have g00 : ((TermOp.fn fun t : ℝ => (⟨[2, 2], [0, -Complex.I * t, Complex.I * t, 0]⟩ : Nd ℂ)).at exY.now).get [0, 0] = 0 := rfl
    have g01 : ((TermOp.fn fun t : ℝ => (⟨[2, 2], [0, -Complex.I * t, Complex.I * t, 0]⟩ : Nd ℂ)).at exY.now).get [0, 1] = -Complex.I * (exY.now : ℝ) := rfl
    have g10 : ((TermOp.fn fun t : ℝ => (⟨[2, 2], [0, -Complex.I * t, Complex.I * t, 0]⟩ : Nd ℂ)).at exY.now).get [1, 0] = Complex.I * (exY.now : ℝ) := rfl
    have g11 : ((TermOp.fn fun t : ℝ => (⟨[2, 2], [0, -Complex.I * t, Complex.I * t, 0]⟩ : Nd ℂ)).at exY.now).get [1, 1] = 0 := rfl
    interval_cases i <;> interval_cases j <;> simp only [g00, g01, g10, g11] <;> simp
  · obtain rfl : d = 2 := by
      have : [2, 2] = [d, d] := hd
      simp only [List.cons.injEq, and_true] at this
      exact this.1.symm
    have g00 : ((TermOp.mat (⟨[2, 2], [1, 2, 2, 0]⟩ : Nd ℂ) : TermOp ℝ ℂ).at exY.now).get [0, 0] = 1 := rfl
    have g01 : ((TermOp.mat (⟨[2, 2], [1, 2, 2, 0]⟩ : Nd ℂ) : TermOp ℝ ℂ).at exY.now).get [0, 1] = 2 := rfl
    have g10 : ((TermOp.mat (⟨[2, 2], [1, 2, 2, 0]⟩ : Nd ℂ) : TermOp ℝ ℂ).at exY.now).get [1, 0] = 2 := rfl
    have g11 : ((TermOp.mat (⟨[2, 2], [1, 2, 2, 0]⟩ : Nd ℂ) : TermOp ℝ ℂ).at exY.now).get [1, 1] = 0 := rfl
    interval_cases i <;> interval_cases j <;> simp only [g00, g01, g10, g11] <;> simp

/-- The expectation value of a time-dependent operator. -/
example : ∃ s' H E, denseHamiltonian 3 (instant exY none) = .ok (some H) ∧ expectionReal 3 false none exY = .ok (s', E) ∧
    ((E : ℝ) : ℂ) = quad 4 H (fun i => star (psi exY exPairForest i)) := by
  have hd : exY.heap.stateDim exY.root exPairForest = 4 := by unfold Heap.stateDim; rw [exY_leaves]; rfl
  have hne : (instant exY none).hList ≠ [] := by simp [instant, exY]
  have hf : exPairForest.depth < 3 := by decide
  obtain ⟨-, H, -, d1, -, -, -⟩ := expection_core exY_ready hne hf
  obtain ⟨s', E, e1, e2⟩ := C120_real exY_ready hne hf false d1 (C120_hermitian_terms exY_ready hne hf exY_herm d1) (fun q => by cases q)
  simp only [Bool.false_eq_true, if_false, mul_one, hd] at e2
  exact ⟨s', H, E, d1, e1, e2⟩

end ML
