import Verif.Lemmas.Mctdh3
import Mathlib.NumberTheory.Zsqrtd.GaussianInt
import Mathlib.Tactic.LinearCombination

/-!
C65: the energy that MCTDH reports is the expectation value of the Hamiltonian in the represented state.

Violated: the projected matrices drop the products of real and imaginary parts, and a term is applied to the wrong axes of a
coefficient tensor with different numbers of single-particle functions. Proved for real single-particle functions and equal numbers.
-/

open Py
open scoped BigOperators

namespace Mctdh

variable {R : Type} [CommRing R] [StarRing R]

omit [StarRing R] in
theorem Blocks.shapes {cs : List (Nd R)} {a : Nd R} (h : Blocks cs a) :
    shapeList (cs.map fun c => (c.dim 0, c.dim 1)) = (cs ++ [a]).map Nd.shape := by
  unfold shapeList
  rw [List.map_append, List.map_map, List.map_map]
  have e : (cs.map fun c => c.dim 1) = a.shape := h.shapeA.symm
  refine congrArg₂ (· ++ ·) ?_ (congrArg (fun x => [x]) e)
  refine List.map_congr_left fun c hc => ?_
  obtain ⟨n, m, _, _, hs⟩ := h.shape c hc
  simp [Nd.dim, hs]

omit [StarRing R] in
theorem Blocks.wfs {cs : List (Nd R)} {a : Nd R} (h : Blocks cs a) : ∀ b ∈ cs ++ [a], b.Wf := by
  intro b hb
  rcases List.mem_append.1 hb with hb | hb
  · exact h.wf b hb
  · obtain rfl := List.mem_singleton.1 hb
    exact h.wfA

omit [StarRing R] in
/-- The blocks of the vector are found again. -/
theorem Blocks.sub {cs : List (Nd R)} {a : Nd R} (h : Blocks cs a) {i : ℕ} (hi : i < cs.length) :
    getSubVec (shapeList (cs.map fun c => (c.dim 0, c.dim 1))) (i : ℤ) (concatenate (cs ++ [a])) = .ok (block cs i) := by
  rw [h.shapes, C51_unpack_pack _ h.wfs i (by simp; omega)]
  unfold block
  rw [List.getElem_append_left hi, List.getD_eq_getElem _ _ hi]

omit [StarRing R] in
theorem Blocks.last {cs : List (Nd R)} {a : Nd R} (h : Blocks cs a) :
    getSubVec (shapeList (cs.map fun c => (c.dim 0, c.dim 1))) (-1) (concatenate (cs ++ [a])) = .ok a := by
  have := C51_from_end _ h.wfs 1 (by omega) (by simp)
  rw [h.shapes]
  simpa using this

omit [StarRing R] in
theorem Blocks.mem {cs : List (Nd R)} {i : ℕ} (hi : i < cs.length) : block cs i ∈ cs := by
  unfold block
  rw [List.getD_eq_getElem _ _ hi]
  exact List.getElem_mem _

omit [StarRing R] in
theorem Blocks.at {cs : List (Nd R)} {a : Nd R} (h : Blocks cs a) {i : ℕ} (hi : i < cs.length) :
    0 < (block cs i).dim 0 ∧ 0 < (block cs i).dim 1 ∧ (block cs i).shape = [(block cs i).dim 0, (block cs i).dim 1] := by
  obtain ⟨n, m, hn, hm, hs⟩ := h.shape _ (Blocks.mem hi)
  simp [Nd.dim, hs, hn, hm]

omit [StarRing R] in
theorem Blocks.dimA {cs : List (Nd R)} {a : Nd R} (h : Blocks cs a) {i : ℕ} (hi : i < cs.length) :
    a.shape.getD i 0 = (block cs i).dim 1 := by
  rw [h.shapeA, List.getD_eq_getElem _ _ (by simpa using hi), List.getElem_map]
  unfold block
  rw [List.getD_eq_getElem _ _ hi]

/-- **C65, what the projected matrices are.** For every vector and every pair of a coordinate and a matrix `h`, with `C = C_r + i C_i`
the single-particle functions of that coordinate: the program computes `C† h C - i (C_rᵀ h C_i - C_iᵀ h C_r)`. -/
theorem C65_projected_partial {i : R} {re im : R → R} (hC : Cartesian i re im) {cs : List (Nd R)} {a : Nd R} (hb : Blocks cs a)
    {k : ℕ} (hk : k < cs.length) {h : Nd R} (hh : h.shape = [(block cs k).dim 0, (block cs k).dim 0]) :
    ∃ w, modOne re im (shapeList (cs.map fun c => (c.dim 0, c.dim 1))) (concatenate (cs ++ [a])) (k, h) = .ok (k, w) ∧
      w.Wf ∧ w.shape = [(block cs k).dim 1, (block cs k).dim 1] ∧
      ∀ p q, p < (block cs k).dim 1 → q < (block cs k).dim 1 → w.get [p, q] =
        (∑ x ∈ Finset.range ((block cs k).dim 0), ∑ y ∈ Finset.range ((block cs k).dim 0),
          star ((block cs k).get [x, p]) * h.get [x, y] * (block cs k).get [y, q]) -
        i * (∑ x ∈ Finset.range ((block cs k).dim 0), ∑ y ∈ Finset.range ((block cs k).dim 0),
          (re ((block cs k).get [x, p]) * h.get [x, y] * im ((block cs k).get [y, q]) -
           im ((block cs k).get [x, p]) * h.get [x, y] * re ((block cs k).get [y, q]))) := by
  obtain ⟨w, w1, w2, w3, w4⟩ := modOne_spec hC _ _ k h _ (hb.sub hk) hh (hb.at hk).2.2
  refine ⟨w, w1, w2, w3, fun p q hp hq => ?_⟩
  rw [w4 p q hp hq, Finset.mul_sum, ← Finset.sum_sub_distrib, ← Finset.sum_add_distrib]
  refine Finset.sum_congr rfl fun x _ => ?_
  rw [Finset.mul_sum, Finset.mul_sum, Finset.mul_sum, ← Finset.sum_sub_distrib, ← Finset.sum_add_distrib]
  refine Finset.sum_congr rfl fun y _ => ?_
  have e1 := hC.split ((block cs k).get [x, p])
  have e2 := hC.split ((block cs k).get [y, q])
  have e3 : star ((block cs k).get [x, p]) = re ((block cs k).get [x, p]) - i * im ((block cs k).get [x, p]) := by
    conv_lhs => rw [e1]
    rw [star_add, star_mul, hC.reReal, hC.imReal, hC.iStar]
    ring
  rw [e3]
  linear_combination (-(re ((block cs k).get [x, p]) - i * im ((block cs k).get [x, p])) * h.get [x, y]) * e2 +
    (im ((block cs k).get [x, p]) * h.get [x, y] * im ((block cs k).get [y, q])) * hC.iSquare

/-- The projected matrices of a term, when the single-particle functions are real. -/
theorem modTerm_real {i : R} {re im : R → R} (hC : Cartesian i re im) {cs : List (Nd R)} {a : Nd R} (hb : Blocks cs a)
    (hr : ∀ c ∈ cs, IsReal im c) (term : Term R) (hc : ∀ p ∈ term, p.1 < cs.length)
    (hs : ∀ p ∈ term, p.2.shape = [(block cs p.1).dim 0, (block cs p.1).dim 0]) :
    ∃ mods, term.mapM (modOne re im (shapeList (cs.map fun c => (c.dim 0, c.dim 1))) (concatenate (cs ++ [a]))) = .ok mods ∧
      mods.map Prod.fst = term.map Prod.fst ∧
      (∀ p ∈ mods, p.2.shape = [(block cs p.1).dim 1, (block cs p.1).dim 1]) ∧
      ∀ k < cs.length, ∀ p q, p < (block cs k).dim 1 → q < (block cs k).dim 1 → (term.lookup k = none → mods.lookup k = none) ∧
        ∀ h, term.lookup k = some h → ∃ w, mods.lookup k = some w ∧ w.get [p, q] =
          ∑ x ∈ Finset.range ((block cs k).dim 0), star ((block cs k).get [x, p]) *
            ∑ y ∈ Finset.range ((block cs k).dim 0), h.get [x, y] * (block cs k).get [y, q] := by
  induction term with
  | nil => exact ⟨[], rfl, rfl, by simp, fun k _ p q _ _ => ⟨fun _ => rfl, fun h hh => by simp at hh⟩⟩
  | cons t term ih =>
    obtain ⟨j, h⟩ := t
    obtain ⟨mods, m1, m2, m3, m4⟩ := ih (fun p hp => hc p (List.mem_cons_of_mem _ hp)) (fun p hp => hs p (List.mem_cons_of_mem _ hp))
    have hj := hc (j, h) List.mem_cons_self
    obtain ⟨w, w1, w2, w3, w4⟩ := modOne_spec hC _ _ j h _ (hb.sub hj) (hs (j, h) List.mem_cons_self) (hb.at hj).2.2
    have hreal : ∀ idx, im ((block cs j).get idx) = 0 ∧ re ((block cs j).get idx) = (block cs j).get idx := by
      intro idx
      have h0 : im ((block cs j).get idx) = 0 := by
        unfold Nd.get
        rw [List.getD_eq_getElem?_getD]
        cases hd : (block cs j).data[ravel (block cs j).shape idx]? with
        | none => exact hC.imZero
        | some z => exact hr _ (Blocks.mem hj) z (List.mem_of_getElem? hd)
      refine ⟨h0, ?_⟩
      have := hC.split ((block cs j).get idx)
      rw [h0, mul_zero, add_zero] at this
      exact this.symm
    have hstar : ∀ idx, star ((block cs j).get idx) = (block cs j).get idx := by
      intro idx
      rw [← (hreal idx).2, hC.reReal]
    refine ⟨(j, w) :: mods, ?_, by simp [m2], ?_, ?_⟩
    · rw [List.mapM_cons, w1, ok_bind, m1]
      rfl
    · intro p hp
      rcases List.mem_cons.1 hp with rfl | hp
      · exact w3
      · exact m3 p hp
    · intro k hk p q hp hq
      rw [List.lookup_cons, List.lookup_cons]
      by_cases hkj : k = j
      · subst hkj
        simp only [beq_self_eq_true]
        refine ⟨fun hh => by simp at hh, fun h' hh => ⟨w, rfl, ?_⟩⟩
        cases hh
        rw [w4 p q hp hq]
        simp only [(hreal _).1, (hreal _).2, hstar, mul_zero, Finset.sum_const_zero, add_zero]
      · rw [beq_false_of_ne hkj]
        exact m4 k hk p q hp hq

/-- One term. -/
private theorem energy_term {i : R} {re im : R → R} (hC : Cartesian i re im) {cs : List (Nd R)} {a : Nd R} (hb : Blocks cs a)
    (hr : ∀ c ∈ cs, IsReal im c) (ho : ∀ c ∈ cs, Orthonormal c) (hm : Dvr.TailConst 0 a.shape) {term : Term R} (ht : TermOk cs term) :
    ∃ mods w, term.mapM (modOne re im (shapeList (cs.map fun c => (c.dim 0, c.dim 1))) (concatenate (cs ++ [a]))) = .ok mods ∧
      coeffOp a mods = .ok w ∧ w.Wf ∧ w.shape = a.shape ∧
      sumIdx a.shape (fun j => star (a.get j) * w.get j) =
        sumIdx (cs.map fun c => c.dim 0) (fun x => star (amplitude cs a x) * actTerm term (amplitude cs a) x) := by
  obtain ⟨mods, m1, m2, m3, m4⟩ := modTerm_real hC hb hr term ht.coord ht.shape
  have hla : a.shape.length = cs.length := by rw [hb.shapeA]; simp
  have hcoord : ∀ p ∈ mods, p.1 < cs.length := by
    intro p hp
    have : p.1 ∈ term.map Prod.fst := m2 ▸ List.mem_map_of_mem hp
    obtain ⟨q, hq, hqe⟩ := List.mem_map.1 this
    exact hqe ▸ ht.coord q hq
  have hmods : ∀ p ∈ mods, p.1 < a.ndim ∧ p.2.shape = [a.shape.getD p.1 0, a.shape.getD p.1 0] := by
    intro p hp
    refine ⟨by unfold Nd.ndim; rw [hla]; exact hcoord p hp, ?_⟩
    rw [hb.dimA (hcoord p hp)]
    exact m3 p hp
  have hpos : ∀ d ∈ a.shape, 0 < d := by
    intro d hd
    rw [hb.shapeA] at hd
    obtain ⟨c, hc, rfl⟩ := List.mem_map.1 hd
    obtain ⟨n, m, _, hm, hs⟩ := hb.shape c hc
    simpa [Nd.dim, hs] using hm
  obtain ⟨w, w1, w2, w3, w4⟩ := coeffOp_spec mods a hb.wfA hpos (fun p _ => tailConst_all hm p.1) hmods
  refine ⟨mods, w, m1, w1, w2, w3, ?_⟩
  set s := cs.map fun c => c.dim 0 with hs
  have hls : s.length = cs.length := by rw [hs]; simp
  have hds : ∀ k < cs.length, s.getD k 0 = (block cs k).dim 0 := by
    intro k hk
    rw [hs, List.getD_eq_getElem _ _ (by simpa using hk), List.getElem_map]
    unfold block
    rw [List.getD_eq_getElem _ _ hk]
  have hamp : ∀ x, amplitude cs a x = sumIdx a.shape fun j =>
      prodF s.length (fun k p q => (block cs k).get [p, q]) x j * a.get j := by
    intro x
    unfold amplitude prodF
    rw [hls]
  have e1 : ∀ x, Valid s x → star (amplitude cs a x) * actTerm term (amplitude cs a) x =
      star (sumIdx a.shape fun j => prodF s.length (fun k p q => (block cs k).get [p, q]) x j * a.get j) *
      sumIdx s (fun y => prodF s.length (opAt term) x y *
        sumIdx a.shape fun j => prodF s.length (fun k p q => (block cs k).get [p, q]) y j * a.get j) := by
    intro x hx
    rw [actTerm_eq s term (fun p hp => ?_) ht.nodup x hx, hamp x]
    · simp only [hamp]
    · have hp' := ht.coord p hp
      refine ⟨hls ▸ hp', ?_⟩
      rw [hds _ hp']
      unfold Nd.dim
      rw [ht.shape p hp]
      rfl
  rw [sumIdx_congr e1, matrix_element s a.shape (hla.trans hls.symm)]
  refine sumIdx_congr fun j hj => ?_
  congr 1
  rw [w4 j hj, actTerm_eq a.shape mods (fun p hp => ?_) (by rw [m2]; exact ht.nodup) j hj]
  · refine sumIdx_congr fun l hl => ?_
    congr 1
    rw [hla, ← hls]
    refine prodF_congr fun k hk => ?_
    have hk' : k < cs.length := hls ▸ hk
    have hjk : j.getD k 0 < (block cs k).dim 1 := by
      rw [← hb.dimA hk']; exact hj.getD_lt (hla ▸ hk') 0 0
    have hlk : l.getD k 0 < (block cs k).dim 1 := by
      rw [← hb.dimA hk']; exact hl.getD_lt (hla ▸ hk') 0 0
    obtain ⟨n1, n2⟩ := m4 k hk' _ _ hjk hlk
    rw [hds k hk']
    cases hlook : term.lookup k with
    | none =>
      rw [opAt_none (n1 hlook)]
      have h2 := ho _ (Blocks.mem hk') _ hjk _ hlk
      unfold delta
      rw [← h2]
      refine Finset.sum_congr rfl fun x hx => ?_
      rw [opAt_none hlook, sum_delta_left (Finset.mem_range.1 hx) fun y => (block cs k).get [y, l.getD k 0]]
    | some h =>
      obtain ⟨u, u1, u2⟩ := n2 h hlook
      rw [opAt_some u1, u2]
      simp only [opAt_some hlook]
  · obtain ⟨h1, h2⟩ := hmods p hp
    exact ⟨h1, by unfold Nd.dim; rw [h2]; rfl⟩

/-- The body of the loop of `energy_expection`. -/
private def addTerm (a : Nd R) (ans : R) (term : Term R) : Res R := do
  let hA ← coeffOp a term
  let hA ← hA.reshapeInfer [] []
  let aF ← a.reshapeInfer [] []
  let x ← aF.conj.vdot hA
  pure (ans + x)

/-- **C65 for real single-particle functions and equal numbers of them.** For every state whose single-particle functions are real and
orthonormal, with coefficients that may be complex, and every Hamiltonian that is a sum of products: `energy_expection` is the
expectation value of the Hamiltonian in the represented state, provided that all coordinates but the first have the same number of
single-particle functions. -/
theorem C65_energy_partial {i : R} {re im : R → R} (hC : Cartesian i re im) {cs : List (Nd R)} {a : Nd R} (hb : Blocks cs a)
    (hr : ∀ c ∈ cs, IsReal im c) (ho : ∀ c ∈ cs, Orthonormal c) (hm : Dvr.TailConst 0 a.shape) (o : Obj R)
    (hsh : o.shapes = shapeList (cs.map fun c => (c.dim 0, c.dim 1))) (ht : ∀ term ∈ o.hTerms, TermOk cs term) :
    energyExpection re im o (concatenate (cs ++ [a])) = .ok (energy (cs.map fun c => c.dim 0) o.hTerms (amplitude cs a)) := by
  unfold energyExpection
  rw [hsh, hb.last, ok_bind]
  have key : ∀ (terms : List (Term R)), (∀ term ∈ terms, TermOk cs term) → ∃ mods : List (Term R),
      updateModTerms re im (shapeList (cs.map fun c => (c.dim 0, c.dim 1))) terms (concatenate (cs ++ [a])) = .ok mods ∧
      ∀ acc : R, mods.foldlM (addTerm a) acc = Except.ok (acc + energy (cs.map fun c => c.dim 0) terms (amplitude cs a)) := by
    intro terms
    induction terms with
    | nil => intro _; exact ⟨[], rfl, fun acc => by simp [energy, pure_eq_ok]⟩
    | cons term terms ih =>
      intro ht
      obtain ⟨mods, m1, m2⟩ := ih fun t h => ht t (List.mem_cons_of_mem _ h)
      obtain ⟨m, w, n1, n2, n3, n4, n5⟩ := energy_term hC hb hr ho hm (ht term List.mem_cons_self)
      refine ⟨m :: mods, ?_, fun acc => ?_⟩
      · unfold updateModTerms at m1 ⊢
        rw [List.mapM_cons, n1, ok_bind, m1]
        rfl
      · rw [List.foldlM_cons]
        conv_lhs => enter [1]; unfold addTerm
        rw [n2, ok_bind, Tensor.reshapeFlat, ok_bind, Tensor.reshapeFlat, ok_bind]
        have hv : (⟨[a.shape.prod], a.data⟩ : Nd R).conj.vdot ⟨[w.shape.prod], w.data⟩ =
            .ok (sumIdx a.shape fun j => star (a.get j) * w.get j) := by
          unfold Nd.vdot
          rw [if_pos (by simp [Nd.conj, Nd.ndim, n4])]
          congr 1
          rw [sumIdx_eq_sum_range]
          refine Finset.sum_congr rfl fun k hk => ?_
          have hk : k < a.shape.prod := Finset.mem_range.1 hk
          rw [conj_get']
          unfold Nd.get
          rw [n4, ravel_unravel hk]
          simp [ravel]
        rw [hv, ok_bind, pure_bind, m2, n5]
        unfold energy
        rw [List.map_cons, List.sum_cons, add_assoc]
  obtain ⟨mods, m1, m2⟩ := key o.hTerms ht
  rw [m1, ok_bind]
  change mods.foldlM (addTerm a) 0 = _
  rw [m2 0, zero_add]

/-! ### Examples and violations -/

/-- The Gaussian integers. -/
theorem gaussian : Cartesian (⟨0, 1⟩ : GaussianInt) (fun z => ⟨z.re, 0⟩) (fun z => ⟨z.im, 0⟩) where
  split z := by ext <;> simp
  reReal z := by ext <;> simp
  imReal z := by ext <;> simp
  iStar := by decide
  iSquare := by decide
  reOf x y hx hy := by
    have h1 := congrArg Zsqrtd.im hx
    have h2 := congrArg Zsqrtd.im hy
    simp at h1 h2
    ext <;> simp <;> omega
  imOf x y hx hy := by
    have h1 := congrArg Zsqrtd.im hx
    have h2 := congrArg Zsqrtd.im hy
    simp at h1 h2
    ext <;> simp <;> omega

/-- Two coordinates with 3 and 2 grid points and two real single-particle functions each, complex coefficients. -/
def exReal : List (Nd GaussianInt) := [⟨[3, 2], [0, 1, 1, 0, 0, 0]⟩, ⟨[2, 2], [0, 1, 1, 0]⟩]

def exCoeff : Nd GaussianInt := ⟨[2, 2], [1, ⟨0, 1⟩, 0, ⟨2, 1⟩]⟩

def exTerms : List (Term GaussianInt) :=
  [[(0, ⟨[3, 3], [1, 2, 0, 2, 5, 0, 0, 0, 7]⟩)], [(1, ⟨[2, 2], [0, 3, 3, 1]⟩), (0, ⟨[3, 3], [0, 1, 0, 1, 0, 1, 0, 1, 0]⟩)]]

theorem exReal_blocks : Blocks exReal exCoeff where
  wf := by unfold Nd.Wf; decide
  wfA := by unfold Nd.Wf; decide
  shape := by
    intro c hc
    simp only [exReal, List.mem_cons, List.not_mem_nil, or_false] at hc
    rcases hc with rfl | rfl
    · exact ⟨3, 2, by omega, by omega, rfl⟩
    · exact ⟨2, 2, by omega, by omega, rfl⟩
  shapeA := by decide

/-- The hypotheses of `C65_energy_partial` are met, and the value. -/
example : energyExpection (fun z => ⟨z.re, 0⟩) (fun z => ⟨z.im, 0⟩) ⟨shapeList [(3, 2), (2, 2)], exTerms, [], []⟩
    (concatenate (exReal ++ [exCoeff])) = .ok 31 := by
  rw [C65_energy_partial gaussian exReal_blocks (by unfold IsReal; decide) (by unfold Orthonormal; decide +kernel)
    (by unfold Dvr.TailConst; decide) _ (by decide)]
  · decide +kernel
  · intro term h
    simp only [exTerms, List.mem_cons, List.not_mem_nil, or_false] at h
    rcases h with rfl | rfl <;> exact ⟨by decide, by decide, by decide⟩

/-- One coordinate with two grid points, the single-particle functions `(1, 0)` and `(0, i)`. -/
def exComplex : List (Nd GaussianInt) := [⟨[2, 2], [1, 0, 0, ⟨0, 1⟩]⟩]

/-- The coefficients `(1, -i)`: the state is `(1, 1)`. -/
def exComplexCoeff : Nd GaussianInt := ⟨[2], [1, ⟨0, -1⟩]⟩

/-- The Hamiltonian of a spin in a transverse field. -/
def exFlip : List (Term GaussianInt) := [[(0, ⟨[2, 2], [0, 1, 1, 0]⟩)]]

/-- **C65 is violated for complex single-particle functions**: with orthonormal single-particle functions the energy of the state `(1, 1)` is 2, but
the program returns 0. (All single-particle functions become complex in a propagation in real time.) -/
theorem C65_complex_violated : Blocks exComplex exComplexCoeff ∧ (∀ c ∈ exComplex, Orthonormal c) ∧
    (∀ term ∈ exFlip, TermOk exComplex term) ∧ (∀ x, Valid [2] x → amplitude exComplex exComplexCoeff x = 1) ∧
    energyExpection (fun z => ⟨z.re, 0⟩) (fun z => ⟨z.im, 0⟩) ⟨shapeList [(2, 2)], exFlip, [], []⟩
      (concatenate (exComplex ++ [exComplexCoeff])) = .ok 0 ∧
    energy [2] exFlip (amplitude exComplex exComplexCoeff) = 2 := by
  refine ⟨⟨by unfold Nd.Wf; decide, by unfold Nd.Wf; decide, ?_, by decide⟩, by unfold Orthonormal; decide +kernel, ?_, ?_,
    by decide +kernel, by decide +kernel⟩
  · intro c hc
    obtain rfl := List.mem_singleton.1 hc
    exact ⟨2, 2, by omega, by omega, rfl⟩
  · intro term h
    obtain rfl := List.mem_singleton.1 h
    exact ⟨by decide, by decide, by decide⟩
  · intro x hx
    obtain ⟨y, r, rfl, hy, hr⟩ := valid_cons_iff.1 hx
    cases valid_nil_iff.1 hr
    have : y = 0 ∨ y = 1 := by omega
    rcases this with rfl | rfl <;> decide +kernel

/-- Three coordinates with 1, 2 and 3 grid points, and as many single-particle functions. -/
def exUnequal : List (Nd GaussianInt) := [⟨[1, 1], [1]⟩, ⟨[2, 2], [1, 0, 0, 1]⟩, ⟨[3, 3], [1, 0, 0, 0, 1, 0, 0, 0, 1]⟩]

/-- All of the amplitude is at the grid point `(0, 0, 1)`. -/
def exUnequalCoeff : Nd GaussianInt := ⟨[1, 2, 3], [0, 1, 0, 0, 0, 0]⟩

/-- The Hamiltonian is the number 1, written as an operator of the first coordinate. -/
def exOne : List (Term GaussianInt) := [[(0, ⟨[1, 1], [1]⟩)]]

/-- **C65 is violated for different numbers of single-particle functions**, also when they are real: the energy of a normalized state for the
Hamiltonian 1 is reported as 0. -/
theorem C65_unequal_violated : Blocks exUnequal exUnequalCoeff ∧ (∀ c ∈ exUnequal, Orthonormal c) ∧
    (∀ c ∈ exUnequal, IsReal (fun z => ⟨z.im, 0⟩) c) ∧ (∀ term ∈ exOne, TermOk exUnequal term) ∧
    energyExpection (fun z => ⟨z.re, 0⟩) (fun z => ⟨z.im, 0⟩) ⟨shapeList [(1, 1), (2, 2), (3, 3)], exOne, [], []⟩
      (concatenate (exUnequal ++ [exUnequalCoeff])) = .ok 0 ∧
    energy [1, 2, 3] exOne (amplitude exUnequal exUnequalCoeff) = 1 := by
  refine ⟨⟨by unfold Nd.Wf; decide, by unfold Nd.Wf; decide, ?_, by decide⟩, by unfold Orthonormal; decide +kernel,
    by unfold IsReal; decide, ?_, by decide +kernel, by decide +kernel⟩
  · intro c hc
    simp only [exUnequal, List.mem_cons, List.not_mem_nil, or_false] at hc
    rcases hc with rfl | rfl | rfl
    exacts [⟨1, 1, by omega, by omega, rfl⟩, ⟨2, 2, by omega, by omega, rfl⟩, ⟨3, 3, by omega, by omega, rfl⟩]
  · intro term h
    obtain rfl := List.mem_singleton.1 h
    exact ⟨by decide, by decide, by decide⟩

end Mctdh
