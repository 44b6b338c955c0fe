import Verif.Lemmas.Mctdh6
import Verif.Lemmas.Autocomplete

/-!
C66: the MCTDH vector field satisfies the equations of motion of MCTDH.
-/

open Py
open scoped BigOperators

namespace Mctdh

variable {R : Type} [CommRing R] [StarRing R]

/-- One term. -/
private theorem term_ok {inv : Nd R → Res (Nd R)} {err : R} {cs : List (Nd R)} {a : Nd R} (hb : Blocks cs a) (ho : ∀ c ∈ cs, Orthonormal c)
    (htc : Dvr.TailConst 0 a.shape) {o : Obj R} (hsh : o.shapes = shapeList (cs.map fun c => (c.dim 0, c.dim 1)))
    (hv : o.vec = concatenate (cs ++ [a])) {r : ℕ} {term mods : Term R} (h1 : o.hTerms[r]? = some term) (h2 : o.modTerms[r]? = some mods)
    (ht : TermOk cs term) (hm : ModsOk cs term mods) (hinv : ∀ i < cs.length, Inverts inv (densityArray a err i))
    (htail : ∀ i < cs.length, term.lookup i ≠ none → ∀ p ∈ term, p.1 ≠ i → Dvr.TailConst p.1 (a.shape.set i ((block cs i).dim 0))) :
    ∃ ds da, termHamiltonian inv err o r o.vec = .ok (concatenate (ds ++ [da])) ∧ Equations cs a err [term] ds da := by
  have key := fun (i : ℕ) (hi : i < cs.length) => spOp_ok hb ho htc hsh hv ht hm hi (hinv i hi) (htail i hi)
  obtain ⟨da, c1, c2, c3, c4⟩ := coeffOp_project hb ho htc ht hm
  have : ∃ g : ℕ → Nd R, ∀ i (hi : i < cs.length), spOp inv err o i (block cs i) ((term.filter fun p => p.1 = i).map Prod.snd) mods = .ok (g i) ∧
      (g i).Wf ∧ (g i).shape = (block cs i).shape ∧
      (∀ j < (block cs i).dim 1, ∀ k < (block cs i).dim 1,
        (∑ x ∈ Finset.range ((block cs i).dim 0), star ((block cs i).get [x, j]) * (g i).get [x, k]) = 0) ∧
      ∀ x < (block cs i).dim 0, ∀ q < (block cs i).dim 1,
        (∑ k ∈ Finset.range ((block cs i).dim 1), (g i).get [x, k] * density a err i k q) =
          outside (block cs i) (fun y => meanField cs a i (actTerm term (amplitude cs a)) y q) x := by
    classical
    refine ⟨fun i => if hi : i < cs.length then (key i hi).choose else ⟨[], []⟩, fun i hi => ?_⟩
    simp only [hi, dif_pos]
    exact (key i hi).choose_spec
  obtain ⟨g, hg⟩ := this
  have hlen : o.shapes.length = cs.length + 1 := by rw [hsh]; simp [shapeList]
  have hsub : ∀ i < cs.length, getSubVec o.shapes (i : ℤ) o.vec = .ok (block cs i) := by
    intro i hi
    rw [hsh, hv, hb.sub hi]
  have hlast : getSubVec o.shapes (cs.length : ℤ) o.vec = .ok a := by
    rw [hsh, hv, hb.shapes, C51_unpack_pack _ hb.wfs cs.length (by simp)]
    simp
  have hbl : ∀ i < cs.length, block ((List.range cs.length).map g) i = g i := by
    intro i hi
    unfold block
    rw [List.getD_eq_getElem _ _ (by simpa using hi)]
    simp
  have hsum : ∀ x, actSum [term] (amplitude cs a) x = actTerm term (amplitude cs a) x := by
    intro x
    simp [actSum]
  refine ⟨(List.range cs.length).map g, da, ?_, ?_⟩
  · unfold termHamiltonian item
    rw [h1, h2]
    simp only [Option.elim, ok_bind]
    rw [hlen, List.range_succ, List.mapM_append]
    rw [Heap.mapM_ok (g := g) fun i hi => ?_, ok_bind, List.mapM_cons, hlast, ok_bind, if_neg (by omega), c1, ok_bind]
    · rfl
    · have hi := List.mem_range.1 hi
      rw [hsub i hi, ok_bind, if_pos (by omega)]
      exact (hg i hi).1
  · refine ⟨?_, ?_, ?_, ?_, ?_⟩
    · rw [List.map_append, List.map_append]
      congr 1
      · refine List.ext_getElem (by simp) fun i h1 h2 => ?_
        have hi : i < cs.length := by simpa using h2
        have := (hg i hi).2.2.1
        unfold block at this
        rw [List.getD_eq_getElem _ _ hi] at this
        simpa using this
      · simp [c3]
    · intro d hd
      rcases List.mem_append.1 hd with hd | hd
      · obtain ⟨i, hi, rfl⟩ := List.mem_map.1 hd
        exact (hg i (List.mem_range.1 hi)).2.1
      · obtain rfl := List.mem_singleton.1 hd
        exact c2
    · intro j hj
      rw [c4 j hj]
      congr 1
      funext x
      exact (hsum x).symm
    · intro i hi j hj k hk
      rw [hbl i hi]
      exact (hg i hi).2.2.2.1 j hj k hk
    · intro i hi x hx q hq
      rw [hbl i hi, (hg i hi).2.2.2.2 x hx q hq]
      congr 1
      funext y
      congr 1
      funext z
      exact (hsum z).symm

/-- The step of the loop of `_matvec`. -/
private def addOne (inv : Nd R → Res (Nd R)) (err : R) (o : Obj R) (vec : List R) (ans : List R) (r : ℕ) : Res (List R) := do
  let x ← termHamiltonian inv err o r vec
  if ans.length = x.length then pure (List.zipWith (· + ·) ans x) else throw .valueError

/-- **C66 for real single-particle functions.** For every state with real orthonormal single-particle functions and every Hamiltonian that is a
sum of products: after `update_mod_terms`, the vector field returned by `h_mat` at the current state satisfies the equations of motion of
MCTDH, with the density matrix regularized by `err`, and with the gauge in which the derivatives are orthogonal to the single-particle
functions. `inv` must succeed on the density matrices. All coordinates but the first have the same number of single-particle functions, and
after the functions of a coordinate `i` are expanded on the grid, each other coordinate on which the same term acts must be followed by axes
of one length only. -/
theorem C66_equations_partial {im_ : R} {re im : R → R} (hC : Cartesian im_ re im) {inv : Nd R → Res (Nd R)} {err : R} {cs : List (Nd R)} {a : Nd R}
    (hb : Blocks cs a) (hr : ∀ c ∈ cs, IsReal im c) (ho : ∀ c ∈ cs, Orthonormal c) (htc : Dvr.TailConst 0 a.shape) {o₀ o : Obj R}
    (hsh : o₀.shapes = shapeList (cs.map fun c => (c.dim 0, c.dim 1))) (hv : o₀.vec = concatenate (cs ++ [a]))
    (ht : ∀ term ∈ o₀.hTerms, TermOk cs term) (hup : o₀.update re im = .ok o)
    (hinv : ∀ i < cs.length, Inverts inv (densityArray a err i))
    (htail : ∀ term ∈ o₀.hTerms, ∀ i < cs.length, term.lookup i ≠ none → ∀ p ∈ term, p.1 ≠ i →
      Dvr.TailConst p.1 (a.shape.set i ((block cs i).dim 0))) :
    ∃ ds da, hMat inv err o o.vec = .ok (concatenate (ds ++ [da])) ∧ Equations cs a err o₀.hTerms ds da := by
  have hmods : ∀ terms : List (Term R), (∀ term ∈ terms, TermOk cs term) → ∃ mods : List (Term R),
      updateModTerms re im (shapeList (cs.map fun c => (c.dim 0, c.dim 1))) terms (concatenate (cs ++ [a])) = .ok mods ∧
      mods.length = terms.length ∧ ∀ (r : ℕ) term, terms[r]? = some term → ∃ m, mods[r]? = some m ∧ ModsOk cs term m := by
    intro terms
    induction terms with
    | nil => intro _; exact ⟨[], rfl, rfl, fun r term h => by simp at h⟩
    | cons term terms ih =>
      intro h
      obtain ⟨mods, m1, m2, m3⟩ := ih fun t ht => h t (List.mem_cons_of_mem _ ht)
      have hT := h term List.mem_cons_self
      obtain ⟨m, n1, n2, n3, n4⟩ := modTerm_real hC hb hr term hT.coord hT.shape
      refine ⟨m :: mods, ?_, by simp [m2], fun r t hr' => ?_⟩
      · unfold updateModTerms at m1 ⊢
        rw [List.mapM_cons, n1, ok_bind, m1]
        rfl
      · cases r with
        | zero =>
          obtain rfl : term = t := by simpa using hr'
          exact ⟨m, by simp, ⟨n2, n3, n4⟩⟩
        | succ r =>
          obtain ⟨m', k1, k2⟩ := m3 r t (by simpa using hr')
          exact ⟨m', by simpa using k1, k2⟩
  obtain ⟨mods, m1, m2, m3⟩ := hmods o₀.hTerms ht
  have ho' : o = { o₀ with modTerms := mods } := by
    unfold Obj.update at hup
    rw [hsh, hv, m1, ok_bind] at hup
    rw [← hv, ← hsh] at hup
    exact (Except.ok.inj hup).symm
  have s1 : o.shapes = shapeList (cs.map fun c => (c.dim 0, c.dim 1)) := by rw [ho']; exact hsh
  have s2 : o.vec = concatenate (cs ++ [a]) := by rw [ho']; exact hv
  have s3 : o.hTerms = o₀.hTerms := by rw [ho']
  have s4 : o.modTerms = mods := by rw [ho']
  have loop : ∀ k ≤ o₀.hTerms.length, ∃ ds da, (List.range k).foldlM (addOne inv err o o.vec) (List.replicate o.vec.length 0) =
      .ok (concatenate (ds ++ [da])) ∧ Equations cs a err (o₀.hTerms.take k) ds da := by
    intro k
    induction k with
    | zero =>
      intro _
      refine ⟨cs.map zeroLike, zeroLike a, ?_, by simpa using Equations.zero err⟩
      have := concatenate_zero (cs ++ [a]) hb.wfs
      rw [List.map_append] at this
      rw [s2, ← this]
      rfl
    | succ k ih =>
      intro hk
      obtain ⟨ds, da, f1, f2⟩ := ih (by omega)
      have hk' : k < o₀.hTerms.length := by omega
      have g1 : o₀.hTerms[k]? = some o₀.hTerms[k] := List.getElem?_eq_getElem hk'
      obtain ⟨m, g2, g3⟩ := m3 k _ g1
      have hmem : o₀.hTerms[k] ∈ o₀.hTerms := List.getElem_mem _
      obtain ⟨ds', da', t1, t2⟩ := term_ok hb ho htc s1 s2 (r := k) (by rw [s3]; exact g1) (by rw [s4]; exact g2) (ht _ hmem) g3 hinv (htail _ hmem)
      obtain ⟨z1, z2, z3⟩ := f2.add hb t2
      refine ⟨List.zipWith sumNd ds ds', sumNd da da', ?_, ?_⟩
      rotate_left
      · rw [List.take_succ_eq_append_getElem hk']
        exact z1
      · rw [List.range_succ, List.foldlM_append, f1, ok_bind, List.foldlM_cons]
        conv_lhs => enter [1]; unfold addOne
        rw [t1, ok_bind, if_pos z2, z3]
        rfl
  obtain ⟨ds, da, f1, f2⟩ := loop _ le_rfl
  rw [List.take_length] at f2
  refine ⟨ds, da, ?_, f2⟩
  unfold hMat
  rw [s3]
  exact f1

/-- **C66 for two coordinates**: no condition on the numbers of single-particle functions or on the couplings. -/
theorem C66_two_coordinates_partial {im_ : R} {re im : R → R} (hC : Cartesian im_ re im) {inv : Nd R → Res (Nd R)} {err : R} {c₀ c₁ a : Nd R}
    (hb : Blocks [c₀, c₁] a) (hr : ∀ c ∈ [c₀, c₁], IsReal im c) (ho : ∀ c ∈ [c₀, c₁], Orthonormal c) {o₀ o : Obj R}
    (hsh : o₀.shapes = shapeList ([c₀, c₁].map fun c => (c.dim 0, c.dim 1))) (hv : o₀.vec = concatenate [c₀, c₁, a])
    (ht : ∀ term ∈ o₀.hTerms, TermOk [c₀, c₁] term) (hup : o₀.update re im = .ok o)
    (hinv : ∀ i < 2, Inverts inv (densityArray a err i)) :
    ∃ d₀ d₁ da, hMat inv err o o.vec = .ok (concatenate [d₀, d₁, da]) ∧ Equations [c₀, c₁] a err o₀.hTerms [d₀, d₁] da := by
  have two : ∀ (j : ℕ) (s : List ℕ), s.length = 2 → Dvr.TailConst j s := by
    intro j s hs x hx y hy
    have hl : (s.drop (j + 1)).length ≤ 1 := by rw [List.length_drop]; omega
    match h : s.drop (j + 1), hl with
    | [], _ => rw [h] at hx; simp at hx
    | [z], _ =>
      rw [h] at hx hy
      rw [List.mem_singleton.1 hx, List.mem_singleton.1 hy]
  have ha : a.shape.length = 2 := hb.lenA
  obtain ⟨ds, da, h1, h2⟩ := C66_equations_partial hC hb hr ho (two 0 _ ha) hsh hv ht hup hinv
    (fun _ _ i _ _ p _ _ => two _ _ (by rw [List.length_set]; exact ha))
  have hl : ds.length = 2 := by simpa using congrArg List.length h2.shapes
  match ds, hl with
  | [d₀, d₁], _ => exact ⟨d₀, d₁, da, h1, h2⟩

/-! ### Example -/

/-- The coefficients of the example: the density matrices have determinant 1. -/
def exUnit : Nd GaussianInt := ⟨[2, 2], [1, ⟨0, 1⟩, 0, 1]⟩

/-- The inverse of a matrix of two rows with determinant 1. -/
def inv2 (d : Nd GaussianInt) : Res (Nd GaussianInt) := .ok ⟨[2, 2], [d.get [1, 1], -d.get [0, 1], -d.get [1, 0], d.get [0, 0]]⟩

def exObj : Obj GaussianInt := ⟨shapeList [(3, 2), (2, 2)], exTerms, [], concatenate (exReal ++ [exUnit])⟩

theorem exUnit_blocks : Blocks exReal exUnit where
  wf := by unfold Nd.Wf; decide
  wfA := by unfold Nd.Wf; decide
  shape := exReal_blocks.shape
  shapeA := by decide

/-- The hypotheses of `C66_two_coordinates_partial` are met. -/
example : ∃ o ds, exObj.update (fun z => ⟨z.re, 0⟩) (fun z => ⟨z.im, 0⟩) = .ok o ∧ hMat inv2 0 o o.vec = .ok (concatenate ds) := by
  obtain ⟨o, ho⟩ : ∃ o, exObj.update (fun z => ⟨z.re, 0⟩) (fun z => ⟨z.im, 0⟩) = .ok o := by
    have : (exObj.update (fun z => ⟨z.re, 0⟩) (fun z => ⟨z.im, 0⟩)).isOk = true := by decide +kernel
    cases h : exObj.update (fun z => ⟨z.re, 0⟩) (fun z => ⟨z.im, 0⟩) with
    | ok o => exact ⟨o, rfl⟩
    | error e => rw [h] at this; cases this
  refine ⟨o, ?_⟩
  obtain ⟨d₀, d₁, da, h, _⟩ := C66_two_coordinates_partial gaussian (inv := inv2) (err := 0) exUnit_blocks (by unfold IsReal; decide)
    (by unfold Orthonormal; decide +kernel) (o₀ := exObj) (by decide) (by decide) (fun term h => by
      have h : term ∈ exTerms := h
      simp only [exTerms, List.mem_cons, List.not_mem_nil, or_false] at h
      rcases h with rfl | rfl <;> exact ⟨by decide, by decide, by decide⟩) ho
    (fun i hi => ⟨_, rfl, by have : i = 0 ∨ i = 1 := by omega
                             rcases this with rfl | rfl <;> decide +kernel, by
      have : i = 0 ∨ i = 1 := by omega
      rcases this with rfl | rfl <;> decide +kernel⟩)
  exact ⟨_, ho, h⟩

/-- The derivatives in the example, from the kernel's evaluation of the model. -/
def exDerivative : Res (List GaussianInt) := do
  let o ← exObj.update (fun z => ⟨z.re, 0⟩) (fun z => ⟨z.im, 0⟩)
  hMat inv2 0 o o.vec

example : exDerivative = .ok [0, 0, 0, 0, ⟨1, 3⟩, ⟨6, -1⟩, 0, 0, 0, 0, 8, ⟨2, 5⟩, ⟨3, 3⟩, ⟨4, 2⟩] := by decide +kernel

/-! ### Violations -/

/-- Two coordinates with two grid points each, and the single-particle functions `(1, 0)` and `(0, i)` for each. -/
def exPhases : List (Nd GaussianInt) := [⟨[2, 2], [1, 0, 0, ⟨0, 1⟩]⟩, ⟨[2, 2], [1, 0, 0, ⟨0, 1⟩]⟩]

def exPhasesObj : Obj GaussianInt := ⟨shapeList [(2, 2), (2, 2)], exFlip, [], concatenate (exPhases ++ [exUnit])⟩

/-- **C66 is violated for complex single-particle functions**: there is a state with orthonormal single-particle functions for which the
derivatives returned by the program do not satisfy the equations of motion. -/
theorem C66_complex_violated : Blocks exPhases exUnit ∧ (∀ c ∈ exPhases, Orthonormal c) ∧ (∀ term ∈ exFlip, TermOk exPhases term) ∧
    (∀ i < 2, Inverts inv2 (densityArray exUnit 0 i)) ∧
    ∃ o v, exPhasesObj.update (fun z => ⟨z.re, 0⟩) (fun z => ⟨z.im, 0⟩) = .ok o ∧ hMat inv2 0 o o.vec = .ok v ∧
      ¬ ∃ ds da, v = concatenate (ds ++ [da]) ∧ Equations exPhases exUnit 0 exFlip ds da := by
  have hb : Blocks exPhases exUnit := by
    refine ⟨by unfold Nd.Wf; decide, by unfold Nd.Wf; decide, ?_, by decide⟩
    intro c hc
    simp only [exPhases, List.mem_cons, List.not_mem_nil, or_false] at hc
    rcases hc with rfl | rfl <;> exact ⟨2, 2, by omega, by omega, rfl⟩
  refine ⟨hb, by unfold Orthonormal; decide +kernel, ?_, fun i hi => ⟨_, rfl, ?_, ?_⟩, ?_⟩
  · intro term h
    obtain rfl := List.mem_singleton.1 h
    exact ⟨by decide, by decide, by decide⟩
  · have : i = 0 ∨ i = 1 := by omega
    rcases this with rfl | rfl <;> decide +kernel
  · have : i = 0 ∨ i = 1 := by omega
    rcases this with rfl | rfl <;> decide +kernel
  · refine ⟨{ exPhasesObj with modTerms := [[(0, ⟨[2, 2], [0, 0, 0, 0]⟩)]] }, List.replicate 12 0, ?_, by decide +kernel, ?_⟩
    · unfold Obj.update
      rw [show updateModTerms (fun z => (⟨z.re, 0⟩ : GaussianInt)) (fun z => ⟨z.im, 0⟩) exPhasesObj.shapes exPhasesObj.hTerms exPhasesObj.vec =
        .ok [[(0, ⟨[2, 2], [0, 0, 0, 0]⟩)]] from by decide +kernel]
      rfl
    rintro ⟨ds, da, h1, h2⟩
    have hl : getSubVec ((ds ++ [da]).map Nd.shape) (-1) (concatenate (ds ++ [da])) = .ok da := by
      have := C51_from_end _ h2.wf 1 (by omega) (by simp)
      simpa using this
    rw [h2.shapes, ← h1] at hl
    have hd : da = ⟨[2, 2], [0, 0, 0, 0]⟩ := by
      have e : getSubVec ((exPhases ++ [exUnit]).map Nd.shape) (-1) (List.replicate 12 (0 : GaussianInt)) =
          .ok ⟨[2, 2], [0, 0, 0, 0]⟩ := by decide +kernel
      exact (Except.ok.inj (e.symm.trans hl)).symm
    have := h2.coefficients [0, 1] (by decide)
    rw [hd] at this
    revert this
    decide +kernel

/-- Three coordinates with two grid points and one single-particle function each. -/
def exThree : List (Nd GaussianInt) := [⟨[2, 1], [1, 0]⟩, ⟨[2, 1], [1, 0]⟩, ⟨[2, 1], [1, 0]⟩]

def exThreeCoeff : Nd GaussianInt := ⟨[1, 1, 1], [1]⟩

/-- The product of a flip of the first and of one of the second coordinate. -/
def exCoupling : List (Term GaussianInt) := [[(0, ⟨[2, 2], [0, 1, 1, 0]⟩), (1, ⟨[2, 2], [0, 1, 1, 0]⟩)]]

def exThreeObj : Obj GaussianInt := ⟨shapeList [(2, 1), (2, 1), (2, 1)], exCoupling, [], concatenate (exThree ++ [exThreeCoeff])⟩

/-- **C66 is violated for three coordinates**: with a coupling of the first to the second coordinate the program raises `ValueError`,
also when the single-particle functions are real and the density matrices are the number 1. -/
theorem C66_three_violated : Blocks exThree exThreeCoeff ∧ (∀ c ∈ exThree, Orthonormal c) ∧
    (∀ c ∈ exThree, IsReal (fun z => ⟨z.im, 0⟩) c) ∧ (∀ term ∈ exCoupling, TermOk exThree term) ∧
    (∀ i < 3, densityArray exThreeCoeff 0 i = ⟨[1, 1], [1]⟩) ∧
    (exThreeObj.update (fun z => ⟨z.re, 0⟩) (fun z => ⟨z.im, 0⟩) >>= fun o => hMat .ok 0 o o.vec) = .error .valueError := by
  refine ⟨⟨by unfold Nd.Wf; decide, by unfold Nd.Wf; decide, ?_, by decide⟩, by unfold Orthonormal; decide +kernel,
    by unfold IsReal; decide, ?_, by decide +kernel, by decide +kernel⟩
  · intro c hc
    simp only [exThree, List.mem_cons, List.not_mem_nil, or_false] at hc
    rcases hc with rfl | rfl | rfl <;> exact ⟨2, 1, by omega, by omega, rfl⟩
  · intro term h
    obtain rfl := List.mem_singleton.1 h
    exact ⟨by decide, by decide, by decide⟩

end Mctdh
