import Verif.Props.C66
import Verif.Props.C95
import Verif.Lemmas.MctdhLinear

/-! C97: the function that `MCTDH.propagation` integrates. -/

open Py
open scoped BigOperators

namespace Mctdh

variable {R : Type} [CommRing R] [StarRing R]

/-- **C97 after each step** (for real single-particle functions and the other conditions of `C66_equations_partial`). After the updater has been
called with a vector, the function that is integrated is at this vector `-i/hbar` times derivatives that satisfy the equations of motion;
`factor` is `1/hbar`. -/
theorem C97_updated_partial {unit : R} {re im : R → R} (hC : Cartesian unit re im) {inv : Nd R → Res (Nd R)} {err factor : R} {cs : List (Nd R)}
    {a : Nd R} (hb : Blocks cs a) (hr : ∀ c ∈ cs, IsReal im c) (ho : ∀ c ∈ cs, Orthonormal c) (htc : Dvr.TailConst 0 a.shape) {o₀ o : Obj R}
    (hsh : o₀.shapes = shapeList (cs.map fun c => (c.dim 0, c.dim 1)))
    (ht : ∀ term ∈ o₀.hTerms, TermOk cs term) (hup : o₀.updater re im (concatenate (cs ++ [a])) = .ok o)
    (hinv : ∀ i < cs.length, Inverts inv (densityArray a err i))
    (htail : ∀ term ∈ o₀.hTerms, ∀ i < cs.length, term.lookup i ≠ none → ∀ p ∈ term, p.1 ≠ i →
      Dvr.TailConst p.1 (a.shape.set i ((block cs i).dim 0))) :
    ∃ ds da, Equations cs a err o₀.hTerms ds da ∧
      o.propagator re im unit factor inv err (concatenate (cs ++ [a])) = .ok ((concatenate (ds ++ [da])).map fun w => -(unit * factor) * w) := by
  obtain ⟨ds, da, h1, h2⟩ := C66_equations_partial hC (o₀ := { o₀ with vec := concatenate (cs ++ [a]) }) hb hr ho htc hsh rfl ht hup hinv htail
  refine ⟨ds, da, h2, ?_⟩
  have hv : o.vec = concatenate (cs ++ [a]) := by
    unfold Obj.updater Obj.update at hup
    obtain ⟨m, _, hm⟩ := bind_eq_ok.1 hup
    rw [← Except.ok.inj hm]
  rw [hv] at h1
  obtain ⟨x, y, k1, k2, k3⟩ := lin_hMat (u := unit) inv err o (CombL.maps (concatenate (cs ++ [a])) re im fun z _ => hC.split z) h1
  unfold Obj.propagator
  rw [k2, ok_bind, k1, ok_bind, ← k3.zip hC.iSquare factor]
  rfl

/-- **C97 for the vector of `init_state`**: if `propagation` is called without `init`, the first evaluation satisfies the equations of motion. -/
theorem C97_default_partial {inv : Nd ℂ → Res (Nd ℂ)} {err factor : ℂ} (eigsh : Nd ℂ → ℕ → Res (List ℝ × Nd ℝ)) (dvrs : List SineDVR)
    (arg : List (ℕ × ℕ)) (H : ℕ → Nd ℂ) (hpos : ∀ p ∈ arg, 0 < p.1 ∧ 0 < p.2)
    (hds : ∀ i < arg.length, ∃ D, dvrs[i]? = some D ∧ D.hMat = .ok (H i) ∧ EigshOk eigsh (H i) (arg.getD i (0, 0)).1 (arg.getD i (0, 0)).2)
    {o₀ o : Obj ℂ} {y : List ℂ} (hsh : o₀.shapes = shapeList arg) (htc : Dvr.TailConst 0 (arg.map Prod.snd))
    (hst : Obj.start (Obj.initState (fun z : ℂ => (z.re : ℂ)) (fun z : ℂ => (z.im : ℂ)) eigsh dvrs arg) o₀ none = .ok (o, y))
    (ht : ∀ term ∈ o₀.hTerms, (∀ p ∈ term, p.1 < arg.length ∧ p.2.shape = [(arg.getD p.1 (0, 0)).1, (arg.getD p.1 (0, 0)).1]) ∧
      (term.map Prod.fst).Nodup)
    (hinv : ∀ i < arg.length, Inverts inv (densityArray ⟨arg.map Prod.snd, (List.replicate (arg.map Prod.snd).prod 0).set 0 1⟩ err i))
    (htail : ∀ term ∈ o₀.hTerms, ∀ i < arg.length, term.lookup i ≠ none → ∀ p ∈ term, p.1 ≠ i →
      Dvr.TailConst p.1 ((arg.map Prod.snd).set i (arg.getD i (0, 0)).1)) :
    ∃ cs a ds da, y = concatenate (cs ++ [a]) ∧ Blocks cs a ∧ (∀ c ∈ cs, Orthonormal c) ∧
      (∀ x, amplitude cs a x = ∏ i ∈ Finset.range arg.length, (block cs i).get [x.getD i 0, 0]) ∧ Equations cs a err o₀.hTerms ds da ∧
      o.propagator (fun z : ℂ => (z.re : ℂ)) (fun z : ℂ => (z.im : ℂ)) Complex.I factor inv err y =
        .ok ((concatenate (ds ++ [da])).map fun w => -(Complex.I * factor) * w) := by
  have hC : Cartesian Complex.I (fun z : ℂ => (z.re : ℂ)) (fun z : ℂ => (z.im : ℂ)) := by
    refine ⟨fun z => ?_, fun z => Complex.conj_ofReal _, fun z => Complex.conj_ofReal _, Complex.conj_I, Complex.I_mul_I, fun x y hx hy => ?_, fun x y hx hy => ?_⟩
    · rw [mul_comm]; exact (Complex.re_add_im z).symm
    all_goals
      obtain ⟨x, rfl⟩ := Complex.conj_eq_iff_real.1 hx
      obtain ⟨y, rfl⟩ := Complex.conj_eq_iff_real.1 hy
      simp
  obtain ⟨cs, a, h1, hb, h3, h3a, h4, h5, h6⟩ := C95_init eigsh dvrs arg H hpos hds
  have hl : cs.length = arg.length := by rw [← h3]; simp
  have hdim : ∀ i < arg.length, (block cs i).dim 0 = (arg.getD i (0, 0)).1 ∧ (block cs i).dim 1 = (arg.getD i (0, 0)).2 := by
    intro i hi
    have : arg.getD i (0, 0) = ((block cs i).dim 0, (block cs i).dim 1) := by
      conv_lhs => rw [← h3]
      rw [List.getD_eq_getElem _ _ (by simpa [hl] using hi), List.getElem_map]
      unfold block
      rw [List.getD_eq_getElem _ _ (by omega)]
    rw [this]
    exact ⟨rfl, rfl⟩
  have hsa : a.shape = arg.map Prod.snd := by
    rw [hb.shapeA, ← h3, List.map_map]
    rfl
  have hmem : ∀ c ∈ cs, ∃ i, i < arg.length ∧ c = block cs i := by
    intro c hc
    obtain ⟨i, hi, rfl⟩ := List.getElem_of_mem hc
    refine ⟨i, by omega, ?_⟩
    unfold block
    rw [List.getD_eq_getElem _ _ hi]
  have ho : ∀ c ∈ cs, Orthonormal c := by
    intro c hc
    obtain ⟨i, hi, rfl⟩ := hmem c hc
    exact (h4 i hi).1
  have hr : ∀ c ∈ cs, IsReal (fun z : ℂ => (z.im : ℂ)) c := by
    intro c hc z hz
    obtain ⟨i, hi, rfl⟩ := hmem c hc
    simp [(h4 i hi).2.1 z hz]
  unfold Obj.start Obj.initState at hst
  dsimp only at hst
  rw [h1, ok_bind] at hst
  obtain ⟨o', hup, hst⟩ := bind_eq_ok.1 hst
  obtain ⟨rfl, rfl⟩ := Prod.mk.inj (Except.ok.inj hst)
  have htok : ∀ term ∈ o₀.hTerms, TermOk cs term := by
    intro term hm
    obtain ⟨t1, t2⟩ := ht term hm
    refine ⟨fun p hp => by rw [hl]; exact (t1 p hp).1, fun p hp => ?_, t2⟩
    rw [(hdim p.1 (t1 p hp).1).1]
    exact (t1 p hp).2
  obtain ⟨ds, da, e1, e2⟩ := C97_updated_partial hC (factor := factor) (o₀ := o₀) hb hr ho (by rw [hsa]; exact htc)
    (by rw [h3]; exact hsh) htok hup (fun i hi => h3a ▸ hinv i (by omega))
    (fun term hm i hi hlk p hp hne => by
      rw [hsa, (hdim i (by omega)).1]
      exact htail term hm i (by omega) hlk p hp hne)
  exact ⟨cs, a, ds, da, rfl, hb, ho, h6, e1, e2⟩

/-! ### A given initial vector -/

/-- One coordinate with two grid points, one single-particle function, and the energies 0 and 1. -/
def exLevels : List (Term GaussianInt) := [[(0, ⟨[2, 2], [0, 0, 0, 1]⟩)]]

/-- The object after a propagation that ended in the lower state. -/
def exStale : Obj GaussianInt := ⟨[[2, 1], [1]], exLevels, [[(0, ⟨[1, 1], [0]⟩)]], [1, 0, 1]⟩

/-- The upper state. -/
def exUpper : List (Nd GaussianInt) := [⟨[2, 1], [0, 1]⟩]

def exOneA : Nd GaussianInt := ⟨[1], [1]⟩

private abbrev reG : GaussianInt → GaussianInt := fun z => ⟨z.re, 0⟩

private abbrev imG : GaussianInt → GaussianInt := fun z => ⟨z.im, 0⟩

deriving instance DecidableEq for Obj

/-- `exStale` is what the updater leaves. -/
example : exStale.updater reG imG [1, 0, 1] = .ok exStale := by decide +kernel

/-- **C97 is violated if `init` is given**: the object keeps the mean fields of its old vector until the first step has been made. Here the
coefficient of the upper state is not changed although its energy is 1. -/
theorem C97_given_violated : ∃ y w, Obj.start (fun _ => .error .keyError) exStale (some (concatenate (exUpper ++ [exOneA]))) = .ok (exStale, y) ∧
    Blocks exUpper exOneA ∧ (∀ c ∈ exUpper, Orthonormal c) ∧ y = concatenate (exUpper ++ [exOneA]) ∧
    exStale.propagator reG imG ⟨0, 1⟩ 1 (fun d => .ok d) 0 y = .ok w ∧
    ¬ ∃ ds da, Equations exUpper exOneA 0 exLevels ds da ∧ w = (concatenate (ds ++ [da])).map fun z => -(⟨0, 1⟩ * 1) * z := by
  refine ⟨_, [0, ⟨0, -1⟩, 0], rfl, ⟨by unfold Nd.Wf; decide, by unfold Nd.Wf; decide, ?_, by decide⟩, by unfold Orthonormal; decide +kernel, rfl,
    by decide +kernel, ?_⟩
  · intro c hc
    obtain rfl := List.mem_singleton.1 hc
    exact ⟨2, 1, by omega, by omega, rfl⟩
  · rintro ⟨ds, da, h, hw⟩
    have hl : ds.length = 1 := by simpa [exUpper] using congrArg List.length h.shapes
    match ds, hl with
    | [d], _ =>
      have hs := h.shapes
      simp only [exUpper, exOneA, List.cons_append, List.nil_append, List.map_cons, List.map_nil, List.cons.injEq, and_true] at hs
      have h1 : d.data.length = 2 := by
        have := h.wf d (by simp)
        unfold Nd.Wf at this
        rw [this, hs.1]; rfl
      have h2 : da.data.length = 1 := by
        have := h.wf da (by simp)
        unfold Nd.Wf at this
        rw [this, hs.2]; rfl
      have hc := h.coefficients [0] (by decide)
      have hp : project exUpper (actSum exLevels (amplitude exUpper exOneA)) [0] = 1 := by decide +kernel
      rw [hp] at hc
      match hd : d.data, h1 with
      | [p, q], _ =>
        match he : da.data, h2 with
        | [r], _ =>
          have hr : r = 1 := by
            rw [← hc]
            unfold Nd.get
            rw [he, hs.2]
            rfl
          simp only [concatenate, List.cons_append, List.nil_append, List.map_cons, List.map_nil, hd, he, List.flatten_cons, List.flatten_nil, List.append_nil,
            List.cons.injEq, and_true, hr] at hw
          exact absurd hw.2.2 (by decide)

/-- The hypotheses of `C97_updated_partial` are met by the same vector: the updater gives mean fields for which the equations hold. -/
example : ∃ o ds da, exStale.updater reG imG (concatenate (exUpper ++ [exOneA])) = .ok o ∧ Equations exUpper exOneA 0 exLevels ds da ∧
    o.propagator reG imG ⟨0, 1⟩ 1 (fun d => .ok d) 0 (concatenate (exUpper ++ [exOneA])) =
      .ok ((concatenate (ds ++ [da])).map fun w => -(⟨0, 1⟩ * 1) * w) := by
  have hup : exStale.updater reG imG (concatenate (exUpper ++ [exOneA])) =
    .ok ⟨[[2, 1], [1]], exLevels, [[(0, ⟨[1, 1], [1]⟩)]], [0, 1, 1]⟩ := by decide +kernel
  have hb : Blocks exUpper exOneA := by
    refine ⟨by unfold Nd.Wf; decide, by unfold Nd.Wf; decide, ?_, by decide⟩
    intro c hc
    obtain rfl := List.mem_singleton.1 hc
    exact ⟨2, 1, by omega, by omega, rfl⟩
  obtain ⟨ds, da, h1, h2⟩ := C97_updated_partial gaussian (inv := fun d => .ok d) (err := 0) (factor := 1) hb (by unfold IsReal; decide)
    (by unfold Orthonormal; decide +kernel) (by unfold Dvr.TailConst; decide) (o₀ := exStale) rfl
    (by
      intro term hm
      obtain rfl := List.mem_singleton.1 hm
      exact ⟨by decide, by decide, by decide⟩) hup
    (by
      intro i hi
      have : i = 0 := by simp [exUpper] at hi; exact hi
      subst this
      exact ⟨_, rfl, rfl, by decide +kernel⟩)
    (by
      intro term hm i hi _ p hp hne
      obtain rfl := List.mem_singleton.1 hm
      obtain rfl := List.mem_singleton.1 hp
      have : i = 0 := by simp [exUpper] at hi; exact hi
      exact absurd this.symm hne)
  exact ⟨_, ds, da, hup, h1, h2⟩

end Mctdh
