import Verif.Lemmas.Fourier
import Mathlib.Analysis.SpecialFunctions.Trigonometric.Complex

/-!
C41: the Fourier transform from a grid to its conjugate grid and back is the identity.
C59: the momentum grid is that of the discrete Fourier transform (violated).
-/

open Py
open scoped BigOperators

namespace Grids

private theorem root_mul {hbar : ℝ} (hh : 0 < hbar) : ((Real.sqrt (2 * Real.pi * hbar) : ℝ) : ℂ) * ((Real.sqrt (2 * Real.pi * hbar) : ℝ) : ℂ) =
    2 * Real.pi * hbar := by
  rw [← Complex.ofReal_mul, Real.mul_self_sqrt (by have := Real.pi_pos; positivity)]
  push_cast
  rfl

/-- For a new coordinate or momentum grid with at least two points and non-zero width, and every vector: transforming it, and transforming
the result with the conjugate object, returns the vector. -/
theorem C41_round_trip (b : Basis) {w : ℂ} (hw : b.width = .ok w) (h0 : w ≠ 0) (hn : 2 ≤ b.xs.length) (hh : 0 < b.hbar) {v : List ℂ}
    (hv : v ≠ []) : ∃ c f, (Obj.new b).getConj = .ok c ∧ (Obj.new b).ft v = .ok f ∧ c.ft f = .ok v := by
  have hp : (Real.pi : ℂ) ≠ 0 := by exact_mod_cast Real.pi_ne_zero
  have hb : (b.hbar : ℂ) ≠ 0 := by exact_mod_cast hh.ne'
  have hN : (b.xs.length : ℂ) ≠ 0 := by
    have : b.xs.length ≠ 0 := by omega
    exact_mod_cast this
  have hw' : 2 * (Real.pi : ℂ) * b.hbar * b.xs.length / w ≠ 0 := div_ne_zero (by simp [hp, hb, hN]) h0
  have hr := root_mul hh
  have hl : (ifftshift v).length ≠ 0 := by
    rw [length_ifftshift]; exact fun h => hv (List.length_eq_zero_iff.1 h)
  have fin : ∀ {c1 c2 : ℂ}, c1 * c2 = 1 → (fftshift ((ifftshift v).map (c1 * ·))).map (c2 * ·) = v := by
    intro c1 c2 h
    rw [map_fftshift, fftshift_ifftshift, List.map_map]
    refine (List.map_congr_left fun x _ => ?_).trans (List.map_id v)
    simp only [Function.comp_apply, id_eq]
    linear_combination x * h
  cases hk : b.kind with
  | coordinate =>
    obtain ⟨c, c1, c2, c3, c4, c5⟩ := conj_coordinate hw h0 hn
    have hc : (Obj.new b).getConj = .ok ⟨c, some b⟩ := by
      unfold Obj.new Obj.getConj
      dsimp only
      rw [hk]
      dsimp only
      rw [c1]
      rfl
    set r : ℂ := ((Real.sqrt (2 * Real.pi * b.hbar) : ℝ) : ℂ) with hrdef
    set k1 : ℂ := r / (2 * Real.pi * b.hbar * b.xs.length / w) with hk1
    obtain ⟨f, f1, f2, f3⟩ := ifft_fft hl k1
    refine ⟨⟨c, some b⟩, (fftshift f).map (k1 * ·), hc, ?_, ?_⟩
    · unfold Obj.ft
      rw [hc, ok_bind]
      unfold Obj.new
      dsimp only
      rw [hk]
      dsimp only
      rw [c5, ok_bind, div_ok hw', ok_bind, f1, ok_bind]
      rfl
    · unfold Obj.ft
      have : (Obj.mk c (some b)).getConj = .ok ⟨b, some c⟩ := rfl
      rw [this, ok_bind]
      dsimp only
      rw [c2]
      dsimp only
      rw [hw, ok_bind, div_ok h0, ok_bind, ← map_fftshift, ifftshift_fftshift, f3, ok_bind]
      refine congrArg Except.ok (fin ?_)
      rw [hk1, c3, c4, ← hrdef]
      field_simp
      linear_combination hr
  | momentum =>
    obtain ⟨c, c1, c2, c3, c4, c5⟩ := conj_momentum hw h0 hn
    have hc : (Obj.new b).getConj = .ok ⟨c, some b⟩ := by
      unfold Obj.new Obj.getConj
      dsimp only
      rw [hk]
      dsimp only
      rw [c1]
      rfl
    set r : ℂ := ((Real.sqrt (2 * Real.pi * b.hbar) : ℝ) : ℂ) with hrdef
    set k1 : ℂ := r / (2 * Real.pi * b.hbar * b.xs.length / w) * b.xs.length with hk1
    obtain ⟨f, f1, f2, f3⟩ := fft_ifft hl k1
    refine ⟨⟨c, some b⟩, (fftshift f).map (k1 * ·), hc, ?_, ?_⟩
    · unfold Obj.ft
      rw [hc, ok_bind]
      unfold Obj.new
      dsimp only
      rw [hk]
      dsimp only
      rw [c5, ok_bind, div_ok hw', ok_bind, f1, ok_bind]
      rfl
    · unfold Obj.ft
      have : (Obj.mk c (some b)).getConj = .ok ⟨b, some c⟩ := rfl
      rw [this, ok_bind]
      dsimp only
      rw [c2]
      dsimp only
      rw [hw, ok_bind, div_ok h0, ok_bind, ← map_fftshift, ifftshift_fftshift, f3, ok_bind]
      refine congrArg Except.ok (fin ?_)
      rw [hk1, c3, ← hrdef]
      field_simp
      linear_combination hr

/-- The conjugate of the conjugate is the object itself. -/
theorem C41_conj_conj (b : Basis) {c : Obj} (h : (Obj.new b).getConj = .ok c) : ∃ b', c.getConj = .ok ⟨b, some b'⟩ := by
  unfold Obj.new Obj.getConj at h
  simp only [bind_eq_ok] at h
  obtain ⟨x, -, h⟩ := h
  cases h
  exact ⟨x, rfl⟩

/-- On a grid without width (a single point) the transformation fails. -/
theorem C41_no_width (b : Basis) (hw : b.width = .ok 0) (v : List ℂ) : (Obj.new b).ft v = .error .zeroDivisionError := by
  have : (Obj.new b).getConj = .error .zeroDivisionError := by
    unfold Obj.new Obj.getConj conjOfCoordinate conjOfMomentum
    cases b.kind <;> dsimp only <;> rw [hw] <;> simp [div, ok_bind] <;> rfl
  unfold Obj.ft
  rw [this]
  rfl

example : ∃ c f, (Obj.new (Basis.new .coordinate (-20) 20 4 1)).getConj = .ok c ∧
    (Obj.new (Basis.new .coordinate (-20) 20 4 1)).ft [1, 2, 3, Complex.I] = .ok f ∧ c.ft f = .ok [1, 2, 3, Complex.I] :=
  C41_round_trip _ (width_new (by omega)) (by norm_num) (by rw [length_new]; omega) (by simp [Basis.new]) (by simp)

example : ∃ c f, (Obj.new (Basis.new .momentum (-1) 2 5 2)).getConj = .ok c ∧
    (Obj.new (Basis.new .momentum (-1) 2 5 2)).ft [1, 2, 3, Complex.I] = .ok f ∧ c.ft f = .ok [1, 2, 3, Complex.I] :=
  C41_round_trip _ (width_new (by omega)) (by norm_num) (by rw [length_new]; omega) (by simp [Basis.new]) (by simp)

/-! ### C59 -/

/-- The spacing of the points of a new grid. -/
def Spacing (b : Basis) (d : ℂ) : Prop := ∀ i, i + 1 < b.xs.length → b.xs.getD (i + 1) 0 - b.xs.getD i 0 = d

private theorem spacing_new {kind : Kind} {x y : ℂ} {n : ℕ} {hbar : ℝ} (hn : 2 ≤ n) : Spacing (Basis.new kind x y n hbar) ((y - x) / (n - 1)) := by
  intro i hi
  rw [length_new] at hi
  unfold Basis.new linspace
  dsimp only
  rw [if_neg (by omega), map_getD _ hi, map_getD _ (by omega)]
  push_cast
  ring

/-- The product of the spacings of a coordinate grid and of its conjugate grid is `2πħ n / (n - 1)²`. -/
theorem C59_spacing_partial {x y : ℂ} {n : ℕ} {hbar : ℝ} (hn : 2 ≤ n) (hxy : x ≠ y) : ∃ c dx dp, (Obj.new (Basis.new .coordinate x y n hbar)).getConj = .ok c ∧
    Spacing (Basis.new .coordinate x y n hbar) dx ∧ Spacing c.basis dp ∧ dx * dp = 2 * Real.pi * hbar * n / (n - 1) ^ 2 := by
  have h0 : y - x ≠ 0 := sub_ne_zero.2 (Ne.symm hxy)
  have hn1 : ((n : ℂ) - 1) ≠ 0 := by
    intro h
    have : (n : ℂ) = 1 := by linear_combination h
    have : n = 1 := by exact_mod_cast this
    omega
  have key : ∀ half : ℂ, ∃ c dx dp, (pure (⟨Basis.new .momentum ((half - 1) * (2 * Real.pi * hbar * n / (y - x)))
      (half * (2 * Real.pi * hbar * n / (y - x))) n hbar, some (Basis.new .coordinate x y n hbar)⟩ : Obj) : Res Obj) = .ok c ∧
      Spacing (Basis.new .coordinate x y n hbar) dx ∧ Spacing c.basis dp ∧ dx * dp = 2 * Real.pi * hbar * n / (n - 1) ^ 2 := by
    intro half
    refine ⟨_, _, _, rfl, spacing_new hn, spacing_new hn, ?_⟩
    field_simp
    ring
  unfold Obj.new Obj.getConj
  have hk : (Basis.new .coordinate x y n hbar).kind = .coordinate := rfl
  dsimp only
  rw [hk]
  unfold conjOfCoordinate
  dsimp only
  rw [length_new, width_new hn, ok_bind, div_ok h0, ok_bind]
  have hhb : (Basis.new .coordinate x y n hbar).hbar = hbar := rfl
  rw [hhb]
  split
  · exact key _
  · rw [div_ok hn1]
    exact key _

/-- The zero of the conjugate grid is at number `n // 2`, where the transformed vector has the frequency 0, for even and for odd `n`. -/
theorem C59_zero {x y : ℂ} {n : ℕ} {hbar : ℝ} (hn : 2 ≤ n) (hxy : x ≠ y) : ∃ c, (Obj.new (Basis.new .coordinate x y n hbar)).getConj = .ok c ∧
    c.basis.xs.length = n ∧ c.basis.xs[n / 2]? = some 0 := by
  have h0 : y - x ≠ 0 := sub_ne_zero.2 (Ne.symm hxy)
  have hn1 : ((n : ℂ) - 1) ≠ 0 := by
    intro h
    have : (n : ℂ) = 1 := by linear_combination h
    have : n = 1 := by exact_mod_cast this
    omega
  have key : ∀ half w : ℂ, half - 1 + (n / 2 : ℕ) / ((n : ℂ) - 1) = 0 → ∃ c,
      (pure (⟨Basis.new .momentum ((half - 1) * w) (half * w) n hbar, some (Basis.new .coordinate x y n hbar)⟩ : Obj) : Res Obj) = .ok c ∧
      c.basis.xs.length = n ∧ c.basis.xs[n / 2]? = some 0 := by
    intro half w hz
    refine ⟨_, rfl, length_new, ?_⟩
    unfold Basis.new linspace
    dsimp only
    rw [if_neg (by omega), List.getElem?_map, List.getElem?_range (by omega)]
    simp only [Option.map_some, Option.some.injEq]
    field_simp at hz ⊢
    linear_combination w * hz
  unfold Obj.new Obj.getConj
  have hk : (Basis.new .coordinate x y n hbar).kind = .coordinate := rfl
  dsimp only
  rw [hk]
  unfold conjOfCoordinate
  dsimp only
  rw [length_new, width_new hn, ok_bind, div_ok h0, ok_bind]
  have hhb : (Basis.new .coordinate x y n hbar).hbar = hbar := rfl
  rw [hhb]
  split
  · next ho =>
    refine key (1 / 2) _ ?_
    obtain ⟨m, rfl⟩ : ∃ m, n = 2 * m + 1 := ⟨n / 2, by omega⟩
    have : (2 * m + 1) / 2 = m := by omega
    rw [this]
    field_simp
    push_cast
    ring
  · next he =>
    rw [div_ok hn1]
    refine key (1 / 2 * (1 - 1 / ((n : ℂ) - 1))) _ ?_
    obtain ⟨m, rfl⟩ : ∃ m, n = 2 * m := ⟨n / 2, by omega⟩
    have : (2 * m) / 2 = m := by omega
    rw [this]
    field_simp
    push_cast
    ring

example : ∃ c, (Obj.new (Basis.new .coordinate (-20) 20 4 1)).getConj = .ok c ∧ c.basis.xs.length = 4 ∧ c.basis.xs[4 / 2]? = some 0 :=
  C59_zero (by omega) (by norm_num)

/-- The discrete Fourier transform of `n` points needs the product `2πħ / n`. The grids of the code never have it, so the points of the
conjugate grid are not the momenta of the transformed values. -/
theorem C59_violated {x y : ℂ} {n : ℕ} {hbar : ℝ} (hn : 2 ≤ n) (hxy : x ≠ y) (hh : 0 < hbar) :
    ∃ c dx dp, (Obj.new (Basis.new .coordinate x y n hbar)).getConj = .ok c ∧
      Spacing (Basis.new .coordinate x y n hbar) dx ∧ Spacing c.basis dp ∧ dx * dp ≠ 2 * Real.pi * hbar / n := by
  obtain ⟨c, dx, dp, h1, h2, h3, h4⟩ := C59_spacing_partial (hbar := hbar) hn hxy
  refine ⟨c, dx, dp, h1, h2, h3, ?_⟩
  rw [h4]
  have hn1 : ((n : ℝ) - 1) ≠ 0 := by
    have : (2 : ℝ) ≤ n := by exact_mod_cast hn
    intro h; linarith
  have hn0 : (n : ℝ) ≠ 0 := by
    have : n ≠ 0 := by omega
    exact_mod_cast this
  intro h
  have h' : 2 * Real.pi * hbar * n / ((n : ℝ) - 1) ^ 2 = 2 * Real.pi * hbar / n := by exact_mod_cast h
  have hp := Real.pi_pos
  rw [div_eq_div_iff (pow_ne_zero 2 hn1) hn0] at h'
  have h5 : 2 * Real.pi * hbar * ((n : ℝ) * n - (n - 1) ^ 2) = 0 := by linear_combination h'
  have h6 : (2 : ℝ) ≤ n := by exact_mod_cast hn
  have h7 : 0 < 2 * Real.pi * hbar * ((n : ℝ) * n - (n - 1) ^ 2) := by
    apply mul_pos (by positivity)
    nlinarith
  exact h7.ne' h5

end Grids
