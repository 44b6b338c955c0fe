import Verif.Model.Units
import Verif.Py.Lemmas
import Mathlib.Algebra.Order.Ring.Rat
import Mathlib.Algebra.Field.Rat
import Mathlib.Algebra.Order.Field.Basic
import Mathlib.Tactic.FieldSimp
import Mathlib.Tactic.Positivity
import Mathlib.Tactic.NormNum
import Mathlib.Tactic.Linarith
import Mathlib.Tactic.LinearCombination
import Mathlib.Tactic.Ring

/-!
C48: unit conversion is consistent. C55: prefixed units.
-/

namespace Units

open Py

set_option linter.unusedSectionVars false

variable {K : Type} [Field K] [LinearOrder K] [IsStrictOrderedRing K]

/-- The constants are positive. -/
structure Constants.Pos (c : Constants K) : Prop where
  hartree : 0 < c.hartree
  hartreeEv : 0 < c.hartreeEv
  hartreeInvMeter : 0 < c.hartreeInvMeter
  hartreeKelvin : 0 < c.hartreeKelvin
  time : 0 < c.time
  kelvinHartree : 0 < c.kelvinHartree
  length : 0 < c.length
  mass : 0 < c.mass

/-- The units a user may write: the keys of the table and their synonyms. -/
def Known (u : Name) : Prop :=
  u ∈ [none, some "J", some "eV", some "meV", some "cm-1", some "K", some "s", some "fs", some "ps", some "K-1", some "m", some "pm",
    some "kg", some "au", some "a.u.", some "kelvin", some "ev", some "mev", some "inverse kelvin", some "cm^(-1), cm^{-1}"]

/-- A quantity that was made by `Quantity(value, unit)`. -/
def Made (c : Constants K) (q : Quantity K) : Prop := ∃ v u, Quantity.new c v u = .ok q

variable {c : Constants K}

private theorem dict_pos (hc : c.Pos) : ∀ p ∈ atomicUnitIn c, 0 < p.2 := by
  have := hc.hartree; have := hc.hartreeEv; have := hc.hartreeInvMeter; have := hc.hartreeKelvin
  have := hc.time; have := hc.kelvinHartree; have := hc.length; have := hc.mass
  intro p hp
  simp only [atomicUnitIn, List.mem_cons, List.not_mem_nil, or_false] at hp
  rcases hp with rfl | rfl | rfl | rfl | rfl | rfl | rfl | rfl | rfl | rfl | rfl | rfl | rfl <;> dsimp only <;> positivity

private theorem get?_mem {κ ν : Type} [DecidableEq κ] : ∀ {d : Dict κ ν} {k : κ} {v : ν}, d.get? k = some v → (k, v) ∈ d
  | (k', v') :: d, k, v, h => by
    simp only [Dict.get?] at h
    split_ifs at h with e
    · subst e; simp at h; simp [h]
    · exact List.mem_cons_of_mem _ (get?_mem h)

private theorem findSynonym_key {s : String} {k : Name} : ∀ {d : Dict Name (List String)}, findSynonym s d = some k → k ∈ d.keys
  | (k', l) :: d, h => by
    simp only [findSynonym] at h
    split_ifs at h with e
    · simp at h; simp [Dict.keys, h]
    · simpa [Dict.keys] using Or.inr (by simpa [Dict.keys] using findSynonym_key h)

/-- What `standardize` returns is a key of the table, which it leaves alone. -/
private theorem standardize_key {u v : Name} (h : standardize c u = .ok v) :
    ∃ f, (atomicUnitIn c).get? v = some f ∧ standardize c v = .ok v := by
  have key : ∀ v f, (atomicUnitIn c).get? v = some f → standardize c v = .ok v := by
    rintro (_ | s) f hf
    · rfl
    · simp [standardize, Dict.contains, hf]
  have : ∃ f, (atomicUnitIn c).get? v = some f := by
    cases u with
    | none => cases h; exact ⟨1, rfl⟩
    | some s =>
      simp only [standardize] at h
      split_ifs at h with e
      · cases h; exact Option.isSome_iff_exists.1 e
      · split at h
        · next k hk =>
          cases h
          have := findSynonym_key hk
          simp only [synonyms, Dict.keys, List.map, List.mem_cons, List.not_mem_nil, or_false] at this
          rcases this with rfl | rfl | rfl | rfl | rfl | rfl <;> exact ⟨_, rfl⟩
        · cases h
  obtain ⟨f, hf⟩ := this
  exact ⟨f, hf, key v f hf⟩

private theorem made_unit {q : Quantity K} (h : Made c q) :
    ∃ f, (atomicUnitIn c).get? q.unit = some f ∧ standardize c q.unit = .ok q.unit := by
  obtain ⟨v, u, h⟩ := h
  simp only [Quantity.new, bind_eq_ok, pure_eq_ok] at h
  obtain ⟨w, hw, h⟩ := h
  cases h
  exact standardize_key hw

private theorem au_eq {q : Quantity K} {f : K} (h : (atomicUnitIn c).get? q.unit = some f) : q.valueInAu c = .ok (q.value / f) := by
  simp [Quantity.valueInAu, Dict.get!, h, ok_bind]

private theorem convert_eq {q : Quantity K} {f g : K} {u v : Name} (h : (atomicUnitIn c).get? q.unit = some f)
    (hu : standardize c u = .ok v) (hv : (atomicUnitIn c).get? v = some g) : q.convertTo c u = .ok ⟨q.value / f * g, v⟩ := by
  simp only [Quantity.convertTo, hu, au_eq h, Dict.get!, hv, ok_bind]
  rfl

/-- The known units are exactly those that are accepted; for others the constructor and `convert_to` raise `ValueError`. -/
theorem C48_known (u : Name) : (Known u ↔ ∃ v, standardize c u = .ok v) ∧ (¬ Known u → standardize c u = .error .valueError) := by
  have a : Known u → ∃ v, standardize c u = .ok v := by
    intro h
    simp only [Known, List.mem_cons, List.not_mem_nil, or_false] at h
    rcases h with rfl | rfl | rfl | rfl | rfl | rfl | rfl | rfl | rfl | rfl | rfl | rfl | rfl | rfl | rfl | rfl | rfl | rfl | rfl | rfl <;>
      exact ⟨_, rfl⟩
  have b : ¬ Known u → standardize c u = .error .valueError := by
    intro h
    cases u with
    | none => simp [Known] at h
    | some s =>
      simp only [Known, List.mem_cons, List.not_mem_nil, or_false, not_or, reduceCtorEq, not_false_eq_true, true_and, Option.some.injEq] at h
      simp only [standardize, Dict.contains, atomicUnitIn, Dict.get?, synonyms, findSynonym]
      simp [h, eq_comm]
  refine ⟨⟨a, fun ⟨v, hv⟩ => ?_⟩, b⟩
  by_contra hn
  rw [b hn] at hv
  cases hv

/-- Making a quantity in a known unit succeeds. -/
theorem C48_make (v : K) {u : Name} (hu : Known u) : ∃ q, Quantity.new c v u = .ok q ∧ q.value = v := by
  obtain ⟨w, hw⟩ := (C48_known (c := c) u).1.1 hu
  exact ⟨⟨v, w⟩, by simp [Quantity.new, hw, ok_bind], rfl⟩

/-- Converting a quantity to any known unit succeeds, does not change its value in atomic units, and converting back gives the same
quantity. -/
theorem C48_convert (hc : c.Pos) {q : Quantity K} (hq : Made c q) {u : Name} (hu : Known u) :
    ∃ q', q.convertTo c u = .ok q' ∧ Made c q' ∧ q'.valueInAu c = q.valueInAu c ∧ q'.convertTo c q.unit = .ok q ∧
      standardize c u = .ok q'.unit := by
  obtain ⟨v, hv⟩ := (C48_known (c := c) u).1.1 hu
  obtain ⟨f, hf, hs⟩ := made_unit hq
  obtain ⟨g, hg, hv'⟩ := standardize_key hv
  have hf0 : f ≠ 0 := (dict_pos hc _ (get?_mem hf)).ne'
  have hg0 : g ≠ 0 := (dict_pos hc _ (get?_mem hg)).ne'
  refine ⟨_, convert_eq hf hv hg, ⟨_, v, by simp only [Quantity.new, hv', ok_bind]; rfl⟩, ?_, ?_, hv⟩
  · rw [au_eq hf, au_eq (q := ⟨_, v⟩) hg]
    simp only
    field_simp
  · rw [convert_eq (q := ⟨_, v⟩) hg hs hf]
    simp only
    field_simp

/-- Every quantity has a value in atomic units; sums, differences, multiples, quotients and opposites have the corresponding one, and do
not depend on the units of the operands. -/
theorem C48_arithmetic {p q : Quantity K} (hp : Made c p) (hq : Made c q) :
    ∃ x y, p.valueInAu c = .ok x ∧ q.valueInAu c = .ok y ∧
      p.add c q = .ok ⟨x + y, none⟩ ∧ p.sub c q = .ok ⟨x - y, none⟩ ∧ (∀ k, p.mul c k = .ok ⟨x * k, none⟩) ∧
      (∀ k, k ≠ 0 → p.div c k = .ok ⟨x / k, none⟩) ∧ (∃ r, p.neg c = .ok r ∧ r.valueInAu c = .ok (-x)) ∧
      ∀ z : K, (⟨z, none⟩ : Quantity K).valueInAu c = .ok z := by
  obtain ⟨f, hf, hs⟩ := made_unit hp
  obtain ⟨g, hg, -⟩ := made_unit hq
  have e1 := au_eq hf
  have e2 := au_eq hg
  refine ⟨_, _, e1, e2, ?_, ?_, ?_, ?_, ⟨⟨-p.value, p.unit⟩, ?_, ?_⟩, ?_⟩
  · simp only [Quantity.add, e1, e2, ok_bind, Quantity.new, standardize]; rfl
  · simp only [Quantity.sub, e1, e2, ok_bind, Quantity.new, standardize]; rfl
  · intro k; simp only [Quantity.mul, e1, ok_bind, Quantity.new, standardize]; rfl
  · intro k hk; simp only [Quantity.div, e1, ok_bind, Quantity.new, standardize, if_neg hk]; rfl
  · simp only [Quantity.neg, Quantity.new, hs, ok_bind]; rfl
  · rw [au_eq (q := ⟨-p.value, p.unit⟩) hf, neg_div]
  · intro z
    rw [au_eq (f := 1) rfl, div_one]

/-- Dividing by the number 0 raises `ZeroDivisionError`. -/
theorem C48_division_by_zero {p : Quantity K} (hp : Made c p) : p.div c 0 = .error .zeroDivisionError := by
  obtain ⟨f, hf, -⟩ := made_unit hp
  simp only [Quantity.div, au_eq hf, ok_bind, if_true]

/-- Comparisons agree with the order of the values in atomic units, whatever the units of the operands; the number 0 stands for the zero
quantity, and every other number is rejected. -/
theorem C48_comparison (hc : c.Pos) {p q : Quantity K} (hp : Made c p) (hq : Made c q) :
    ∃ x y, p.valueInAu c = .ok x ∧ q.valueInAu c = .ok y ∧
      p.eq c (.quantity q) = .ok (decide (x = y)) ∧ p.gt c (.quantity q) = .ok (decide (x > y)) ∧
      p.eq c (.number 0) = .ok (decide (x = 0)) ∧ p.gt c (.number 0) = .ok (decide (x > 0)) ∧
      ∀ k, k ≠ 0 → p.eq c (.number k) = .error .typeError ∧ p.gt c (.number k) = .error .typeError := by
  obtain ⟨f, hf, hs⟩ := made_unit hp
  obtain ⟨g, hg, -⟩ := made_unit hq
  have hf0 : 0 < f := dict_pos hc _ (get?_mem hf)
  have e1 := au_eq hf
  have e2 := au_eq hg
  refine ⟨_, _, e1, e2, ?_, ?_, ?_, ?_, fun k hk => ?_⟩
  · simp only [Quantity.eq, e1, e2, ok_bind]; rfl
  · simp only [Quantity.gt, e1, e2, ok_bind]; rfl
  · simp [Quantity.eq, hf0.ne']
  · simp [Quantity.gt, hf0]
  · simp [Quantity.eq, Quantity.gt, hk]

/-- C48, in one sentence: converting the operands changes neither sums and differences nor comparisons. -/
theorem C48_units_do_not_matter (hc : c.Pos) {p q p' q' : Quantity K} (hp : Made c p) (hq : Made c q) {u v : Name} (hu : Known u)
    (hv : Known v) (hp' : p.convertTo c u = .ok p') (hq' : q.convertTo c v = .ok q') :
    p'.add c q' = p.add c q ∧ p'.sub c q' = p.sub c q ∧ p'.eq c (.quantity q') = p.eq c (.quantity q) ∧
      p'.gt c (.quantity q') = p.gt c (.quantity q) := by
  obtain ⟨_, h, -, e1, -⟩ := C48_convert hc hp hu
  obtain rfl := Except.ok.inj (h.symm.trans hp')
  obtain ⟨_, h, -, e2, -⟩ := C48_convert hc hq hv
  obtain rfl := Except.ok.inj (h.symm.trans hq')
  simp only [Quantity.add, Quantity.sub, Quantity.eq, Quantity.gt, e1, e2, and_self]

/-- The intended spellings of the wave number are not known: the two strings in the list of synonyms are one string. -/
theorem C48_wave_number : ¬ Known (some "cm^(-1)") ∧ ¬ Known (some "cm^{-1}") := by simp [Known]

/-! C55: the prefixed units. -/

/-- `1 big = k small`. -/
def Times (c : Constants K) (big small : String) (k : K) : Prop :=
  ∀ x : K, Quantity.convertTo c ⟨x, some big⟩ (some small) = .ok ⟨k * x, some small⟩ ∧
    Quantity.convertTo c ⟨k * x, some small⟩ (some big) = .ok ⟨x, some big⟩

private theorem times_of {big small : String} {k f g : K} (hk : g = k * f) (hf : f ≠ 0) (hg : g ≠ 0)
    (h1 : (atomicUnitIn c).get? (some big) = some f) (h2 : (atomicUnitIn c).get? (some small) = some g) : Times c big small k := by
  have s : ∀ {u f}, (atomicUnitIn c).get? (some u) = some f → standardize c (some u) = .ok (some u) := by
    intro u f h; simp [standardize, Dict.contains, h]
  intro x
  constructor
  · rw [convert_eq (q := ⟨x, some big⟩) h1 (s h2) h2]
    subst hk
    simp only
    field_simp
  · rw [convert_eq (q := ⟨k * x, some small⟩) h2 (s h1) h1]
    subst hk
    have : k ≠ 0 := left_ne_zero_of_mul hg
    simp only
    field_simp

/-- Seconds, picoseconds and femtoseconds, metres and picometres convert by their metric factors. -/
theorem C55_prefixes_partial (hc : c.Pos) : Times c "s" "ps" (10 ^ 12) ∧ Times c "s" "fs" (10 ^ 15) ∧ Times c "ps" "fs" (10 ^ 3) ∧
    Times c "m" "pm" (10 ^ 12) := by
  have h1 := hc.time.ne'
  have h2 := hc.length.ne'
  have h10 : (10 : K) ≠ 0 := by norm_num
  refine ⟨times_of (f := c.time) (g := 10 ^ 12 * c.time) rfl h1 (by positivity) rfl rfl,
    times_of (f := c.time) (g := 10 ^ 15 * c.time) rfl h1 (by positivity) rfl rfl,
    times_of (f := 10 ^ 12 * c.time) (g := 10 ^ 15 * c.time) (by ring) (by positivity) (by positivity) rfl rfl,
    times_of (f := c.length) (g := 10 ^ 12 * c.length) rfl h2 (by positivity) rfl rfl⟩

/-- Electron volts do not: 1 eV is converted to 1/1000 meV, whatever the constants. -/
theorem C55_meV_violated (hc : c.Pos) : Times c "eV" "meV" (1 / 1000) ∧ ¬ Times c "eV" "meV" 1000 := by
  have h := hc.hartreeEv.ne'
  have a : Times c "eV" "meV" (1 / 1000) :=
    times_of (f := c.hartreeEv) (g := 1 / 1000 * c.hartreeEv) rfl h (by positivity) rfl rfl
  refine ⟨a, fun b => ?_⟩
  have := (a 1).1.symm.trans (b 1).1
  simp only [Except.ok.injEq, Quantity.mk.injEq, mul_one, and_true] at this
  norm_num at this

/-- What the constants mean, in SI units: the electron volt is `e` joules, a photon with wave number 1 per metre has `hc` joules, and the
Boltzmann constant is `kB` joules per kelvin. -/
structure Constants.Si (c : Constants K) (e hc kB : K) : Prop where
  ev : c.hartreeEv * e = c.hartree
  photon : c.hartreeInvMeter * hc = c.hartree
  kelvin : c.hartreeKelvin * kB = c.hartree
  inverse : c.kelvinHartree * c.hartree = kB

/-- Energies in electron volts, wave numbers per centimetre and temperatures convert to the joules they stand for, and an inverse
temperature has the inverse value of the temperature. -/
theorem C55_energies (hp : c.Pos) {e hc kB : K} (h : c.Si e hc kB) : Times c "eV" "J" e ∧ Times c "cm-1" "J" (100 * hc) ∧
    Times c "K" "J" kB ∧ ∀ x : K, x ≠ 0 → ∃ y, y ≠ 0 ∧ (⟨x, some "K"⟩ : Quantity K).valueInAu c = .ok y ∧
      (⟨1 / x, some "K-1"⟩ : Quantity K).valueInAu c = .ok (1 / y) := by
  have h1 := hp.hartree.ne'
  have h2 := hp.hartreeEv.ne'
  have h3 := hp.hartreeInvMeter.ne'
  have h4 := hp.hartreeKelvin.ne'
  have h5 := hp.kelvinHartree.ne'
  refine ⟨times_of (f := c.hartreeEv) (g := c.hartree) (by rw [← h.ev, mul_comm]) h2 h1 rfl rfl,
    times_of (f := 1 / 100 * c.hartreeInvMeter) (g := c.hartree) (by rw [← h.photon]; ring) (by positivity) h1 rfl rfl,
    times_of (f := c.hartreeKelvin) (g := c.hartree) (by rw [← h.kelvin, mul_comm]) h4 h1 rfl rfl, fun x hx => ?_⟩
  refine ⟨x / c.hartreeKelvin, div_ne_zero hx h4, au_eq (f := c.hartreeKelvin) rfl, ?_⟩
  rw [au_eq (f := c.kelvinHartree) rfl]
  have : c.kelvinHartree * c.hartreeKelvin = 1 := by
    have h6 := h.kelvin
    rw [← h.inverse] at h6
    have h7 : c.hartree * (c.kelvinHartree * c.hartreeKelvin) = c.hartree * 1 := by rw [mul_one]; refine Eq.trans ?_ h6; ring
    exact mul_left_cancel₀ h1 h7
  refine congrArg Except.ok ?_
  dsimp only
  field_simp
  linear_combination -this

/-- Concrete constants (simplified values). -/
def exConstants : Constants ℚ := ⟨4, 27, 2, 315775, 1 / 41, 1 / 315775, 1 / 2, 1 / 9⟩

theorem exConstants_pos : exConstants.Pos := by
  constructor <;> norm_num [exConstants]

example : exConstants.Si (4 / 27) 2 (4 / 315775) := by
  constructor <;> norm_num [exConstants]

/-- 300 kelvin as an energy, converted to eV and compared with 1 eV. -/
example : exConstants.Pos ∧ Known (some "kelvin") ∧ Made exConstants ⟨300, some "K"⟩ ∧ Made exConstants ⟨1, some "eV"⟩ ∧
    Quantity.gt exConstants ⟨1, some "eV"⟩ (.quantity ⟨300, some "K"⟩) = .ok true := by
  refine ⟨exConstants_pos, by simp [Known], ⟨300, some "kelvin", rfl⟩, ⟨1, some "ev", rfl⟩, ?_⟩
  decide +kernel

end Units
