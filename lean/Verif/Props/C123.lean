import Verif.Lemmas.DmrgPair
import Verif.Props.C35

/-!
C123: the effective operator of DMRG is the operator of the whole chain, seen from one site or from a pair of sites.
-/

open Py

namespace Dmrg

variable {R : Type} [CommRing R]

/-- `np.reshape(x, x.size)` -/
def flatten (x : Nd R) : Nd R := ⟨[x.shape.prod], x.data⟩

theorem flatten_vec {x : Nd R} {d l r : ℕ} (hw : x.Wf) (hx : x.shape = [d, l, r]) : IsVec (d * l * r) (flatten x) := by
  refine ⟨?_, ?_⟩
  · unfold Nd.Wf at hw ⊢
    rw [flatten, hw]; simp
  · rw [flatten, hx]; simp [mul_assoc]

theorem unflatten {x : Nd R} {sh : List ℕ} (hx : x.shape = sh) : (⟨sh, (flatten x).data⟩ : Nd R) = x := by
  cases x; cases hx; rfl

theorem IsMps.append : ∀ {X Y : List (Nd R)} {ds es : List ℕ} {i j k : ℕ}, IsMps ds i j X → IsMps es j k Y → IsMps (ds ++ es) i k (X ++ Y)
  | [], _, [], _, _, _, _, h, h' => by cases h; exact h'
  | _ :: _, _, _ :: _, _, _, _, _, ⟨m, e, h⟩, h' => ⟨m, e, h.append h'⟩
  | [], _, _ :: _, _, _, _, _, h, _ => h.elim
  | _ :: _, _, [], _, _, _, _, h, _ => h.elim

theorem set1 {α : Type} {l : List α} {p : ℕ} (h : p < l.length) (x : α) : l.set p x = l.take p ++ x :: l.drop (p + 1) := by
  have := split1 (l := l.set p x) (p := p) (x := x) (by simp [h])
  rwa [List.take_set_of_le (le_refl p), List.drop_set_of_lt (by omega)] at this

theorem set2 {α : Type} {l : List α} {p : ℕ} (h : p + 1 < l.length) (x y : α) :
    (l.set p x).set (p + 1) y = l.take p ++ x :: y :: l.drop (p + 2) := by
  have := split2 (l := (l.set p x).set (p + 1) y) (p := p) (x := x) (y := y)
    (by rw [List.getElem?_set_ne (by omega), List.getElem?_set_self (by omega)]) (by rw [List.getElem?_set_self (by simp; omega)])
  rwa [List.take_set_of_le (by omega), List.take_set_of_le (le_refl p), List.drop_set_of_lt (by omega), List.drop_set_of_lt (by omega)] at this

theorem Fit.put1 {ds : List ℕ} {c b : ℕ → ℕ} {mpo mps : List (Nd R)} (h : Fit ds c b mpo mps) {p : ℕ} (hp : p < ds.length) {u : Nd R}
    (hu : u.shape = [ds.getD p 0, b p, b (p + 1)]) : IsMps ds 1 1 (mps.take p ++ u :: mps.drop (p + 1)) := by
  have := (h.left (k := p) (by omega)).1.append (Y := u :: mps.drop (p + 1)) (es := ds.getD p 0 :: ds.drop (p + 1))
    ⟨_, hu, (h.right (k := p + 1) (by omega)).1⟩
  rwa [← split1 (getElem?_getD hp)] at this

theorem Fit.put2 {ds : List ℕ} {c b : ℕ → ℕ} {mpo mps : List (Nd R)} (h : Fit ds c b mpo mps) {p m : ℕ} (hp : p + 1 < ds.length)
    {A B : Nd R} (hA : A.shape = [ds.getD p 0, b p, m]) (hB : B.shape = [ds.getD (p + 1) 0, m, b (p + 2)]) :
    IsMps ds 1 1 (mps.take p ++ A :: B :: mps.drop (p + 2)) := by
  have := (h.left (k := p) (by omega)).1.append (Y := A :: B :: mps.drop (p + 2))
    (es := ds.getD p 0 :: ds.getD (p + 1) 0 :: ds.drop (p + 2)) ⟨_, hA, _, hB, (h.right (k := p + 2) (by omega)).1⟩
  rwa [← split2 (getElem?_getD (show p < ds.length by omega)) (getElem?_getD hp)] at this

/-- `EnvTensor(L, mpo[i], R)` with the environments of site `i`: the product with a vector `v` never fails, and its scalar product with
`u` is the matrix element of the whole operator between the state with `v` as the matrix of site `i` and the state with `u` there. So the
Rayleigh quotient that the eigensolver minimizes is that of the state. -/
theorem C123_one_site {ds : List ℕ} {mpo mps : List (Nd R)} (hm : IsMps ds 1 1 mps) (ho : IsMpo ds ds 1 1 mpo)
    (hpos : ∀ A ∈ mps, ∀ n ∈ A.shape, 0 < n) {i : ℕ} {A W L Rt u v : Nd R} (hA : mps[i]? = some A) (hW : mpo[i]? = some W)
    (hL : LeftEnv ds mpo mps i L) (hR : RightEnv ds mpo mps (i + 1) Rt) (hu : u.Wf) (hu' : u.shape = A.shape) (hv : v.Wf)
    (hv' : v.shape = A.shape) :
    ∃ y, envMatvec L W Rt (flatten v) = .ok y ∧ y.shape = [A.shape.prod] ∧
      matElement (mps.set i v) (some mpo) (mps.set i u) = .ok (inner u y) := by
  have hi := (List.getElem?_eq_some_iff.1 hA).1
  have hi' : i < ds.length := by rw [hm.length]; exact hi
  obtain ⟨c, b, hf⟩ := Fit.of hm ho hpos (by rintro rfl; simp at hi')
  obtain ⟨sL, vL⟩ := hL.val hf (by omega)
  obtain ⟨sR, vR⟩ := hR.val hf (by omega)
  have sA := hf.mps.2 i A hA
  have sW := hf.mpo.2 i W hW
  rw [sA] at hu' hv'
  obtain ⟨y, e, hy, g⟩ := envMatvec_ok sL sW sR (flatten_vec hv hv')
  refine ⟨y, e, ?_, ?_⟩
  · rw [hy.2, sA]; simp [mul_assoc]
  · have h1 := hf.put1 hi' hu'
    have h2 := hf.put1 hi' hv'
    have k := chain_site hf hi' vL vR hW hv' hu'
    have g' := g _ (flatten_vec hu hu')
    rw [unflatten hu', unflatten hv'] at g'
    rw [set1 hi, set1 hi, C33_mat_element h2 ho h1]
    exact congrArg Except.ok (k.trans g'.symm)

/-- The same for a pair of sites: with the coarse-grained operator and the environments of the pair `i, i + 1`. -/
theorem C123_two_sites {ds : List ℕ} {mpo mps : List (Nd R)} (hm : IsMps ds 1 1 mps) (ho : IsMpo ds ds 1 1 mpo)
    (hpos : ∀ A ∈ mps, ∀ n ∈ A.shape, 0 < n) {i : ℕ} {W X L Rt : Nd R} (hi : i + 1 < ds.length) (hW : mpo[i]? = some W)
    (hX : mpo[i + 1]? = some X) (hL : LeftEnv ds mpo mps i L) (hR : RightEnv ds mpo mps (i + 2) Rt) {A B A' B' u v : Nd R}
    (hA : ∃ m, IsMps (ds.drop i) m 1 (A :: B :: mps.drop (i + 2)) ∧ IsMps (ds.take i) 1 m (mps.take i))
    (hA' : ∃ m, IsMps (ds.drop i) m 1 (A' :: B' :: mps.drop (i + 2)) ∧ IsMps (ds.take i) 1 m (mps.take i))
    (eu : coarseGrainMps A' B' = .ok u) (ev : coarseGrainMps A B = .ok v) :
    ∃ Y y, coarseGrainMpo W X = .ok Y ∧ envMatvec L Y Rt (flatten v) = .ok y ∧
      matElement ((mps.set i A).set (i + 1) B) (some mpo) ((mps.set i A').set (i + 1) B') = .ok (inner u y) := by
  obtain ⟨c, b, hf⟩ := Fit.of hm ho hpos (by rintro rfl; simp at hi)
  have hl : i + 1 < mps.length := by rw [← hm.length]; exact hi
  obtain ⟨sL, vL⟩ := hL.val hf (by omega)
  obtain ⟨sR, vR⟩ := hR.val hf (by omega)
  have sW := hf.mpo.2 i W hW
  have sX := hf.mpo.2 (i + 1) X hX
  have shapes : ∀ {A B : Nd R}, (∃ m, IsMps (ds.drop i) m 1 (A :: B :: mps.drop (i + 2)) ∧ IsMps (ds.take i) 1 m (mps.take i)) →
      ∃ m, A.shape = [ds.getD i 0, b i, m] ∧ B.shape = [ds.getD (i + 1) 0, m, b (i + 2)] := by
    intro A B h
    obtain ⟨x, h1, h2⟩ := h
    obtain rfl := h2.right_unique (hf.left (by omega)).1
    rw [List.drop_eq_getElem_cons (by omega), List.drop_eq_getElem_cons hi] at h1
    obtain ⟨m, eA, m', eB, h3⟩ := h1
    obtain rfl := h3.left_unique (hf.right (k := i + 2) (by omega)).1
    refine ⟨m, ?_, ?_⟩
    · rw [eA]; simp [List.getD_eq_getElem?_getD, show i < ds.length by omega]
    · rw [eB]; simp [List.getD_eq_getElem?_getD, hi]
  obtain ⟨m, sA, sB⟩ := shapes hA
  obtain ⟨m', sA', sB'⟩ := shapes hA'
  obtain ⟨_, e, wv, sv, -⟩ := coarseGrainMps_ok sA sB
  rw [ev] at e; cases e
  obtain ⟨_, e, wu, su, -⟩ := coarseGrainMps_ok sA' sB'
  rw [eu] at e; cases e
  obtain ⟨Y, eY, wY, sY, -⟩ := coarseGrainMpo_ok sW sX
  obtain ⟨y, e, hy, g⟩ := envMatvec_ok sL sY sR (flatten_vec wv sv)
  refine ⟨Y, y, eY, e, ?_⟩
  have h1 := hf.put2 hi sA sB
  have h2 := hf.put2 hi sA' sB'
  have k := chain_pair hf hi vL vR hW hX eY sA sB sA' sB' ev eu
  have g' := g _ (flatten_vec wu su)
  rw [unflatten su, unflatten sv] at g'
  rw [set2 hl, set2 hl, C33_mat_element h1 ho h2]
  exact congrArg Except.ok (k.trans g'.symm)

/-- A vector of another length is refused. -/
theorem C123_size {L W Rt v : Nd R} {a b d l r n x y z w : ℕ} (hL : L.shape = [a, x, l]) (hW : W.shape = [y, z, b, d])
    (hR : Rt.shape = [w, n, r]) (hv : v.shape.prod ≠ d * l * r) : envMatvec L W Rt v = .error .valueError := by
  unfold envMatvec ioShape
  simp only [hL, hW, hR, item, List.getElem?_cons_zero, List.getElem?_cons_succ, ok_bind, pure_bind]
  rw [Nd.reshape, if_neg, error_bind]
  simpa [mul_assoc, eq_comm] using hv

/-! The chain of three sites of `C35` with its environments. -/

theorem exChain_fit : ∃ c b, Fit [2, 2, 2] c b exOps exChain :=
  Fit.of ⟨2, rfl, 2, rfl, 1, rfl, rfl⟩ ⟨1, rfl, 1, rfl, 1, rfl, rfl⟩ (by decide) (by decide)

def exLeft : Nd ℤ := ⟨[1, 2, 2], [58, 82, 82, 116]⟩
def exRight : Nd ℤ := ⟨[1, 2, 2], [-24, -26, -26, -28]⟩
def exU : Nd ℤ := ⟨[2, 2, 2], [1, 0, 2, 1, 1, 1, 0, 3]⟩
def exV : Nd ℤ := ⟨[2, 2, 2], [0, 1, 1, 1, 2, -1, 0, 5]⟩

example : LeftEnv [2, 2, 2] exOps exChain 1 exLeft := by
  obtain ⟨c, b, h⟩ := exChain_fit
  have : LeftOf exOps exChain 1 exLeft := by unfold LeftOf; decide +kernel
  exact (this.env h (by decide)).2

example : RightEnv [2, 2, 2] exOps exChain 2 exRight := by
  obtain ⟨c, b, h⟩ := exChain_fit
  have : RightOf exOps exChain 2 exRight := by unfold RightOf; decide +kernel
  exact (this.env h (by decide)).2

/-- Both sides of `C123_one_site` in the example. -/
def exBoth : Res (ℤ × ℤ) := do
  let y ← envMatvec exLeft ⟨[1, 1, 2, 2], [0, 1, 1, 0]⟩ exRight (flatten exV)
  let x ← matElement (exChain.set 1 exV) (some exOps) (exChain.set 1 exU)
  pure (inner exU y, x)

example : exBoth = .ok (-101252, -101252) := by decide +kernel

/-- The coarse-grained operator of the sites 0 and 1 and the product with it. -/
def exBothPair : Res (ℤ × ℤ) := do
  let Y ← coarseGrainMpo ⟨[1, 1, 2, 2], [1, 2, 2, 5]⟩ ⟨[1, 1, 2, 2], [0, 1, 1, 0]⟩
  let v ← coarseGrainMps ⟨[2, 1, 2], [1, 2, 3, 4]⟩ exV
  let u ← coarseGrainMps ⟨[2, 1, 2], [0, 2, 3, 1]⟩ exU
  let y ← envMatvec one3 Y exRight (flatten v)
  let x ← matElement ((exChain.set 0 ⟨[2, 1, 2], [1, 2, 3, 4]⟩).set 1 exV) (some exOps) ((exChain.set 0 ⟨[2, 1, 2], [0, 2, 3, 1]⟩).set 1 exU)
  pure (inner u y, x)

example : ∃ x, exBothPair = .ok (x, x) ∧ x ≠ 0 := ⟨-50164, by decide +kernel⟩
example : ∃ m, IsMps ([2, 2, 2].drop 0) m 1 (⟨[2, 1, 2], [0, 2, 3, 1]⟩ :: exU :: exChain.drop 2) ∧ IsMps ([2, 2, 2].take 0) 1 m (exChain.take 0) :=
  ⟨1, ⟨2, rfl, 2, rfl, 1, rfl, rfl⟩, rfl⟩

end Dmrg
