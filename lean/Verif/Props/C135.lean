import Verif.Model.SbmBasis
import Verif.Props.C77
import Verif.Props.C106

/-!
C135: `heom_h_list` of the spin-boson model with DVRs for the tiers.
-/

open scoped BigOperators
open Py

namespace Sbm

open SbmSpec Heom

variable {L : Type}

/-! ### Specification -/

/-- The DVR matrix, acting with its first index, is `(x - d/dx) / √2`: the matrix elements of `x` are those at the grid points, those of
`d/dx` are exact. -/
def IsRaiser (D : SineDVR) (M : Nd ℂ) : Prop := ∀ v w f g, D.IsFunctionOf v f → D.IsFunctionOf w g →
  Represents D M v w ((gridElement D (fun x => x) v w - SineDVR.inner f (deriv g)) / ((Real.sqrt 2 : ℝ) : ℂ))

/-- `(x + d/dx) / √2` -/
def IsLower (D : SineDVR) (M : Nd ℂ) : Prop := ∀ v w f g, D.IsFunctionOf v f → D.IsFunctionOf w g →
  Represents D M v w ((gridElement D (fun x => x) v w + SineDVR.inner f (deriv g)) / ((Real.sqrt 2 : ℝ) : ℂ))

/-- `(x² - d²/dx² - 1) / 2` -/
def IsNumber (D : SineDVR) (M : Nd ℂ) : Prop := ∀ v w f g, D.IsFunctionOf v f → D.IsFunctionOf w g →
  Represents D M v w ((gridElement D (fun x => x ^ 2) v w - SineDVR.inner f (deriv (deriv g)) - SineDVR.inner f g) / 2)

/-- The three terms of a tier with the label `l` and the bath term `t`, in units of `s`, the root of the mean coefficient. -/
def IsTier (D : SineDVR) (op : Nd ℂ) (i j l : L) (t : BathTerm) (s : ℝ) (ts : List (LTerm L)) : Prop :=
  ∃ N R K x y : Nd ℂ, IsNumber D N ∧ IsRaiser D R ∧ IsLower D K ∧
    ts = [[(l, Nd.smul t.γ N)], [(i, Nd.smul (-Complex.I) op), (l, x)], [(j, Nd.smul Complex.I op), (l, y)]] ∧
    x.shape = [D.n, D.n] ∧ y.shape = [D.n, D.n] ∧
    (∀ a b, a < D.n → b < D.n → x.get [a, b] = t.c / s * R.get [a, b] + s * K.get [a, b]) ∧
    ∀ a b, a < D.n → b < D.n → y.get [a, b] = t.c' / s * R.get [a, b] + s * K.get [a, b]

/-! ### Lemmas -/

private theorem tiers_eq (S : SpinBoson) : S.nTiers = tiers S := by
  unfold SpinBoson.nTiers tiers
  rw [List.flatMap_def]
  rfl

private theorem allTerms_eq (S : SpinBoson) (beta : Option ℝ) (bath : List BathTerm) :
    (S.ph.flatMap fun p => modeTerms beta p.1 p.2) ++ bath = allTerms S beta bath := by
  unfold allTerms
  rw [List.flatMap_def]

variable {S : SpinBoson} {d : ℕ} {beta : Option ℝ} {bath : List BathTerm}

private noncomputable def corrOf (S : SpinBoson) (beta : Option ℝ) (bath : List BathTerm) : Corr.Correlation :=
  ⟨(allTerms S beta bath).length, beta, (allTerms S beta bath).map (·.c), (allTerms S beta bath).map (·.c'), (allTerms S beta bath).map (·.γ)⟩

private theorem heomB_eq (hS : Setup S d beta bath) (i j : L) (inds : Option (List L)) (basis : List (Option ModeBasis)) (s : ℂ) :
    S.heomHListB i j inds beta (some basis) s = hListB ⟨⟨tiers S, S.h, S.op, corrOf S beta bath, s⟩, basis⟩ i j (inds.getD []) := by
  unfold SpinBoson.heomHListB
  rw [generateBCF_ok hS.beta hS.bathTerms, ok_bind, allTerms_eq, tiers_eq]
  unfold Hierachy.init
  have e := hS.length
  simp only [e, Nd.ndim, hS.op, hS.h, ne_eq, not_true_eq_false, if_false, List.length_cons, List.length_nil, zero_add, Nat.reduceAdd]
  rfl

private theorem mapM_of {α β : Type} {f : α → Res β} {P : α → β → Prop} : ∀ {l : List α}, (∀ x ∈ l, ∃ y, f x = .ok y ∧ P x y) →
    ∃ ys, l.mapM f = .ok ys ∧ List.Forall₂ P l ys
  | [], _ => ⟨[], rfl, .nil⟩
  | a :: l, h => by
    obtain ⟨y, y1, y2⟩ := h a (by simp)
    obtain ⟨ys, h1, h2⟩ := mapM_of (l := l) fun x hx => h x (by simp [hx])
    exact ⟨y :: ys, by rw [List.mapM_cons, y1, ok_bind, h1]; rfl, .cons y2 h2⟩

private theorem mapM_mem {α β : Type} {f : α → Res β} : ∀ {l : List α} {ys : List β}, l.mapM f = .ok ys → ∀ x ∈ l, ∃ y, f x = .ok y
  | [], _, _, x, hx => by cases hx
  | a :: l, ys, h, x, hx => by
    rw [List.mapM_cons] at h
    obtain ⟨y, y1, h⟩ := bind_eq_ok.1 h
    obtain ⟨zs, z1, h⟩ := bind_eq_ok.1 h
    rcases List.mem_cons.1 hx with rfl | hx
    · exact ⟨y, y1⟩
    · exact mapM_mem z1 x hx

private theorem flatten_mapM {α β : Type} {f : α → Res β} : ∀ {xss : List (List α)} {yss : List (List β)},
    List.Forall₂ (fun xs ys => xs.mapM f = .ok ys) xss yss → xss.flatten.mapM f = .ok yss.flatten
  | _, _, .nil => rfl
  | _, _, .cons h hs => by
    rw [List.flatten_cons, List.mapM_append, h, ok_bind, flatten_mapM hs]
    rfl

/-! ### The property -/

/-- Without bases the terms are those of C77. -/
theorem C135_none (S : SpinBoson) (i j : L) (inds : Option (List L)) (beta : Option ℝ) {s : ℂ} (hs : s ≠ 0) :
    S.heomHListB i j inds beta none s = S.heomHList i j inds beta s ∧
      S.heomHListB i j inds beta (some (List.replicate (tiers S).length none)) s = S.heomHList i j inds beta s := by
  have h1 : S.heomHListB i j inds beta none s = S.heomHList i j inds beta s := by
    unfold SpinBoson.heomHListB SpinBoson.heomHList
    refine bind_congr fun corr => ?_
    unfold Hierachy.init
    by_cases c1 : S.nTiers.length ≠ corr.kMax
    · rw [if_pos c1]; rfl
    by_cases c2 : S.op.ndim ≠ 2
    · rw [if_neg c1, if_pos c2]; rfl
    by_cases c3 : S.op.shape ≠ S.h.shape
    · rw [if_neg c1, if_neg c2, if_pos c3]; rfl
    rw [if_neg c1, if_neg c2, if_neg c3]
    have := C106_none ⟨S.nTiers, S.h, S.op, corr, s⟩ hs
    change hListB ⟨⟨S.nTiers, S.h, S.op, corr, s⟩, List.replicate S.nTiers.length none⟩ i j (inds.getD []) =
      hList ⟨S.nTiers, S.h, S.op, corr, s⟩ i j (inds.getD [])
    unfold hListB hList
    rw [this]
  refine ⟨h1, ?_⟩
  rw [← h1]
  unfold SpinBoson.heomHListB
  rw [tiers_eq]
  rfl

/-- Every tier has a DVR, a matrix `eig_mat` of fitting shape has been added to it, and the mean of the two coefficients has a positive real
part: the terms are those of the hierarchy in the functions of the DVR. -/
theorem C135_terms_partial (hS : Setup S d beta bath) {i j : L} {inds : List L} (hl : inds.length = (tiers S).length) {Bs : List ModeBasis}
    (hb : Bs.length = (tiers S).length) (hU : ∀ B ∈ Bs, ∃ U, B.eigMat = some U ∧ U.shape = [B.dvr.n, B.dvr.n])
    (hL : ∀ B ∈ Bs, 0 < B.dvr.length) (hpos : ∀ t ∈ allTerms S beta bath, 0 < ((t.c + t.c') / 2).re) (s : ℂ) :
    ∃ tss : List (List (LTerm L)), S.heomHListB i j (some inds) beta (some (Bs.map some)) s =
        .ok ([(i, Nd.smul (-Complex.I) S.h)] :: [(j, Nd.smul Complex.I S.h)] :: tss.flatten) ∧ tss.length = (tiers S).length ∧
      ∀ k (hk : k < (tiers S).length), ∃ B t l ts f, Bs[k]? = some B ∧ (allTerms S beta bath)[k]? = some t ∧ inds[k]? = some l ∧ tss[k]? = some ts ∧
        0 < f ∧ f ^ 2 = ((t.c + t.c') / 2).re ∧ IsTier B.dvr S.op i j l t f ts := by
  have e := hS.length
  obtain ⟨H, hH⟩ : ∃ H : HierachyB, H = ⟨⟨tiers S, S.h, S.op, corrOf S beta bath, s⟩, Bs.map some⟩ := ⟨_, rfl⟩
  obtain ⟨conv, hconv⟩ : ∃ conv, conv = inds ++ [i, j] := ⟨_, rfl⟩
  have ci : item conv (tiers S).length = .ok i := by
    unfold item; rw [hconv, List.getElem?_append_right (by omega), hl, Nat.sub_self]; rfl
  have cj : item conv ((tiers S).length + 1) = .ok j := by
    unfold item; rw [hconv, List.getElem?_append_right (by omega), hl, Nat.add_sub_cancel_left]; rfl
  obtain ⟨relabel, hrel⟩ : ∃ r : Term → Res (LTerm L), r = fun t => t.mapM fun m => (do pure (← item conv m.1, m.2) : Res (L × Nd ℂ)) := ⟨_, rfl⟩
  obtain ⟨dks, d1, d2⟩ := mapM_of (f := H.diffK) (l := List.range (tiers S).length)
    (P := fun k ds => ∃ B t l ts f, Bs[k]? = some B ∧ (allTerms S beta bath)[k]? = some t ∧ inds[k]? = some l ∧ ds.mapM relabel = .ok ts ∧
      0 < f ∧ f ^ 2 = ((t.c + t.c') / 2).re ∧ IsTier B.dvr S.op i j l t f ts) (by
    intro k hk
    have hk := List.mem_range.1 hk
    have kB : k < Bs.length := by omega
    have kt : k < (allTerms S beta bath).length := by omega
    have kl : k < inds.length := by omega
    obtain ⟨U, u1, u2⟩ := hU _ (List.getElem_mem kB)
    have hL' := hL _ (List.getElem_mem kB)
    obtain ⟨f, N, R, K, x, y, f1, f2, n1, r1, k1, dk, x1, y1, x2, y2⟩ := C106_terms_partial H (k := k) (B := Bs[k]) (by
        rw [hH]; dsimp only; rw [List.getElem?_map, List.getElem?_eq_getElem kB]; rfl) u1 u2
      (ck := (allTerms S beta bath)[k].c) (cck := (allTerms S beta bath)[k].c') (g := (allTerms S beta bath)[k].γ)
      (by rw [hH]; dsimp only [corrOf]; rw [List.getElem?_map, List.getElem?_eq_getElem kt]; rfl)
      (by rw [hH]; dsimp only [corrOf]; rw [List.getElem?_map, List.getElem?_eq_getElem kt]; rfl)
      (by rw [hH]; dsimp only [corrOf]; rw [List.getElem?_map, List.getElem?_eq_getElem kt]; rfl)
      (hpos _ (List.getElem_mem kt))
    have ck : item conv k = .ok inds[k] := by
      unfold item; rw [hconv, List.getElem?_append_left kl, List.getElem?_eq_getElem kl]
    refine ⟨_, dk, Bs[k], (allTerms S beta bath)[k], inds[k], _, f, List.getElem?_eq_getElem kB, List.getElem?_eq_getElem kt,
      List.getElem?_eq_getElem kl, ?_, f1, f2, N, R, K, x, y, ?_, ?_, ?_, rfl, x1, y1, x2, y2⟩
    · rw [hrel, show H.nDims.length = (tiers S).length by rw [hH], show H.op = S.op by rw [hH]]
      simp only [List.mapM_cons, List.mapM_nil, ci, cj, ck]
      rfl
    · intro v w f g hf hg
      obtain ⟨M, m1, m2⟩ := C106_number_partial u1 u2 hL' hf hg
      rw [n1] at m1; cases m1; exact m2
    · intro v w f g hf hg
      obtain ⟨M, m1, m2⟩ := C106_raiser_partial u1 u2 hL' hf hg
      rw [r1] at m1; cases m1; exact m2
    · intro v w f g hf hg
      obtain ⟨M, m1, m2⟩ := C106_lower_partial u1 u2 hL' hf hg
      rw [k1] at m1; cases m1; exact m2)
  obtain ⟨tss, t1, t2⟩ := mapM_of (f := fun ds : List Term => ds.mapM relabel) (l := dks) (P := fun ds ts => ds.mapM relabel = .ok ts) (by
    intro ds hds
    obtain ⟨n, hn, rfl⟩ := List.getElem_of_mem hds
    obtain ⟨B, t, l, ts, f, -, -, -, h, -⟩ := (List.forall₂_iff_get.1 d2).2 n (by rw [d2.length_eq]; exact hn) hn
    exact ⟨ts, h, h⟩)
  have l1 : dks.length = (tiers S).length := by rw [← d2.length_eq, List.length_range]
  refine ⟨tss, ?_, by rw [← t2.length_eq, l1], fun k hk => ?_⟩
  · rw [heomB_eq hS, ← hH]
    unfold hListB HierachyB.diff
    rw [show H.nDims = tiers S by rw [hH], d1, ok_bind]
    dsimp only [Option.getD_some]
    change (([[(H.i, Nd.smul (-1 * Complex.I) H.h)], [(H.j, Nd.smul (1 * Complex.I) H.h)]] ++ dks.flatten).mapM
      fun t => t.mapM fun m => (do pure (← item (inds ++ [i, j]) m.1, m.2) : Res (L × Nd ℂ))) = _
    rw [← hconv, ← hrel, List.cons_append, List.cons_append, List.nil_append, List.mapM_cons, List.mapM_cons, flatten_mapM t2, hrel,
      show H.i = (tiers S).length by rw [hH]; rfl, show H.j = (tiers S).length + 1 by rw [hH]; rfl, show H.h = S.h by rw [hH],
      neg_one_mul, one_mul]
    simp only [List.mapM_cons, List.mapM_nil, ci, cj]
    rfl
  · obtain ⟨B, t, l, ts, f, h1, h2, h3, h4, h5⟩ := (List.forall₂_iff_get.1 d2).2 k (by simpa using hk) (by rw [l1]; exact hk)
    have h6 := (List.forall₂_iff_get.1 t2).2 k (by rw [l1]; exact hk) (by rw [← t2.length_eq, l1]; exact hk)
    rw [h4] at h6
    simp only [List.get_eq_getElem, List.getElem_range] at h1 h2 h3
    refine ⟨B, t, l, ts, f, h1, h2, h3, ?_, h5⟩
    rw [List.getElem?_eq_getElem (by rw [← t2.length_eq, l1]; exact hk)]
    exact congrArg some (Except.ok.inj h6).symm

/-- The oscillators, at any temperature: all coefficients have a positive mean, `g² coth(β ω / 2) / 2`. -/
theorem C135_oscillators {omega g : ℝ} (hw : 0 < omega) (hg : g ≠ 0) (hbeta : ∀ b, beta = some b → 0 < b) :
    ∀ t ∈ modeTerms beta omega g, ((t.c + t.c') / 2).re = g ^ 2 / 2 * coth beta omega ∧ 0 < ((t.c + t.c') / 2).re := by
  have hc : 0 < coth beta omega := by
    unfold coth
    cases beta with
    | none => exact one_pos
    | some b =>
      have := hbeta b rfl
      exact div_pos (Real.cosh_pos _) (Real.sinh_pos_iff.2 (by positivity))
  intro t ht
  have e : ((t.c + t.c') / 2).re = g ^ 2 / 2 * coth beta omega := by
    have : (t.c + t.c') / 2 = ((g ^ 2 / 2 * coth beta omega : ℝ) : ℂ) := by
      unfold modeTerms at ht
      simp only [List.mem_cons, List.not_mem_nil, or_false] at ht
      rcases ht with rfl | rfl <;> (push_cast; ring)
    rw [this, Complex.ofReal_re]
  exact ⟨e, by rw [e]; positivity⟩

/-- The DVRs of the package have no `eig_mat`: whatever the other bases are, nothing is returned if one tier has such a DVR, and if it is the
first tier an `AttributeError` is raised. -/
theorem C135_violated (hS : Setup S d beta bath) (i j : L) (inds : Option (List L)) (basis : List (Option ModeBasis)) {k : ℕ}
    (hk : k < (tiers S).length) {D : SineDVR} (hb : basis[k]? = some (some ⟨D, none⟩)) (s : ℂ) :
    (∀ terms, S.heomHListB i j inds beta (some basis) s ≠ .ok terms) ∧
      (k = 0 → S.heomHListB i j inds beta (some basis) s = .error .attributeError) := by
  have e := hS.length
  rw [heomB_eq hS]
  refine ⟨fun terms h => ?_, fun h0 => ?_⟩
  · unfold hListB HierachyB.diff at h
    obtain ⟨ds, h, -⟩ := bind_eq_ok.1 h
    obtain ⟨dks, h, -⟩ := bind_eq_ok.1 h
    obtain ⟨y, h⟩ := mapM_mem h k (List.mem_range.2 hk)
    unfold HierachyB.diffK at h
    obtain ⟨_, _, h⟩ := bind_eq_ok.1 h
    obtain ⟨_, _, h⟩ := bind_eq_ok.1 h
    obtain ⟨_, _, h⟩ := bind_eq_ok.1 h
    obtain ⟨_, _, h⟩ := bind_eq_ok.1 h
    obtain ⟨_, h, -⟩ := bind_eq_ok.1 h
    unfold HierachyB.numberer at h
    rw [show item basis k = .ok (some ⟨D, none⟩) by unfold item; rw [hb], ok_bind] at h
    dsimp only at h
    unfold ModeBasis.numberer at h
    obtain ⟨_, _, h⟩ := bind_eq_ok.1 h
    obtain ⟨_, _, h⟩ := bind_eq_ok.1 h
    obtain ⟨_, _, h⟩ := bind_eq_ok.1 h
    obtain ⟨_, h, -⟩ := bind_eq_ok.1 h
    cases h
  · subst h0
    have kt : 0 < (allTerms S beta bath).length := by omega
    unfold hListB
    rw [C106_violated _ hk hb (ck := (allTerms S beta bath)[0].c) (cck := (allTerms S beta bath)[0].c') (g := (allTerms S beta bath)[0].γ)
      (by dsimp only [corrOf]; rw [List.getElem?_map, List.getElem?_eq_getElem kt]; rfl)
      (by dsimp only [corrOf]; rw [List.getElem?_map, List.getElem?_eq_getElem kt]; rfl)
      (by dsimp only [corrOf]; rw [List.getElem?_map, List.getElem?_eq_getElem kt]; rfl)]
    rfl

/-! ### Example: the spin with one oscillator and one bath term of C77, at temperature 1 -/

example : ∃ tss : List (List (LTerm String)),
    exModel.heomHListB "i" "j" (some ["p", "q", "b"]) (some 1) (some ([exMode, exMode, exMode].map some)) 1 =
        .ok ([("i", Nd.smul (-Complex.I) exModel.h)] :: [("j", Nd.smul Complex.I exModel.h)] :: tss.flatten) ∧ tss.length = 3 := by
  obtain ⟨tss, h1, h2, -⟩ := C135_terms_partial exModel_setup (i := "i") (j := "j") (inds := ["p", "q", "b"]) rfl (Bs := [exMode, exMode, exMode]) rfl
    (by
      intro B hB
      obtain rfl : B = exMode := by simpa using hB
      exact ⟨_, rfl, rfl⟩)
    (by
      intro B hB
      obtain rfl : B = exMode := by simpa using hB
      norm_num [exMode, SineDVR.length])
    (by
      intro t ht
      rcases List.mem_append.1 ht with ht | ht
      · have ht' : t ∈ modeTerms (some 1) 1 (1 / 2) := by simpa [exModel, SpinBoson.init] using ht
        exact (C135_oscillators (by norm_num) (by norm_num) (fun b hb => by cases hb; norm_num) t ht').2
      · rw [List.mem_singleton.1 ht]
        norm_num)
    1
  exact ⟨tss, h1, h2⟩

example : exModel.heomHListB "i" "j" (some ["p", "q", "b"]) (some 1) (some [some ⟨exMode.dvr, none⟩, none, none]) 1 = .error .attributeError :=
  (C135_violated exModel_setup "i" "j" _ [some ⟨exMode.dvr, none⟩, none, none] (k := 0) (by decide) rfl 1).2 rfl

end Sbm
