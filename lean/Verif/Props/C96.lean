import Verif.Model.MctdhProp
import Verif.Props.C65
import Verif.Lemmas.Mctdh
import Verif.Lemmas.Pade3
import Verif.Lemmas.Fourier
import Verif.Lemmas.Autocomplete
import Mathlib.Analysis.Complex.Basic
import Mathlib.Tactic.IntervalCases

/-! C96: `renormalize=True` in `MCTDH.propagation`. -/

open Py
open scoped BigOperators

namespace Mctdh

/-- The sum of the squared moduli of the entries. -/
noncomputable def normSq (b : Nd ℂ) : ℝ := (b.data.map fun z : ℂ => ‖z‖ ^ 2).sum

/-- The array divided by a number. -/
private noncomputable def scaleNd (r : ℝ) (b : Nd ℂ) : Nd ℂ := ⟨b.shape, b.data.map fun z : ℂ => z / (r : ℂ)⟩

private theorem scale_get (r : ℝ) (b : Nd ℂ) (p : List ℕ) : (scaleNd r b).get p = b.get p / (r : ℂ) := by
  unfold scaleNd Nd.get
  simp only [List.getD_eq_getElem?_getD, List.getElem?_map]
  cases b.data[ravel b.shape p]? <;> simp

private theorem sum_nonneg (b : Nd ℂ) : 0 ≤ normSq b := by
  unfold normSq
  refine List.sum_nonneg fun x hx => ?_
  obtain ⟨z, _, rfl⟩ := List.mem_map.1 hx
  positivity

private theorem normSq_pos {b : Nd ℂ} (h : ∃ z ∈ b.data, z ≠ 0) : 0 < normSq b := by
  obtain ⟨z, hz, h0⟩ := h
  unfold normSq
  refine lt_of_lt_of_le (b := ‖z‖ ^ 2) (by positivity) ?_
  refine List.single_le_sum (fun x hx => ?_) _ (List.mem_map.2 ⟨z, hz, rfl⟩)
  obtain ⟨y, _, rfl⟩ := List.mem_map.1 hx
  positivity

private theorem normSq_scale (r : ℝ) (b : Nd ℂ) : normSq (scaleNd r b) = normSq b / r ^ 2 := by
  unfold normSq scaleNd
  dsimp only
  rw [List.map_map, div_eq_mul_inv, ← List.sum_map_mul_right]
  congr 1
  refine List.map_congr_left fun z _ => ?_
  simp only [Function.comp_apply, norm_div, Complex.norm_real, Real.norm_eq_abs, div_pow, sq_abs]
  rw [div_eq_mul_inv]

private theorem block_ok {arg : List (ℕ × ℕ)} {vec : List ℂ} {i : ℕ} {b : Nd ℂ} (h : getSubVec (shapeList arg) (i : ℤ) vec = .ok b) :
    normBlock arg vec i = .ok ⟨[b.shape.prod], (scaleNd (Real.sqrt (normSq b) /
      (if i = arg.length then Real.sqrt 1 else Real.sqrt ((arg.getD i (0, 0)).2 : ℝ))) b).data⟩ := by
  unfold normBlock
  rw [h, ok_bind, Tensor.reshapeFlat, ok_bind]
  rfl

/-- What `_normalizer` divides block `i` by. -/
private noncomputable def rho (cs : List (Nd ℂ)) (i : ℕ) : ℝ := Real.sqrt (normSq (block cs i)) / Real.sqrt ((block cs i).dim 1 : ℝ)

private theorem normalizer_eq {cs : List (Nd ℂ)} {a : Nd ℂ} (hb : Blocks cs a) :
    normalizer (cs.map fun c => (c.dim 0, c.dim 1)) (concatenate (cs ++ [a])) =
      .ok (concatenate ((List.range cs.length).map (fun i => scaleNd (rho cs i) (block cs i)) ++ [scaleNd (Real.sqrt (normSq a)) a])) := by
  set arg := cs.map fun c => (c.dim 0, c.dim 1) with harg
  have hl : arg.length = cs.length := by simp [harg]
  have hlast : getSubVec (shapeList arg) (cs.length : ℤ) (concatenate (cs ++ [a])) = .ok a := by
    rw [hb.shapes, C51_unpack_pack _ hb.wfs cs.length (by simp)]
    simp
  unfold normalizer
  rw [hl, List.range_succ, List.mapM_append]
  rw [Heap.mapM_ok (g := fun i => (⟨[(block cs i).shape.prod], (scaleNd (rho cs i) (block cs i)).data⟩ : Nd ℂ)) fun i hi => ?_, ok_bind,
    List.mapM_cons, block_ok hlast, ok_bind, if_pos hl.symm]
  · refine congrArg Except.ok ?_
    unfold concatenate
    rw [List.map_append, List.map_append, List.map_map, List.map_map, Real.sqrt_one, div_one]
    rfl
  · have hi := List.mem_range.1 hi
    rw [block_ok (hb.sub hi), if_neg (by rw [List.length_map]; omega)]
    unfold rho
    rw [List.getD_eq_getElem _ _ (by simpa using hi), List.getElem_map]
    unfold block
    rw [List.getD_eq_getElem _ _ hi]

private theorem scale_blocks {cs : List (Nd ℂ)} {a : Nd ℂ} (hb : Blocks cs a) (r : ℕ → ℝ) (t : ℝ) :
    Blocks ((List.range cs.length).map fun i => scaleNd (r i) (block cs i)) (scaleNd t a) := by
  refine ⟨?_, ?_, ?_, ?_⟩
  · intro c hc
    obtain ⟨i, hi, rfl⟩ := List.mem_map.1 hc
    have := hb.wf _ (Blocks.mem (List.mem_range.1 hi))
    unfold Nd.Wf scaleNd at *
    simpa using this
  · have := hb.wfA
    unfold Nd.Wf scaleNd at *
    simpa using this
  · intro c hc
    obtain ⟨i, hi, rfl⟩ := List.mem_map.1 hc
    exact hb.shape (block cs i) (Blocks.mem (List.mem_range.1 hi))
  · change a.shape = _
    rw [hb.shapeA]
    refine List.ext_getElem (by simp) fun i h1 h2 => ?_
    have hi : i < cs.length := by simpa using h1
    simp only [List.getElem_map, List.getElem_range]
    change _ = (block cs i).dim 1
    unfold block
    rw [List.getD_eq_getElem _ _ hi]

private theorem block_map {n : ℕ} (f : ℕ → Nd ℂ) {i : ℕ} (hi : i < n) : block ((List.range n).map f) i = f i := by
  unfold block
  rw [List.getD_eq_getElem _ _ (by simpa using hi)]
  simp

private theorem rho_pos {cs : List (Nd ℂ)} {a : Nd ℂ} (hb : Blocks cs a) (hc : ∀ c ∈ cs, ∃ z ∈ c.data, z ≠ 0) {i : ℕ} (hi : i < cs.length) :
    0 < rho cs i := by
  have h1 := normSq_pos (hc _ (Blocks.mem hi))
  have h2 : (0 : ℝ) < (block cs i).dim 1 := by exact_mod_cast (hb.at hi).2.1
  unfold rho
  have := Real.sqrt_pos.2 h1
  have := Real.sqrt_pos.2 h2
  positivity

/-- **C96.** If no block of the vector vanishes, `_normalizer` returns a vector of the same blocks, each multiplied by a positive number, such that
the coefficients have norm 1 and the squared norms of the single-particle functions of a coordinate add up to their number. The represented
state is multiplied by a positive number. -/
theorem C96_blocks {cs : List (Nd ℂ)} {a : Nd ℂ} (hb : Blocks cs a) (hc : ∀ c ∈ cs, ∃ z ∈ c.data, z ≠ 0) (ha : ∃ z ∈ a.data, z ≠ 0) :
    ∃ cs' a', normalizer (cs.map fun c => (c.dim 0, c.dim 1)) (concatenate (cs ++ [a])) = .ok (concatenate (cs' ++ [a'])) ∧ Blocks cs' a' ∧
      (cs' ++ [a']).map Nd.shape = (cs ++ [a]).map Nd.shape ∧
      (∀ i < cs.length, normSq (block cs' i) = (block cs i).dim 1 ∧ ∃ r : ℝ, 0 < r ∧ ∀ p, (block cs' i).get p = r * (block cs i).get p) ∧
      (normSq a' = 1 ∧ ∃ r : ℝ, 0 < r ∧ ∀ p, a'.get p = r * a.get p) ∧
      ∃ r : ℝ, 0 < r ∧ ∀ x, amplitude cs' a' x = r * amplitude cs a x := by
  refine ⟨_, _, normalizer_eq hb, scale_blocks hb _ _, ?_, fun i hi => ?_, ⟨?_, (Real.sqrt (normSq a))⁻¹, ?_, fun p => ?_⟩, ?_⟩
  · rw [List.map_append, List.map_append, List.map_map]
    refine congrArg₂ (· ++ ·) ?_ rfl
    refine List.ext_getElem (by simp) fun i h1 h2 => ?_
    have hi : i < cs.length := by simpa using h2
    simp only [List.getElem_map, List.getElem_range, Function.comp_apply]
    change (block cs i).shape = _
    unfold block
    rw [List.getD_eq_getElem _ _ hi]
  · rw [block_map _ hi, normSq_scale]
    have h1 := normSq_pos (hc _ (Blocks.mem hi))
    have h2 : (0 : ℝ) < (block cs i).dim 1 := by exact_mod_cast (hb.at hi).2.1
    refine ⟨?_, (rho cs i)⁻¹, inv_pos.2 (rho_pos hb hc hi), fun p => ?_⟩
    · unfold rho
      rw [div_pow, Real.sq_sqrt h1.le, Real.sq_sqrt h2.le]
      field_simp
    · rw [scale_get, div_eq_inv_mul]
      push_cast
      rfl
  · rw [normSq_scale, Real.sq_sqrt (normSq_pos ha).le, div_self (normSq_pos ha).ne']
  · exact inv_pos.2 (Real.sqrt_pos.2 (normSq_pos ha))
  · rw [scale_get, div_eq_inv_mul]
    push_cast
    rfl
  · refine ⟨(∏ i ∈ Finset.range cs.length, (rho cs i)⁻¹) * (Real.sqrt (normSq a))⁻¹, ?_, fun x => ?_⟩
    · refine mul_pos (Finset.prod_pos fun i hi => inv_pos.2 (rho_pos hb hc (Finset.mem_range.1 hi))) (inv_pos.2 (Real.sqrt_pos.2 (normSq_pos ha)))
    · unfold amplitude
      rw [sumIdx_eq_sum_range, sumIdx_eq_sum_range, Finset.mul_sum, List.length_map, List.length_range]
      refine Finset.sum_congr rfl fun k _ => ?_
      rw [scale_get]
      have : ∀ i ∈ Finset.range cs.length, (block ((List.range cs.length).map fun i => scaleNd (rho cs i) (block cs i)) i).get
          [x.getD i 0, (unravel (scaleNd (Real.sqrt (normSq a)) a).shape k).getD i 0] =
          ((rho cs i : ℝ) : ℂ)⁻¹ * (block cs i).get [x.getD i 0, (unravel a.shape k).getD i 0] := by
        intro i hi
        rw [block_map _ (Finset.mem_range.1 hi), scale_get, div_eq_inv_mul]
        rfl
      rw [Finset.prod_congr rfl this, Finset.prod_mul_distrib]
      push_cast
      change _ * (a.get (unravel a.shape k) / _) = _
      rw [div_eq_mul_inv]
      ring

/-- **C96.** A vector that has these norms already is not changed. -/
theorem C96_fixed {cs : List (Nd ℂ)} {a : Nd ℂ} (hb : Blocks cs a) (hc : ∀ i < cs.length, normSq (block cs i) = (block cs i).dim 1)
    (ha : normSq a = 1) : normalizer (cs.map fun c => (c.dim 0, c.dim 1)) (concatenate (cs ++ [a])) = .ok (concatenate (cs ++ [a])) := by
  rw [normalizer_eq hb]
  have h1 : ∀ b : Nd ℂ, scaleNd 1 b = b := by
    intro b
    unfold scaleNd
    simp
  congr 2
  rw [ha, Real.sqrt_one, h1]
  congr 1
  refine List.ext_getElem (by simp) fun i g1 g2 => ?_
  rw [List.getElem_map, List.getElem_range]
  have h2 : (0 : ℝ) < (block cs i).dim 1 := by exact_mod_cast (hb.at g2).2.1
  have : rho cs i = 1 := by
    unfold rho
    rw [hc i g2, div_self (Real.sqrt_pos.2 h2).ne']
  rw [this, h1]
  unfold block
  rw [List.getD_eq_getElem _ _ g2]

private theorem normSq_sum {b : Nd ℂ} (h : b.Wf) : ((normSq b : ℝ) : ℂ) = sumIdx b.shape fun j => star (b.get j) * b.get j := by
  rw [sumIdx_eq_sum_range]
  unfold normSq
  rw [← h]
  have : ∀ k ∈ Finset.range b.data.length, star (b.get (unravel b.shape k)) * b.get (unravel b.shape k) = ((‖b.data.getD k 0‖ ^ 2 : ℝ) : ℂ) := by
    intro k hk
    have hk : k < b.shape.prod := by rw [← h]; exact Finset.mem_range.1 hk
    unfold Nd.get
    rw [ravel_unravel hk]
    push_cast
    exact Complex.conj_mul' _
  rw [Finset.sum_congr rfl this, ← Complex.ofReal_sum, ← Pade.sum_range_list]
  congr 2
  conv_lhs => rw [Grids.range_self b.data]
  rw [List.map_map]
  rfl

/-- The columns are orthogonal and have the squared norm `r`. -/
def Orthogonal (c : Nd ℂ) (r : ℂ) : Prop := ∀ j < c.dim 1, ∀ k < c.dim 1,
  (∑ x ∈ Finset.range (c.dim 0), star (c.get [x, j]) * c.get [x, k]) = if j = k then r else 0

private theorem state_norm {cs : List (Nd ℂ)} {a : Nd ℂ} (hb : Blocks cs a) (ho : ∀ c ∈ cs, Orthonormal c) :
    (sumIdx (cs.map fun c => c.dim 0) fun x => star (amplitude cs a x) * amplitude cs a x) = sumIdx a.shape fun j => star (a.get j) * a.get j := by
  set s := cs.map fun c => c.dim 0 with hs
  have hls : s.length = cs.length := by rw [hs]; simp
  have hla : a.shape.length = s.length := by rw [hb.shapeA, hls]; simp
  have hds : ∀ k < cs.length, s.getD k 0 = (block cs k).dim 0 := by
    intro k hk
    rw [hs, List.getD_eq_getElem _ _ (by simpa using hk), List.getElem_map]
    unfold block
    rw [List.getD_eq_getElem _ _ hk]
  have hamp : ∀ x, amplitude cs a x = sumIdx a.shape fun j =>
      prodF s.length (fun k p q => (block cs k).get [p, q]) x j * a.get j := by
    intro x
    unfold amplitude prodF
    rw [hls]
  have key := matrix_element s a.shape hla (fun k p q => (block cs k).get [p, q]) (fun _ => delta) a.get a.get
  refine Eq.trans ?_ (key.trans ?_)
  · refine sumIdx_congr fun x hx => ?_
    rw [prodF_delta s x hx, hamp x]
  · refine sumIdx_congr fun j hj => ?_
    congr 1
    rw [← prodF_delta a.shape j hj a.get]
    refine sumIdx_congr fun l hl => ?_
    congr 1
    rw [hla]
    refine prodF_congr fun k hk => ?_
    have hk' : k < cs.length := hls ▸ hk
    have hjk : j.getD k 0 < (block cs k).dim 1 := by
      rw [← hb.dimA hk']; exact hj.getD_lt (hla ▸ hk) 0 0
    have hlk : l.getD k 0 < (block cs k).dim 1 := by
      rw [← hb.dimA hk']; exact hl.getD_lt (hla ▸ hk) 0 0
    rw [hds k hk']
    unfold delta
    rw [← ho _ (Blocks.mem hk') _ hjk _ hlk]
    refine Finset.sum_congr rfl fun x hx => ?_
    have := sum_delta_left (Finset.mem_range.1 hx) fun y => (block cs k).get [y, l.getD k 0]
    unfold delta at this
    rw [this]

private theorem normSq_orthogonal {c : Nd ℂ} {n m : ℕ} (hs : c.shape = [n, m]) (hw : c.Wf) {r : ℂ} (ho : Orthogonal c r) :
    ((normSq c : ℝ) : ℂ) = m * r := by
  have h0 : c.dim 0 = n := by unfold Nd.dim; rw [hs]; rfl
  have h1 : c.dim 1 = m := by unfold Nd.dim; rw [hs]; rfl
  rw [normSq_sum hw, hs]
  simp only [sumIdx]
  rw [Finset.sum_comm]
  have : ∀ k ∈ Finset.range m, (∑ x ∈ Finset.range n, star (c.get [x, k]) * c.get [x, k]) = r := by
    intro k hk
    have := ho k (h1 ▸ Finset.mem_range.1 hk) k (h1 ▸ Finset.mem_range.1 hk)
    rw [h0, if_pos rfl] at this
    exact this
  rw [Finset.sum_congr rfl this, Finset.sum_const, Finset.card_range, nsmul_eq_mul]

/-- **C96 for orthogonal single-particle functions of equal norm in each coordinate**: the represented state is normalized afterwards. -/
theorem C96_state_partial {cs : List (Nd ℂ)} {a : Nd ℂ} (hb : Blocks cs a) (hc : ∀ c ∈ cs, ∃ r : ℂ, r ≠ 0 ∧ Orthogonal c r)
    (ha : ∃ z ∈ a.data, z ≠ 0) :
    ∃ cs' a', normalizer (cs.map fun c => (c.dim 0, c.dim 1)) (concatenate (cs ++ [a])) = .ok (concatenate (cs' ++ [a'])) ∧ Blocks cs' a' ∧
      (∀ c ∈ cs', Orthonormal c) ∧
      (sumIdx (cs.map fun c => c.dim 0) fun x => star (amplitude cs' a' x) * amplitude cs' a' x) = 1 := by
  have hne : ∀ c ∈ cs, ∃ z ∈ c.data, z ≠ 0 := by
    intro c hm
    obtain ⟨r, r0, ho⟩ := hc c hm
    obtain ⟨n, m, hn, hmm, hs⟩ := hb.shape c hm
    by_contra h
    push Not at h
    have hg : ∀ p, c.get p = 0 := by
      intro p
      unfold Nd.get
      rw [List.getD_eq_getElem?_getD]
      cases hd : c.data[ravel c.shape p]? with
      | none => rfl
      | some z => exact h z (List.mem_of_getElem? hd)
    have h1 : c.dim 1 = m := by unfold Nd.dim; rw [hs]; rfl
    have := ho 0 (by omega) 0 (by omega)
    simp only [hg, mul_zero, Finset.sum_const_zero, if_pos] at this
    exact r0 this.symm
  have hor : ∀ c ∈ ((List.range cs.length).map fun i => scaleNd (rho cs i) (block cs i)), Orthonormal c := by
    intro c' hm
    obtain ⟨i, hi, rfl⟩ := List.mem_map.1 hm
    have hi := List.mem_range.1 hi
    obtain ⟨r, r0, ho⟩ := hc _ (Blocks.mem hi)
    obtain ⟨hn, hmm, hs⟩ := hb.at hi
    have hN := normSq_orthogonal hs (hb.wf _ (Blocks.mem hi)) ho
    have hp := normSq_pos (hne _ (Blocks.mem hi))
    have hm0 : (0 : ℝ) < (block cs i).dim 1 := by exact_mod_cast hmm
    have hr2 : ((rho cs i : ℝ) : ℂ) * ((rho cs i : ℝ) : ℂ) = r := by
      have : rho cs i * rho cs i = normSq (block cs i) / (block cs i).dim 1 := by
        unfold rho
        rw [div_mul_div_comm, Real.mul_self_sqrt hp.le, Real.mul_self_sqrt hm0.le]
      rw [← Complex.ofReal_mul, this]
      push_cast
      rw [hN]
      have : ((block cs i).dim 1 : ℂ) ≠ 0 := by exact_mod_cast hm0.ne'
      field_simp
    have hrho : ((rho cs i : ℝ) : ℂ) ≠ 0 := by exact_mod_cast (rho_pos hb hne hi).ne'
    intro j hj k hk
    have e : ∀ x ∈ Finset.range ((scaleNd (rho cs i) (block cs i)).dim 0),
        star ((scaleNd (rho cs i) (block cs i)).get [x, j]) * (scaleNd (rho cs i) (block cs i)).get [x, k] =
        r⁻¹ * (star ((block cs i).get [x, j]) * (block cs i).get [x, k]) := by
      intro x _
      rw [scale_get, scale_get, ← hr2]
      have : star ((block cs i).get [x, j] / ((rho cs i : ℝ) : ℂ)) = star ((block cs i).get [x, j]) / ((rho cs i : ℝ) : ℂ) := by
        simp only [Complex.star_def, map_div₀, Complex.conj_ofReal]
      rw [this]
      field_simp
    rw [Finset.sum_congr rfl e, ← Finset.mul_sum]
    have := ho j hj k hk
    rw [show (scaleNd (rho cs i) (block cs i)).dim 0 = (block cs i).dim 0 from rfl, this]
    split
    · exact inv_mul_cancel₀ r0
    · rw [mul_zero]
  have hbl := scale_blocks hb (rho cs) (Real.sqrt (normSq a))
  refine ⟨_, _, normalizer_eq hb, hbl, hor, ?_⟩
  have key := state_norm hbl hor
  rw [← normSq_sum hbl.wfA, normSq_scale, Real.sq_sqrt (normSq_pos ha).le, div_self (normSq_pos ha).ne', Complex.ofReal_one] at key
  rw [← key]
  congr 1
  refine List.ext_getElem (by simp) fun i h1 h2 => ?_
  have hi : i < cs.length := by simpa using h1
  simp only [List.getElem_map, List.getElem_range]
  change _ = (block cs i).dim 0
  unfold block
  rw [List.getD_eq_getElem _ _ hi]

/-- One coordinate with two grid points and twice the single-particle function `(1, 0)`. -/
def exSame : List (Nd ℂ) := [⟨[2, 2], [1, 1, 0, 0]⟩]

noncomputable def exSameA : Nd ℂ := ⟨[2], [(3 / 5 : ℝ), (4 / 5 : ℝ)]⟩

/-- **C96 is violated in general**: `_normalizer` does not change this vector, although the represented state `(7/5, 0)` is not normalized. -/
theorem C96_violated : Blocks exSame exSameA ∧
    normalizer (exSame.map fun c => (c.dim 0, c.dim 1)) (concatenate (exSame ++ [exSameA])) = .ok (concatenate (exSame ++ [exSameA])) ∧
    (sumIdx (exSame.map fun c => c.dim 0) fun x => star (amplitude exSame exSameA x) * amplitude exSame exSameA x) = 49 / 25 := by
  have hb : Blocks exSame exSameA := by
    refine ⟨?_, rfl, ?_, rfl⟩
    · intro c hc
      obtain rfl := List.mem_singleton.1 hc
      rfl
    · intro c hc
      obtain rfl := List.mem_singleton.1 hc
      exact ⟨2, 2, by omega, by omega, rfl⟩
  refine ⟨hb, C96_fixed hb ?_ ?_, ?_⟩
  · intro i hi
    have : i = 0 := by simp [exSame] at hi; exact hi
    subst this
    simp [normSq, exSame, block, Nd.dim]
    norm_num
  · unfold normSq exSameA
    simp only [List.map_cons, List.map_nil, List.sum_cons, List.sum_nil, Complex.norm_real, Real.norm_eq_abs, sq_abs]
    norm_num
  · have h0 : amplitude exSame exSameA [0] = 7 / 5 := by
      simp [amplitude, exSame, exSameA, sumIdx, block, Nd.get, ravel, Finset.sum_range_succ]
      norm_num
    have h1 : amplitude exSame exSameA [1] = 0 := by
      simp [amplitude, exSame, exSameA, sumIdx, block, Nd.get, ravel, Finset.sum_range_succ]
    change (sumIdx [2] fun x => star (amplitude exSame exSameA x) * amplitude exSame exSameA x) = 49 / 25
    simp only [sumIdx, Finset.sum_range_succ, Finset.range_zero, Finset.sum_empty, h0, h1, mul_zero, add_zero, zero_add]
    simp
    norm_num

/-- The hypotheses of `C96_state_partial` are met by single-particle functions of norm 2. -/
example : Blocks [(⟨[2, 2], [0, 2, 2, 0]⟩ : Nd ℂ)] exSameA ∧ Orthogonal (⟨[2, 2], [0, 2, 2, 0]⟩ : Nd ℂ) 4 := by
  refine ⟨⟨?_, rfl, ?_, rfl⟩, ?_⟩
  · intro c hc
    obtain rfl := List.mem_singleton.1 hc
    rfl
  · intro c hc
    obtain rfl := List.mem_singleton.1 hc
    exact ⟨2, 2, by omega, by omega, rfl⟩
  · intro j hj k hk
    have hj : j < 2 := hj
    have hk : k < 2 := hk
    have : (⟨[2, 2], [0, 2, 2, 0]⟩ : Nd ℂ).dim 0 = 2 := rfl
    rw [this]
    interval_cases j <;> interval_cases k <;> simp [Finset.sum_range_succ, Nd.get, ravel, Complex.conj_ofNat] <;> norm_num

end Mctdh
