import Verif.Props.C65
import Verif.Props.C91
import Mathlib.Data.Real.Star

/-! C93: `MCTDH.autocorrelation`. Whether the sum of the squares of the amplitudes is the autocorrelation function, see `PoProp.C91_doubled`. -/

open Py
open scoped BigOperators

namespace Mctdh

/-- An array entry by entry. -/
private def mapNd {α β : Type} (f : α → β) (b : Nd α) : Nd β := ⟨b.shape, b.data.map f⟩

private theorem mapNd_get (f : ℂ → ℝ) (hf : f 0 = 0) (b : Nd ℂ) (p : List ℕ) : (mapNd f b).get p = f (b.get p) := by
  unfold mapNd Nd.get
  simp only [List.getD_eq_getElem?_getD, List.getElem?_map]
  cases b.data[ravel b.shape p]? <;> simp [hf]

private theorem mapNd_concat {α β : Type} (f : α → β) (bs : List (Nd α)) : (concatenate bs).map f = concatenate (bs.map (mapNd f)) := by
  unfold concatenate
  rw [List.map_flatten, List.map_map, List.map_map]
  rfl

private theorem last_map {cs : List (Nd ℂ)} {a : Nd ℂ} (hb : Blocks cs a) (f : ℂ → ℝ) :
    getSubVec (shapeList (cs.map fun c => (c.dim 0, c.dim 1))) (-1) ((concatenate (cs ++ [a])).map f) = .ok (mapNd f a) := by
  have hsh : ((cs ++ [a]).map (mapNd f)).map Nd.shape = (cs ++ [a]).map Nd.shape := by
    rw [List.map_map]
    rfl
  have hw : ∀ b ∈ (cs ++ [a]).map (mapNd f), b.Wf := by
    intro b hm
    obtain ⟨c, hc, rfl⟩ := List.mem_map.1 hm
    have := hb.wfs c hc
    unfold Nd.Wf mapNd at *
    simpa using this
  have key := C51_from_end _ hw 1 (by omega) (by simp)
  rw [hsh, ← hb.shapes, ← mapNd_concat] at key
  simpa using key

private theorem dotA_ok {cs : List (Nd ℂ)} {a : Nd ℂ} (hb : Blocks cs a) (f g : ℂ → ℝ) (hf : f 0 = 0) (hg : g 0 = 0) :
    dotA (shapeList (cs.map fun c => (c.dim 0, c.dim 1))) ((concatenate (cs ++ [a])).map f) ((concatenate (cs ++ [a])).map g) =
      .ok (sumIdx a.shape fun j => f (a.get j) * g (a.get j)) := by
  unfold dotA
  rw [last_map hb f, ok_bind, Tensor.reshapeFlat, ok_bind, last_map hb g, ok_bind, Tensor.reshapeFlat, ok_bind]
  unfold Nd.vdot
  rw [if_pos (by simp [Nd.ndim, mapNd])]
  congr 1
  rw [sumIdx_eq_sum_range]
  refine Finset.sum_congr rfl fun k hk => ?_
  have hk : k < a.shape.prod := Finset.mem_range.1 hk
  rw [← mapNd_get f hf, ← mapNd_get g hg]
  unfold Nd.get
  have e : (mapNd f a).shape = a.shape := rfl
  have e' : (mapNd g a).shape = a.shape := rfl
  rw [e, e', ravel_unravel hk]
  simp [ravel]

/-- **C93, what is yielded.** `MCTDH.autocorrelation` yields the sum of the squares of the coefficients (`C91_values` with this product). -/
theorem C93_value {cs : List (Nd ℂ)} {a : Nd ℂ} (hb : Blocks cs a) :
    PoProp.auto (dotA (shapeList (cs.map fun c => (c.dim 0, c.dim 1)))) ((concatenate (cs ++ [a])).map Complex.re)
      ((concatenate (cs ++ [a])).map Complex.im) = .ok (sumIdx a.shape fun j => a.get j * a.get j) := by
  unfold PoProp.auto
  rw [dotA_ok hb _ _ rfl rfl, ok_bind, dotA_ok hb _ _ rfl rfl, ok_bind, dotA_ok hb _ _ rfl rfl, ok_bind]
  refine congrArg Except.ok ?_
  simp only [sumIdx_eq_sum_range]
  push_cast
  rw [Finset.mul_sum, ← Finset.sum_sub_distrib, ← Finset.sum_add_distrib]
  refine Finset.sum_congr rfl fun k _ => ?_
  generalize a.get (unravel a.shape k) = z
  conv_rhs => rw [← Complex.re_add_im z]
  linear_combination (-((z.im : ℂ) * z.im)) * Complex.I_sq

/-- **C93, the whole iteration.** If the vector of the solver after step `i` consists of the single-particle functions `cs i` and the coefficients
`a i`, then `MCTDH.autocorrelation` yields the doubled times before `stop` and the sums of the squares of the coefficients. -/
theorem C93_values {σ : Type} (E : PoProp.Env σ) (pep479 : Bool) (const : Option ℝ) (init : List ℂ) (s0 : σ) (e0 : ℂ) (S : ℕ → σ) (N : ℕ)
    (h0 : E.energy init s0 = .ok e0) (hr : PoProp.Run E s0 S N)
    (he : ∀ i ≤ N, ∃ e, E.energy (E.y (S i)) (S i) = .ok e ∧ PoProp.Tolerated const e0 e) (stop : ℝ) (M : ℕ)
    (hM : PoProp.Before E S N M stop) (arg : List (ℕ × ℕ)) (cs : ℕ → List (Nd ℂ)) (a : ℕ → Nd ℂ) (hb : ∀ i, Blocks (cs i) (a i))
    (harg : ∀ i, ((cs i).map fun c => (c.dim 0, c.dim 1)) = arg) (hy : ∀ i, E.y (S i) = concatenate (cs i ++ [a i])) (k : ℕ) :
    (PoProp.autocorrelation E pep479 const (dotA (shapeList arg)) init stop k s0).1 =
      (List.range (min k M)).map (fun i => (2 * E.t (S i), sumIdx (a i).shape fun j => (a i).get j * (a i).get j)) ∧
    (k ≤ M → (PoProp.autocorrelation E pep479 const (dotA (shapeList arg)) init stop k s0).2 = .suspended) := by
  rw [PoProp.auto_run E pep479 const (dotA (shapeList arg)) init s0 e0 S N h0 hr he stop M hM
    (fun i => sumIdx (a i).shape fun j => (a i).get j * (a i).get j) (fun i => by rw [hy i, ← harg i]; exact C93_value (hb i)) k]
  exact ⟨rfl, fun hk => if_pos hk⟩

/-- The columns `u_j` satisfy `∑ₓ u_j(x) u_k(x) = δ_jk`, without complex conjugation. -/
def Normal (c : Nd ℂ) : Prop := ∀ j < c.dim 1, ∀ k < c.dim 1,
  (∑ x ∈ Finset.range (c.dim 0), c.get [x, j] * c.get [x, k]) = if j = k then 1 else 0

/-- Real orthonormal single-particle functions satisfy this. -/
theorem normal_of_real {c : Nd ℂ} (hr : ∀ z ∈ c.data, z.im = 0) (ho : Orthonormal c) : Normal c := by
  intro j hj k hk
  rw [← ho j hj k hk]
  refine Finset.sum_congr rfl fun x _ => ?_
  congr 1
  unfold Nd.get
  rw [List.getD_eq_getElem?_getD]
  cases h : c.data[ravel c.shape [x, j]]? with
  | none => simp
  | some z => exact (Complex.conj_eq_iff_im.2 (hr z (List.mem_of_getElem? h))).symm

private theorem squares_state {cs : List (Nd ℂ)} {a : Nd ℂ} (hb : Blocks cs a) (ho : ∀ c ∈ cs, Normal c) :
    (sumIdx (cs.map fun c => c.dim 0) fun x => amplitude cs a x * amplitude cs a x) = sumIdx a.shape fun j => a.get j * a.get j := by
  set s := cs.map fun c => c.dim 0 with hs
  have hls : s.length = cs.length := by rw [hs]; simp
  have hla : a.shape.length = s.length := by rw [hb.shapeA, hls]; simp
  have hds : ∀ k < cs.length, s.getD k 0 = (block cs k).dim 0 := by
    intro k hk
    rw [hs, List.getD_eq_getElem _ _ (by simpa using hk), List.getElem_map]
    unfold block
    rw [List.getD_eq_getElem _ _ hk]
  have hamp : ∀ x, amplitude cs a x = sumIdx a.shape fun j =>
      prodF s.length (fun k p q => (block cs k).get [p, q]) x j * a.get j := by
    intro x
    unfold amplitude prodF
    rw [hls]
  have key := @matrix_element ℂ _ starRingOfComm s a.shape hla (fun k p q => (block cs k).get [p, q]) (fun _ => delta) a.get a.get
  refine Eq.trans ?_ (key.trans ?_)
  · refine sumIdx_congr fun x hx => ?_
    rw [prodF_delta s x hx, hamp x]
    rfl
  · refine sumIdx_congr fun j hj => ?_
    congr 1
    rw [← prodF_delta a.shape j hj a.get]
    refine sumIdx_congr fun l hl => ?_
    congr 1
    rw [hla]
    refine prodF_congr fun k hk => ?_
    have hk' : k < cs.length := hls ▸ hk
    have hjk : j.getD k 0 < (block cs k).dim 1 := by
      rw [← hb.dimA hk']; exact hj.getD_lt (hla ▸ hk) 0 0
    have hlk : l.getD k 0 < (block cs k).dim 1 := by
      rw [← hb.dimA hk']; exact hl.getD_lt (hla ▸ hk) 0 0
    rw [hds k hk']
    unfold delta
    rw [← ho _ (Blocks.mem hk') _ hjk _ hlk]
    refine Finset.sum_congr rfl fun x hx => ?_
    have := sum_delta_left (Finset.mem_range.1 hx) fun y => (block cs k).get [y, l.getD k 0]
    unfold delta at this
    rw [this]
    rfl

/-- **C93 for single-particle functions with `Cᵀ C = 1`**, in particular for real orthonormal ones: the yielded value is the sum of the squares
of the amplitudes of the represented state. -/
theorem C93_state_partial {cs : List (Nd ℂ)} {a : Nd ℂ} (hb : Blocks cs a) (ho : ∀ c ∈ cs, Normal c) :
    PoProp.auto (dotA (shapeList (cs.map fun c => (c.dim 0, c.dim 1)))) ((concatenate (cs ++ [a])).map Complex.re)
      ((concatenate (cs ++ [a])).map Complex.im) =
      .ok (sumIdx (cs.map fun c => c.dim 0) fun x => amplitude cs a x * amplitude cs a x) := by
  rw [C93_value hb, squares_state hb ho]

/-- One coordinate with two grid points, the single-particle functions `(1, 0)` and `(0, i)`. -/
def exCs : List (Nd ℂ) := [⟨[2, 2], [1, 0, 0, Complex.I]⟩]

/-- The coefficients `(1, -i)`: the state is `(1, 1)`. -/
def exA : Nd ℂ := ⟨[2], [1, -Complex.I]⟩

private theorem exCs_blocks : Blocks exCs exA where
  wf := by intro c hc; obtain rfl := List.mem_singleton.1 hc; rfl
  wfA := rfl
  shape := by
    intro c hc
    obtain rfl := List.mem_singleton.1 hc
    exact ⟨2, 2, by omega, by omega, rfl⟩
  shapeA := rfl

/-- **C93 is violated for complex single-particle functions**, which all become in a propagation: for the state `(1, 1)` with orthonormal
single-particle functions the sum of the squares of the amplitudes is 2, but 0 is yielded. -/
theorem C93_violated : Blocks exCs exA ∧ (∀ c ∈ exCs, Orthonormal c) ∧ (∀ x, Valid [2] x → amplitude exCs exA x = 1) ∧
    PoProp.auto (dotA (shapeList [(2, 2)])) ((concatenate (exCs ++ [exA])).map Complex.re)
      ((concatenate (exCs ++ [exA])).map Complex.im) = .ok 0 ∧
    (sumIdx [2] fun x => amplitude exCs exA x * amplitude exCs exA x) = 2 := by
  have hamp : ∀ x, Valid [2] x → amplitude exCs exA x = 1 := by
    intro x hx
    obtain ⟨y, r, rfl, hy, hr⟩ := valid_cons_iff.1 hx
    cases valid_nil_iff.1 hr
    have : y = 0 ∨ y = 1 := by omega
    rcases this with rfl | rfl <;>
      simp [amplitude, exCs, exA, sumIdx, block, Nd.get, ravel, Finset.sum_range_succ]
  refine ⟨exCs_blocks, ?_, hamp, ?_, ?_⟩
  · intro c hc
    obtain rfl := List.mem_singleton.1 hc
    intro j hj k hk
    have hj : j < 2 := hj
    have hk : k < 2 := hk
    have : (⟨[2, 2], [1, 0, 0, Complex.I]⟩ : Nd ℂ).dim 0 = 2 := rfl
    rw [this]
    interval_cases j <;> interval_cases k <;> simp [Finset.sum_range_succ, Nd.get, ravel]
  · have := C93_value exCs_blocks
    refine Eq.trans this ?_
    congr 1
    simp [exA, sumIdx, Nd.get, ravel, Finset.sum_range_succ]
  · rw [sumIdx_congr fun x hx => by rw [hamp x hx]]
    simp [sumIdx]

/-- The hypotheses of `C93_state_partial` are met with complex coefficients. -/
example : Blocks [(⟨[2, 2], [1, 0, 0, 1]⟩ : Nd ℂ)] exA ∧ Normal ⟨[2, 2], [1, 0, 0, 1]⟩ := by
  refine ⟨⟨by intro c hc; obtain rfl := List.mem_singleton.1 hc; rfl, rfl, ?_, rfl⟩, ?_⟩
  · intro c hc
    obtain rfl := List.mem_singleton.1 hc
    exact ⟨2, 2, by omega, by omega, rfl⟩
  · intro j hj k hk
    have hj : j < 2 := hj
    have hk : k < 2 := hk
    have : (⟨[2, 2], [1, 0, 0, 1]⟩ : Nd ℂ).dim 0 = 2 := rfl
    rw [this]
    interval_cases j <;> interval_cases k <;> simp [Finset.sum_range_succ, Nd.get, ravel]

end Mctdh
