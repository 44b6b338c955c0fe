import Verif.Model.MctdhProp
import Verif.Props.C65
import Verif.Lemmas.Mctdh
import Verif.Lemmas.Autocomplete
import Verif.Props.C89
import Mathlib.Analysis.Complex.Basic
import Mathlib.Analysis.Matrix.Spectrum
import Mathlib.Data.Fin.Tuple.Sort
import Mathlib.Tactic.IntervalCases

/-! C95: `DVR.solve` and the initial state of MCTDH. -/

open Py
open scoped BigOperators

namespace Mctdh

/-- Specification: `e` and the vectors `u 0`, `u 1`, ... (`m` of them, on `n` grid points) are eigenvalues and orthonormal eigenvectors
of `H`, and no vector orthogonal to them has a lower energy. -/
structure Eigen (H : Nd ℂ) (n m : ℕ) (e : List ℝ) (u : ℕ → ℕ → ℝ) : Prop where
  count : e.length = m
  orthonormal : ∀ j < m, ∀ k < m, (∑ x ∈ Finset.range n, u j x * u k x) = if j = k then 1 else 0
  equation : ∀ k < m, ∀ x < n, (∑ y ∈ Finset.range n, H.get [x, y] * (u k y : ℂ)) = (e.getD k 0 : ℂ) * (u k x : ℂ)
  lowest : ∀ v : ℕ → ℝ, (∀ k < m, (∑ x ∈ Finset.range n, u k x * v x) = 0) → ∀ k < m,
    e.getD k 0 * (∑ x ∈ Finset.range n, v x ^ 2) ≤ (∑ x ∈ Finset.range n, ∑ y ∈ Finset.range n, (v x : ℂ) * H.get [x, y] * (v y : ℂ)).re

/-- `eigsh(H, k=m)` succeeds with eigenvectors in the columns of a matrix. -/
def EigshOk (eigsh : Nd ℂ → ℕ → Res (List ℝ × Nd ℝ)) (H : Nd ℂ) (n m : ℕ) : Prop :=
  ∃ e v, eigsh H m = .ok (e, v) ∧ v.shape = [n, m] ∧ Eigen H n m e fun k x => v.get [x, k]

/-- **C95.** `solve(m)` returns the energies of `eigsh` and rows that are orthonormal eigenvectors with these energies, whose first entry is not
negative. -/
theorem C95_solve (eigsh : Nd ℂ → ℕ → Res (List ℝ × Nd ℝ)) (D : SineDVR) (H : Nd ℂ) (n m : ℕ) (hn : 0 < n) (hH : D.hMat = .ok H)
    (he : EigshOk eigsh H n m) :
    ∃ e w, solve eigsh D m = .ok (e, w) ∧ w.Wf ∧ w.shape = [m, n] ∧ Eigen H n m e (fun k x => w.get [k, x]) ∧
      (∀ k < m, 0 ≤ w.get [k, 0]) ∧ ∃ v, eigsh H m = .ok (e, v) := by
  obtain ⟨e, v, h1, h2, h3⟩ := he
  have hd0 : v.dim 0 = n := by unfold Nd.dim; rw [h2]; rfl
  have hd1 : v.dim 1 = m := by unfold Nd.dim; rw [h2]; rfl
  have hget : ∀ k < m, ∀ x < n, (signed v).get [k, x] = (if 0 ≤ v.get [0, k] then 1 else -1) * v.get [x, k] := by
    intro k hk x hx
    unfold signed
    rw [Nd.get_ofFn _ (valid_cons_iff.2 ⟨k, [x], rfl, by rw [hd1]; exact hk,
      valid_cons_iff.2 ⟨x, [], rfl, by rw [hd0]; exact hx, valid_nil_iff.2 rfl⟩⟩)]
    simp only [List.getD_cons_zero, List.getD_cons_succ]
    split <;> ring
  have hsq : ∀ k, (if 0 ≤ v.get [0, k] then (1 : ℝ) else -1) * (if 0 ≤ v.get [0, k] then (1 : ℝ) else -1) = 1 := by
    intro k
    split <;> norm_num
  refine ⟨e, signed v, ?_, Nd.ofFn_wf _ _, ?_, ⟨h3.count, fun j hj k hk => ?_, fun k hk x hx => ?_, fun y hy => h3.lowest y fun k hk => ?_⟩, fun k hk => ?_, v, h1⟩
  · unfold solve
    rw [hH, ok_bind, h1, ok_bind]
    rfl
  · unfold signed Nd.ofFn
    rw [hd0, hd1]
  · have e1 : ∀ x ∈ Finset.range n, (signed v).get [j, x] * (signed v).get [k, x] =
        ((if 0 ≤ v.get [0, j] then 1 else -1) * (if 0 ≤ v.get [0, k] then 1 else -1)) * (v.get [x, j] * v.get [x, k]) := by
      intro x hx
      rw [hget j hj x (Finset.mem_range.1 hx), hget k hk x (Finset.mem_range.1 hx)]
      ring
    rw [Finset.sum_congr rfl e1, ← Finset.mul_sum, h3.orthonormal j hj k hk]
    by_cases h : j = k
    · rw [h, hsq, one_mul]
    · rw [if_neg h, mul_zero]
  · have e1 : ∀ y ∈ Finset.range n, H.get [x, y] * (((signed v).get [k, y] : ℝ) : ℂ) =
        (((if 0 ≤ v.get [0, k] then 1 else -1 : ℝ)) : ℂ) * (H.get [x, y] * ((v.get [y, k] : ℝ) : ℂ)) := by
      intro y hy
      rw [hget k hk y (Finset.mem_range.1 hy)]
      push_cast
      ring
    rw [Finset.sum_congr rfl e1, ← Finset.mul_sum, h3.equation k hk x hx, hget k hk x hx]
    push_cast
    ring
  · have e1 : ∀ x ∈ Finset.range n, v.get [x, k] * y x = (if 0 ≤ v.get [0, k] then 1 else -1) * ((signed v).get [k, x] * y x) := by
      intro x hx
      rw [hget k hk x (Finset.mem_range.1 hx)]
      linear_combination (-(v.get [x, k] * y x)) * hsq k
    rw [Finset.sum_congr rfl e1, ← Finset.mul_sum, hy k hk, mul_zero]
  · rw [hget k hk 0 hn]
    split
    · rename_i h
      simpa using h
    · rename_i h
      have := not_le.1 h
      linarith

private theorem unravel_zero : ∀ (s : List ℕ) (i : ℕ), (unravel s 0).getD i 0 = 0
  | [], i => by simp [unravel]
  | d :: s, 0 => by simp [unravel]
  | d :: s, i + 1 => by
    have := unravel_zero s i
    simpa [unravel] using this

private theorem concat_data {α : Type} : ∀ (bs bs' : List (Nd α)), bs.map Nd.data = bs'.map Nd.data → concatenate bs = concatenate bs' := by
  intro bs bs' h
  unfold concatenate
  rw [h]

/-- **C95.** The initial vector of MCTDH is made of matrices `C_i`, whose columns are real orthonormal eigenvectors of the one-dimensional
Hamiltonians, with non-negative first entries, and of coefficients such that the represented state is the product of the first eigenvectors. -/
theorem C95_init (eigsh : Nd ℂ → ℕ → Res (List ℝ × Nd ℝ)) (ds : List SineDVR) (arg : List (ℕ × ℕ)) (H : ℕ → Nd ℂ)
    (hpos : ∀ p ∈ arg, 0 < p.1 ∧ 0 < p.2)
    (hds : ∀ i < arg.length, ∃ D, ds[i]? = some D ∧ D.hMat = .ok (H i) ∧ EigshOk eigsh (H i) (arg.getD i (0, 0)).1 (arg.getD i (0, 0)).2) :
    ∃ cs a, initVec eigsh ds arg = .ok (concatenate (cs ++ [a])) ∧ Blocks cs a ∧ (cs.map fun c => (c.dim 0, c.dim 1)) = arg ∧
      a = ⟨arg.map Prod.snd, (List.replicate (arg.map Prod.snd).prod 0).set 0 1⟩ ∧
      (∀ i < arg.length, Orthonormal (block cs i) ∧ (∀ z ∈ (block cs i).data, z.im = 0) ∧
        ∃ e v, eigsh (H i) (arg.getD i (0, 0)).2 = .ok (e, v) ∧
          Eigen (H i) (arg.getD i (0, 0)).1 (arg.getD i (0, 0)).2 e fun k x => ((block cs i).get [x, k]).re) ∧
      (∀ i < arg.length, ∀ k < (arg.getD i (0, 0)).2, 0 ≤ ((block cs i).get [0, k]).re) ∧
      ∀ x, amplitude cs a x = ∏ i ∈ Finset.range arg.length, (block cs i).get [x.getD i 0, 0] := by
  have hsol : ∀ i : ℕ, i < arg.length → ∃ (D : SineDVR) (e : List ℝ) (w : Nd ℝ), ds[i]? = some D ∧
      solve eigsh D (arg.getD i (0, 0)).2 = .ok (e, w) ∧ w.Wf ∧
      w.shape = [(arg.getD i (0, 0)).2, (arg.getD i (0, 0)).1] ∧ Eigen (H i) (arg.getD i (0, 0)).1 (arg.getD i (0, 0)).2 e (fun k x => w.get [k, x]) ∧
      (∀ k < (arg.getD i (0, 0)).2, 0 ≤ w.get [k, 0]) ∧ ∃ v, eigsh (H i) (arg.getD i (0, 0)).2 = .ok (e, v) := by
    intro i hi
    obtain ⟨D, d1, d2, d3⟩ := hds i hi
    have hm : arg.getD i (0, 0) ∈ arg := by rw [List.getD_eq_getElem _ _ hi]; exact List.getElem_mem _
    obtain ⟨e, w, w1, w2, w3, w4, w5, w6⟩ := C95_solve eigsh D (H i) _ _ (hpos _ hm).1 d2 d3
    exact ⟨D, e, w, d1, w1, w2, w3, w4, w5, w6⟩
  have : ∃ (e : ℕ → List ℝ) (w : ℕ → Nd ℝ), ∀ i : ℕ, i < arg.length → ∃ D : SineDVR, ds[i]? = some D ∧
      solve eigsh D (arg.getD i (0, 0)).2 = .ok (e i, w i) ∧ (w i).Wf ∧
      (w i).shape = [(arg.getD i (0, 0)).2, (arg.getD i (0, 0)).1] ∧
      Eigen (H i) (arg.getD i (0, 0)).1 (arg.getD i (0, 0)).2 (e i) (fun k x => (w i).get [k, x]) ∧
      (∀ k < (arg.getD i (0, 0)).2, 0 ≤ (w i).get [k, 0]) ∧ ∃ v, eigsh (H i) (arg.getD i (0, 0)).2 = .ok (e i, v) := by
    classical
    refine ⟨fun i => if h : i < arg.length then (hsol i h).choose_spec.choose else [],
      fun i => if h : i < arg.length then (hsol i h).choose_spec.choose_spec.choose else ⟨[], []⟩, fun i hi => ?_⟩
    simp only [hi, dif_pos]
    exact ⟨_, (hsol i hi).choose_spec.choose_spec.choose_spec⟩
  obtain ⟨e, w, hw⟩ := this
  let c : ℕ → Nd ℂ := fun i => ⟨[(arg.getD i (0, 0)).1, (arg.getD i (0, 0)).2], ((w i).transposeCore [1, 0]).data.map fun x : ℝ => (x : ℂ)⟩
  let cs : List (Nd ℂ) := (List.range arg.length).map c
  let size := (arg.map Prod.snd).prod
  let a : Nd ℂ := ⟨arg.map Prod.snd, (List.replicate size 0).set 0 1⟩
  have hblk : ∀ i < arg.length, block cs i = c i := by
    intro i hi
    unfold block
    rw [List.getD_eq_getElem _ _ (by simpa [cs] using hi)]
    simp [cs]
  have htr : ∀ i < arg.length, ((w i).transposeCore [1, 0]).shape = [(arg.getD i (0, 0)).1, (arg.getD i (0, 0)).2] ∧
      ((w i).transposeCore [1, 0]).Wf ∧ ∀ x k, x < (arg.getD i (0, 0)).1 → k < (arg.getD i (0, 0)).2 →
        ((w i).transposeCore [1, 0]).get [x, k] = (w i).get [k, x] := by
    intro i hi
    obtain ⟨D, _, _, _, h4, _⟩ := hw i hi
    exact transpose_spec (w i) h4
  have hcget : ∀ i < arg.length, ∀ x k, x < (arg.getD i (0, 0)).1 → k < (arg.getD i (0, 0)).2 →
      (c i).get [x, k] = (((w i).get [k, x] : ℝ) : ℂ) := by
    intro i hi x k hx hk
    obtain ⟨t1, t2, t3⟩ := htr i hi
    rw [← t3 x k hx hk]
    unfold Nd.get
    rw [t1]
    simp only [c, List.getD_eq_getElem?_getD, List.getElem?_map]
    generalize ((w i).transposeCore [1, 0]).data[ravel _ [x, k]]? = o
    cases o
    · exact Complex.ofReal_zero.symm
    · rfl
  have hd0 : ∀ i, (c i).dim 0 = (arg.getD i (0, 0)).1 := fun i => rfl
  have hd1 : ∀ i, (c i).dim 1 = (arg.getD i (0, 0)).2 := fun i => rfl
  have hsize : size ≠ 0 := by
    intro h
    have := List.prod_eq_zero_iff.1 h
    obtain ⟨p, hp, hp0⟩ := List.mem_map.1 this
    have := (hpos p hp).2
    omega
  have harg : (cs.map fun c => (c.dim 0, c.dim 1)) = arg := by
    refine List.ext_getElem (by simp [cs]) fun i h1 h2 => ?_
    simp only [cs, List.getElem_map, List.getElem_range]
    rw [hd0, hd1, List.getD_eq_getElem _ _ h2]
  have hcwf : ∀ i < arg.length, (c i).Wf := by
    intro i hi
    obtain ⟨t1, t2, _⟩ := htr i hi
    unfold Nd.Wf at t2 ⊢
    rw [t1] at t2
    simpa [c] using t2
  have hb : Blocks cs a := by
    refine ⟨?_, ?_, ?_, ?_⟩
    · intro b hb
      obtain ⟨i, hi, rfl⟩ := List.mem_map.1 hb
      exact hcwf i (List.mem_range.1 hi)
    · unfold Nd.Wf
      simp [a, size]
    · intro b hb
      obtain ⟨i, hi, rfl⟩ := List.mem_map.1 hb
      have hi := List.mem_range.1 hi
      have hm : arg.getD i (0, 0) ∈ arg := by rw [List.getD_eq_getElem _ _ hi]; exact List.getElem_mem _
      exact ⟨_, _, (hpos _ hm).1, (hpos _ hm).2, rfl⟩
    · change arg.map Prod.snd = _
      conv_lhs => rw [← harg]
      rw [List.map_map]
      rfl
  refine ⟨cs, a, ?_, hb, harg, rfl, fun i hi => ⟨?_, ?_, e i, (hw i hi).choose_spec.2.2.2.2.2.2.choose, (hw i hi).choose_spec.2.2.2.2.2.2.choose_spec, ?_⟩, fun i hi k hk => ?_, fun x => ?_⟩
  · unfold initVec
    have hm : arg.zipIdx.mapM (cBlock eigsh ds) =
        .ok (arg.zipIdx.map fun p => (⟨[((w p.2).transposeCore [1, 0]).shape.prod], ((w p.2).transposeCore [1, 0]).data.map fun x : ℝ => (x : ℂ)⟩ : Nd ℂ)) := by
      refine Heap.mapM_ok (g := fun p : (ℕ × ℕ) × ℕ => (⟨[((w p.2).transposeCore [1, 0]).shape.prod],
        ((w p.2).transposeCore [1, 0]).data.map fun x : ℝ => (x : ℂ)⟩ : Nd ℂ)) fun p hp => ?_
      obtain ⟨q, i⟩ := p
      have hq : arg[i]? = some q := List.mem_zipIdx_iff_getElem?.1 hp
      obtain ⟨hi, hq'⟩ := List.getElem?_eq_some_iff.1 hq
      obtain ⟨D, h1, h2, _⟩ := hw i hi
      unfold cBlock item
      dsimp only
      rw [h1]
      simp only [Option.elim, ok_bind]
      rw [← hq', ← List.getD_eq_getElem _ (0, 0) hi, h2, ok_bind]
      rfl
    rw [hm, ok_bind]
    dsimp only
    rw [if_neg hsize]
    refine congrArg Except.ok (concat_data _ _ ?_)
    rw [List.map_append, List.map_append, List.map_map]
    refine congrArg₂ (· ++ ·) ?_ rfl
    refine List.ext_getElem (by simp [cs]) fun i h1 h2 => ?_
    simp [cs, c]
  · rw [hblk i hi]
    obtain ⟨D, _, _, _, _, h5, _⟩ := hw i hi
    intro j hj k hk
    rw [hd1] at hj hk
    rw [hd0]
    have e1 : ∀ x ∈ Finset.range (arg.getD i (0, 0)).1, star ((c i).get [x, j]) * (c i).get [x, k] =
        (((w i).get [j, x] * (w i).get [k, x] : ℝ) : ℂ) := by
      intro x hx
      rw [hcget i hi x j (Finset.mem_range.1 hx) hj, hcget i hi x k (Finset.mem_range.1 hx) hk]
      push_cast
      congr 1
      exact Complex.conj_ofReal _
    rw [Finset.sum_congr rfl e1, ← Complex.ofReal_sum, h5.orthonormal j hj k hk]
    split <;> simp
  · rw [hblk i hi]
    intro z hz
    obtain ⟨r, _, rfl⟩ := List.mem_map.1 hz
    exact Complex.ofReal_im r
  · rw [hblk i hi]
    obtain ⟨D, _, _, _, _, h5, _⟩ := hw i hi
    have hre : ∀ k < (arg.getD i (0, 0)).2, ∀ x < (arg.getD i (0, 0)).1, ((c i).get [x, k]).re = (w i).get [k, x] := by
      intro k hk x hx
      rw [hcget i hi x k hx hk, Complex.ofReal_re]
    refine ⟨h5.count, fun j hj k hk => ?_, fun k hk x hx => ?_, fun v hv => h5.lowest v fun k hk => ?_⟩
    · rw [← h5.orthonormal j hj k hk]
      refine Finset.sum_congr rfl fun x hx => ?_
      rw [hre j hj x (Finset.mem_range.1 hx), hre k hk x (Finset.mem_range.1 hx)]
    · rw [hre k hk x hx, ← h5.equation k hk x hx]
      refine Finset.sum_congr rfl fun y hy => ?_
      rw [hre k hk y (Finset.mem_range.1 hy)]
    · rw [← hv k hk]
      refine Finset.sum_congr rfl fun x hx => ?_
      rw [hre k hk x (Finset.mem_range.1 hx)]
  · rw [hblk i hi]
    have hm : arg.getD i (0, 0) ∈ arg := by rw [List.getD_eq_getElem _ _ hi]; exact List.getElem_mem _
    obtain ⟨D, _, _, _, _, _, h6, _⟩ := hw i hi
    rw [hcget i hi 0 k (hpos _ hm).1 hk, Complex.ofReal_re]
    exact h6 k hk
  · unfold amplitude
    rw [sumIdx_eq_sum_range]
    have hz : ∀ k < a.shape.prod, a.get (unravel a.shape k) = if k = 0 then 1 else 0 := by
      intro k hk
      unfold Nd.get
      rw [ravel_unravel hk]
      have hk' : k < size := hk
      change ((List.replicate size (0 : ℂ)).set 0 1).getD k 0 = _
      rw [List.getD_eq_getElem _ _ (by simpa using hk'), List.getElem_set]
      by_cases h : k = 0
      · rw [if_pos h.symm, if_pos h]
      · rw [if_neg (Ne.symm h), if_neg h, List.getElem_replicate]
    rw [Finset.sum_congr rfl fun k hk => by rw [hz k (Finset.mem_range.1 hk), mul_ite, mul_one, mul_zero],
      Finset.sum_ite_eq' (Finset.range a.shape.prod) 0, if_pos (Finset.mem_range.2 (Nat.pos_of_ne_zero hsize))]
    have hl : cs.length = arg.length := by simp [cs]
    rw [hl]
    refine Finset.prod_congr rfl fun i _ => ?_
    rw [unravel_zero]

/-- If the number of states of some coordinate is 0, the program raises `IndexError` (if the eigensolver has not raised an exception). -/
theorem C95_empty (eigsh : Nd ℂ → ℕ → Res (List ℝ × Nd ℝ)) (ds : List SineDVR) (arg : List (ℕ × ℕ)) (h0 : ∃ p ∈ arg, p.2 = 0)
    (cs : List (Nd ℂ)) (hc : arg.zipIdx.mapM (cBlock eigsh ds) = .ok cs) : initVec eigsh ds arg = .error .indexError := by
  unfold initVec
  rw [hc, ok_bind]
  dsimp only
  rw [if_pos]
  · rfl
  · obtain ⟨p, hp, h⟩ := h0
    exact List.prod_eq_zero (List.mem_map.2 ⟨p, hp, h⟩)

/-- An eigensolver for a diagonal matrix with two rows: the hypotheses of `C95_solve` can be met with a vector whose sign is changed. -/
example : EigshOk (fun _ _ => .ok ([3], ⟨[2, 1], [-1, 0]⟩)) ⟨[2, 2], [3, 0, 0, 5]⟩ 2 1 := by
  refine ⟨[3], ⟨[2, 1], [-1, 0]⟩, rfl, rfl, rfl, ?_, ?_, ?_⟩
  · intro j hj k hk
    interval_cases j
    interval_cases k
    simp [Finset.sum_range_succ, Nd.get, ravel]
  · intro k hk x hx
    interval_cases k
    interval_cases x <;> simp [Finset.sum_range_succ, Nd.get, ravel]
  · intro v hv k hk
    have h0 : v 0 = 0 := by
      have := hv 0 (by omega)
      simpa [Finset.sum_range_succ, Nd.get, ravel] using this
    interval_cases k
    have : (0 : ℝ) ≤ v 1 ^ 2 := sq_nonneg _
    simp [Finset.sum_range_succ, Nd.get, ravel, h0]
    nlinarith

/-! ### An exact eigensolver -/

open Matrix in
/-- Every real symmetric matrix has such eigenvectors. -/
theorem exists_eigen (H : Nd ℂ) (n m : ℕ) (hm : m ≤ n) (h : ℕ → ℕ → ℝ) (hH : ∀ x < n, ∀ y < n, H.get [x, y] = (h x y : ℂ))
    (hs : ∀ x < n, ∀ y < n, h x y = h y x) : ∃ (e : List ℝ) (v : Nd ℝ), v.shape = [n, m] ∧ Eigen H n m e fun k x => v.get [x, k] := by
  let A : Matrix (Fin n) (Fin n) ℝ := fun x y => h x y
  have hA : A.IsHermitian := by
    ext x y
    simp only [A, conjTranspose_apply, star_trivial]
    exact hs _ y.2 _ x.2
  let σ : Equiv.Perm (Fin n) := Tuple.sort hA.eigenvalues
  have hmono : Monotone (hA.eigenvalues ∘ σ) := Tuple.monotone_sort _
  let U : Matrix (Fin n) (Fin n) ℝ := hA.eigenvectorUnitary
  have hU1 : Uᵀ * U = 1 := by
    have := Unitary.coe_star_mul_self hA.eigenvectorUnitary
    simpa [U, star_eq_conjTranspose, conjTranspose_eq_transpose_of_trivial] using this
  have hU2 : U * Uᵀ = 1 := by
    have := Unitary.coe_mul_star_self hA.eigenvectorUnitary
    simpa [U, star_eq_conjTranspose, conjTranspose_eq_transpose_of_trivial] using this
  have hAU : A * U = U * diagonal hA.eigenvalues := by
    ext x j
    rw [mul_diagonal]
    have := congrFun (hA.mulVec_eigenvectorBasis j) x
    simp only [Pi.smul_apply, smul_eq_mul] at this
    rw [mul_comm]
    exact this
  let ev : ℕ → ℝ := fun k => if hk : k < n then hA.eigenvalues (σ ⟨k, hk⟩) else 0
  let u : ℕ → ℕ → ℝ := fun k x => if hk : k < n then if hx : x < n then U ⟨x, hx⟩ (σ ⟨k, hk⟩) else 0 else 0
  have hu : ∀ (k : ℕ) (hk : k < n) (x : Fin n), u k x = U x (σ ⟨k, hk⟩) := by
    intro k hk x
    simp [u, hk]
  have hg : ∀ k < m, ∀ x < n, (Nd.ofFn [n, m] fun p => u (p.getD 1 0) (p.getD 0 0)).get [x, k] = u k x := by
    intro k hk x hx
    rw [Nd.get_ofFn _ (valid_cons_iff.2 ⟨x, [k], rfl, hx, valid_cons_iff.2 ⟨k, [], rfl, hk, valid_nil_iff.2 rfl⟩⟩)]
    rfl
  refine ⟨(List.range m).map ev, Nd.ofFn [n, m] fun p => u (p.getD 1 0) (p.getD 0 0), rfl, by simp, fun j hj k hk => ?_, fun k hk x hx => ?_,
    fun v hv k hk => ?_⟩
  · rw [Finset.sum_congr rfl fun x hx => by rw [hg j hj x (Finset.mem_range.1 hx), hg k hk x (Finset.mem_range.1 hx)], Finset.sum_range]
    have := congrFun (congrFun hU1 (σ ⟨j, by omega⟩)) (σ ⟨k, by omega⟩)
    rw [mul_apply, one_apply] at this
    simp only [transpose_apply] at this
    rw [Finset.sum_congr rfl fun x _ => by rw [hu j (by omega) x, hu k (by omega) x], this]
    simp
  · rw [Finset.sum_congr rfl fun y hy => by rw [hg k hk y (Finset.mem_range.1 hy), hH x hx y (Finset.mem_range.1 hy), ← Complex.ofReal_mul], hg k hk x hx,
      ← Complex.ofReal_sum, ← Complex.ofReal_mul]
    congr 1
    rw [Finset.sum_range]
    have := congrFun (congrFun hAU ⟨x, hx⟩) (σ ⟨k, by omega⟩)
    rw [mul_diagonal, mul_apply] at this
    rw [Finset.sum_congr rfl fun y _ => by rw [hu k (by omega) y]]
    refine this.trans ?_
    rw [← hu k (by omega) ⟨x, hx⟩, List.getD_eq_getElem _ _ (by simpa using hk), List.getElem_map, List.getElem_range, mul_comm]
    simp only [ev]
    rw [dif_pos]
  · let w : Fin n → ℝ := fun x => v x
    let c : Fin n → ℝ := Uᵀ *ᵥ w
    have hw : w = U *ᵥ c := by
      simp only [c]
      rw [mulVec_mulVec, hU2, one_mulVec]
    have hc0 : ∀ (k : ℕ) (hk : k < m), c (σ ⟨k, by omega⟩) = 0 := by
      intro k hk
      rw [← hv k hk, Finset.sum_range]
      simp only [c, mulVec, dotProduct, transpose_apply]
      refine Finset.sum_congr rfl fun x _ => ?_
      rw [hg k hk x x.2, hu k (by omega) x]
    clear_value c
    have e1 : (∑ x ∈ Finset.range n, v x ^ 2) = c ⬝ᵥ c := by
      have : (∑ x ∈ Finset.range n, v x ^ 2) = w ⬝ᵥ w := by
        rw [Finset.sum_range]
        exact Finset.sum_congr rfl fun x _ => sq (v x)
      rw [this, hw, dotProduct_mulVec, vecMul_mulVec, hU1]
      simp
    have e2 : (∑ x ∈ Finset.range n, ∑ y ∈ Finset.range n, (v x : ℂ) * H.get [x, y] * (v y : ℂ)).re = c ⬝ᵥ (diagonal hA.eigenvalues *ᵥ c) := by
      have : (∑ x ∈ Finset.range n, ∑ y ∈ Finset.range n, (v x : ℂ) * H.get [x, y] * (v y : ℂ)) = ((w ⬝ᵥ (A *ᵥ w) : ℝ) : ℂ) := by
        rw [Finset.sum_range]
        simp only [dotProduct, mulVec]
        push_cast
        refine Finset.sum_congr rfl fun x _ => ?_
        rw [Finset.sum_range, Finset.mul_sum]
        refine Finset.sum_congr rfl fun y _ => ?_
        rw [hH _ x.2 _ y.2, mul_assoc]
      rw [this, Complex.ofReal_re, hw, mulVec_mulVec, hAU, ← mulVec_mulVec, dotProduct_mulVec, vecMul_mulVec, hU1]
      simp
    rw [e1, e2]
    simp only [dotProduct, mulVec_diagonal, Finset.mul_sum]
    refine Finset.sum_le_sum fun j _ => ?_
    obtain ⟨i, rfl⟩ := σ.surjective j
    by_cases hi : (i : ℕ) < m
    · rw [hc0 i hi]; simp
    · rw [List.getD_eq_getElem _ _ (by simpa using hk), List.getElem_map, List.getElem_range]
      have : ev k ≤ hA.eigenvalues (σ i) := by
        have := hmono (show (⟨k, by omega⟩ : Fin n) ≤ i from by simp only [Fin.le_def]; omega)
        simp only [ev]
        rw [dif_pos (by omega)]
        exact this
      have h0 : 0 ≤ c (σ i) * c (σ i) := mul_self_nonneg _
      nlinarith

open Classical in
/-- An eigensolver without rounding errors. -/
noncomputable def exactEigsh (H : Nd ℂ) (m : ℕ) : Res (List ℝ × Nd ℝ) :=
  if h : ∃ r : List ℝ × Nd ℝ, r.2.shape = [H.dim 0, m] ∧ Eigen H (H.dim 0) m r.1 fun k x => r.2.get [x, k] then .ok h.choose else .error .valueError

/-- The assumption about `eigsh` can be met for all one-dimensional Hamiltonians with real potentials. -/
theorem C95_exact (c : ℝ × ℝ × ℕ) (hbar me : ℝ) (V : ℝ → ℝ) (m : ℕ) (hm : m ≤ c.2.2) :
    ∃ H, (⟨c.1, c.2.1, c.2.2, hbar, me, some (PoDvr.pointwise fun x => (V x : ℂ)), none⟩ : SineDVR).hMat = .ok H ∧ H.shape = [c.2.2, c.2.2] ∧
      EigshOk exactEigsh H c.2.2 m := by
  obtain ⟨T, H, t1, h1, h2, h3⟩ := PoDvr.hMat_ok c hbar me fun x => (V x : ℂ)
  refine ⟨H, h1, h2, ?_⟩
  set D : SineDVR := ⟨c.1, c.2.1, c.2.2, hbar, me, none, none⟩ with hD
  obtain ⟨T', t1', _, _, t4⟩ := D.tMat_ok
  obtain rfl : T = T' := Except.ok.inj (t1.symm.trans t1')
  have hreal : ∀ a < c.2.2, ∀ b < c.2.2, H.get [a, b] = (((H.get [a, b]).re : ℝ) : ℂ) := by
    intro a ha b hb
    refine (Complex.conj_eq_iff_re.1 ?_).symm
    rw [h3 a b ha hb, t4 a b ha hb]
    rw [map_add, map_mul, Complex.conj_ofReal, map_sum]
    congr 1
    · congr 1
      refine Finset.sum_congr rfl fun s hs => ?_
      have hs := Finset.mem_range.1 hs
      rw [map_mul, map_mul, Complex.conj_ofReal, D.uMat_real hs ha, D.uMat_real hs hb]
    · split
      · exact Complex.conj_ofReal _
      · exact map_zero _
  have hsym : ∀ a < c.2.2, ∀ b < c.2.2, H.get [a, b] = H.get [b, a] := by
    intro a ha b hb
    rw [h3 a b ha hb, h3 b a hb ha, t4 a b ha hb, t4 b a hb ha]
    congr 1
    · congr 1
      exact Finset.sum_congr rfl fun s _ => by ring
    · by_cases h : a = b
      · rw [h]
      · rw [if_neg h, if_neg (Ne.symm h)]
  obtain ⟨e, v, k1, k2⟩ := exists_eigen H c.2.2 m hm (fun a b => (H.get [a, b]).re) hreal fun a ha b hb => by rw [hsym a ha b hb]
  have hd : H.dim 0 = c.2.2 := by unfold Nd.dim; rw [h2]; rfl
  have hex : ∃ r : List ℝ × Nd ℝ, r.2.shape = [H.dim 0, m] ∧ Eigen H (H.dim 0) m r.1 fun k x => r.2.get [x, k] := by
    rw [hd]
    exact ⟨(e, v), k1, k2⟩
  refine ⟨hex.choose.1, hex.choose.2, ?_, ?_, ?_⟩
  · unfold exactEigsh
    rw [dif_pos hex]
  · rw [hex.choose_spec.1, hd]
  · have := hex.choose_spec.2
    generalize hex.choose = r at this ⊢
    rwa [hd] at this

/-- The hypotheses of `C95_init` are met for every product DVR with real potentials. -/
example (conf : List (ℝ × ℝ × ℕ)) (hbar me : ℝ) (V : ℕ → ℝ → ℝ) (ms : ℕ → ℕ) (hm : ∀ i < conf.length, ms i ≤ (conf.getD i (0, 0, 0)).2.2) :
    ∀ i < (conf.zipIdx.map fun p => (p.1.2.2, ms p.2)).length, ∃ D, (conf.zipIdx.map fun p => (⟨p.1.1, p.1.2.1, p.1.2.2, hbar, me,
      some (PoDvr.pointwise fun x => (V p.2 x : ℂ)), none⟩ : SineDVR))[i]? = some D ∧ ∃ H, D.hMat = .ok H ∧ EigshOk exactEigsh H
        ((conf.zipIdx.map fun p => (p.1.2.2, ms p.2)).getD i (0, 0)).1 ((conf.zipIdx.map fun p => (p.1.2.2, ms p.2)).getD i (0, 0)).2 := by
  intro i hi
  have hi' : i < conf.length := by simpa using hi
  obtain ⟨H, h1, h2, h3⟩ := C95_exact conf[i] hbar me (V i) (ms i) (by
    have := hm i hi'
    rwa [List.getD_eq_getElem _ _ hi'] at this)
  refine ⟨_, List.getElem?_eq_getElem (by simpa using hi'), H, by simpa using h1, ?_⟩
  rw [List.getD_eq_getElem _ _ hi]
  simpa using h3

end Mctdh
