import Verif.Lemmas.Labelled
import Verif.Lemmas.SplitInv

/-!
The arrays computed by `split`, with labelled axes: label `some k` for an old axis `k`, label
`none` for the new bond.
-/

open scoped BigOperators
open Py

namespace Heap

variable {R : Type} [CommRing R]

/-! ### What is assumed of `compressed_svd` -/

/-- On every matrix without empty axes the decomposition returns matrices of matching shapes with
a nonempty bond. (This holds with truncation as well.) -/
def SvdShape (csvd : Svd R) : Prop :=
  ∀ (a : Nd R) (m n : ℕ), a.Wf → a.shape = [m, n] → 0 < m → 0 < n →
    ∃ r u s vh, csvd a = .ok (u, s, vh) ∧ 0 < r ∧ u.Wf ∧ u.shape = [m, r] ∧ s.Wf ∧ s.shape = [r, r] ∧
      vh.Wf ∧ vh.shape = [r, n]

/-- The decomposition is exact: `u · s · vh = a` (nothing was truncated). -/
def SvdExact (csvd : Svd R) : Prop :=
  ∀ (a : Nd R) (m n : ℕ) (u s vh : Nd R) (r : ℕ), a.Wf → a.shape = [m, n] → csvd a = .ok (u, s, vh) →
    s.shape = [r, r] → ∀ x y, x < m → y < n →
      ∑ z ∈ Finset.range r, (∑ w ∈ Finset.range r, u.get [x, w] * s.get [w, z]) * vh.get [z, y] =
        a.get [x, y]

/-- The rows of `vh` are orthonormal. -/
def SvdIso [StarRing R] (csvd : Svd R) : Prop :=
  ∀ (a : Nd R) (m n : ℕ) (u s vh : Nd R) (r : ℕ), a.Wf → a.shape = [m, n] → csvd a = .ok (u, s, vh) →
    vh.shape = [r, n] → ∀ z w, z < r → w < r →
      ∑ y ∈ Finset.range n, vh.get [z, y] * star (vh.get [w, y]) = if z = w then 1 else 0

/-! ### The moveaxis loop -/

theorem range_split {n i : ℕ} (hi : i < n) :
    List.range n = List.range i ++ i :: List.range' (i + 1) (n - i - 1) := by
  have h1 : n = i + (n - i - 1 + 1) := by omega
  conv_lhs => rw [h1, List.range_add]
  congr 1
  rw [List.range_eq_range', List.map_add_range', Nat.add_zero, List.range'_succ]

theorem length_filter_notMem {P : List ℕ} {i : ℕ} (hP : P.Nodup) (hlt : ∀ x ∈ P, x < i) :
    ((List.range i).filter fun k => k ∉ P).length + P.length = i := by
  have h1 : ((List.range i).filter fun k => k ∈ P).Perm P := by
    rw [List.perm_ext_iff_of_nodup (List.nodup_range.filter _) hP]
    intro a
    simp only [List.mem_filter, List.mem_range, decide_eq_true_eq]
    exact ⟨fun h => h.2, fun h => ⟨hlt a h, h⟩⟩
  have h2 := List.length_eq_length_filter_add (l := List.range i) (fun k => decide (k ∈ P))
  rw [h1.length_eq, List.length_range] at h2
  have h3 : ((List.range i).filter fun k => !decide (k ∈ P)) =
      (List.range i).filter fun k => decide (k ∉ P) := by
    congr 1; funext k; simp
  rw [h3] at h2
  omega

theorem axes2Of_append {n i : ℕ} {P : List ℕ} (hi : i < n) (hlt : ∀ x ∈ P, x < i) :
    axes2Of n P = ((List.range i).filter fun k => k ∉ P) ++ i ::
        ((List.range' (i + 1) (n - i - 1)).filter fun k => k ∉ P) ∧
      axes2Of n (P ++ [i]) = ((List.range i).filter fun k => k ∉ P) ++
        ((List.range' (i + 1) (n - i - 1)).filter fun k => k ∉ P) := by
  have hiP : i ∉ P := fun h => lt_irrefl _ (hlt i h)
  unfold axes2Of
  constructor
  · rw [range_split hi, List.filter_append, List.filter_cons_of_pos (by simpa using hiP)]
  · rw [range_split hi, List.filter_append, List.filter_cons_of_neg (by simp)]
    congr 1
    · apply List.filter_congr
      intro x hx; simp at hx
      have : x ≠ i := by omega
      simp [this]
    · apply List.filter_congr
      intro x hx; simp at hx
      have : x ≠ i := by omega
      simp [this]

/-- The loop `for n, i in enumerate(axes1): a = np.moveaxis(a, i, n)` brings the axes `axes1` to
the front. -/
theorem moveaxis_loop {n : ℕ} {dim : ℕ → ℕ} {φ : (ℕ → ℕ) → R} (Q P : List ℕ)
    (hs : (P ++ Q).Pairwise (· < ·)) (hlt : ∀ x ∈ P ++ Q, x < n) (A : Nd R)
    (hA : A.Lab (P ++ axes2Of n P) dim φ) :
    ∃ B, (Q.zipIdx P.length).foldlM (fun a p => a.moveaxis p.1 p.2) A = .ok B ∧
      B.Lab (P ++ Q ++ axes2Of n (P ++ Q)) dim φ := by
  induction Q generalizing P A with
  | nil => exact ⟨A, rfl, by simpa using hA⟩
  | cons i Q ih =>
    have hi : i < n := hlt i (by simp)
    have hPi : ∀ x ∈ P, x < i := fun x hx => (List.pairwise_append.1 hs).2.2 x hx i (by simp)
    have hPn : P.Nodup := ((List.pairwise_append.1 hs).1).imp (fun h => Nat.ne_of_lt h)
    obtain ⟨e1, e2⟩ := axes2Of_append hi hPi
    have hlen := length_filter_notMem hPn hPi
    set X := (List.range i).filter fun k => k ∉ P with hX
    set Y := (List.range' (i + 1) (n - i - 1)).filter fun k => k ∉ P with hY
    rw [e1] at hA
    have hL : P ++ (X ++ i :: Y) = (P ++ X) ++ i :: Y := by simp
    have hPX : (P ++ X).length = i := by simp; omega
    obtain ⟨B, b1, b2⟩ := hA.moveaxis (s := i) (d := P.length)
      (by simp only [List.length_append, List.length_cons] at hPX ⊢; omega)
      (by simp only [List.length_append, List.length_cons] at hPX ⊢; omega)
    have e3 : (P ++ (X ++ i :: Y)).eraseIdx i = P ++ (X ++ Y) := by
      rw [hL, List.eraseIdx_eq_take_drop_succ]
      have q1 : ((P ++ X) ++ i :: Y).take i = P ++ X := by
        rw [List.take_append_of_le_length (by omega), List.take_of_length_le (by omega)]
      have q2 : ((P ++ X) ++ i :: Y).drop (i + 1) = Y := by
        have := Nd.drop_length_succ (P ++ X) Y i
        rwa [hPX] at this
      rw [q1, q2]; simp
    have e4 : ((P ++ (X ++ i :: Y)).eraseIdx i).insertIdx P.length
        ((P ++ (X ++ i :: Y))[i]'(by simp only [List.length_append, List.length_cons] at hPX ⊢; omega)) =
        (P ++ [i]) ++ axes2Of n (P ++ [i]) := by
      have q3 : (P ++ (X ++ i :: Y))[i]'(by simp only [List.length_append, List.length_cons] at hPX ⊢; omega)
          = i := by
        have : (P ++ (X ++ i :: Y))[i]? = some i := by
          rw [hL, List.getElem?_append_right (by omega), hPX]; simp
        rw [List.getElem?_eq_getElem (by simp only [List.length_append, List.length_cons] at hPX ⊢; omega)] at this
        simpa using this
      rw [q3, e3, Tensor.insertIdx_append_length, e2]; simp
    rw [e4] at b2
    obtain ⟨C, c1, c2⟩ := ih (P ++ [i]) (by simpa using hs) (by simpa using hlt) B b2
    refine ⟨C, ?_, by simpa using c2⟩
    rw [List.zipIdx_cons, List.foldlM_cons, b1, ok_bind]
    simpa using c1

theorem shapeOn_ok {shape : List ℕ} (l : List ℕ) (h : ∀ x ∈ l, x < shape.length) :
    shapeOn shape l = .ok (l.map fun k => shape.getD k 1) := by
  unfold shapeOn
  induction l with
  | nil => rfl
  | cons x l ih =>
    rw [List.mapM_cons, ih fun y hy => h y (by simp [hy])]
    have hx := h x (by simp)
    simp [hx]

/-- Dimensions with the bond labelled `none`. -/
def dimO (r : ℕ) (dim : ℕ → ℕ) : Option ℕ → ℕ
  | none => r
  | some k => dim k

/-- The arrays computed by `split`: their axes and entries, and that they multiply to the old array
if the decomposition is exact. -/
theorem splitArrays_spec {csvd : Svd R} (hsv : SvdShape csvd) {A : Nd R} (hw : A.Wf)
    (hpos : ∀ d ∈ A.shape, 0 < d) {axes1 : List ℕ} (hs : axes1.Pairwise (· < ·))
    (hlt : ∀ x ∈ axes1, x < A.ndim) {i1 i2 : ℕ} (h1 : i1 ≤ axes1.length)
    (h2 : i2 ≤ (axes2Of A.ndim axes1).length) :
    ∃ ra ca r φ ψ,
      splitArrays csvd A axes1 (axes1.map fun k => A.shape.getD k 1)
        ((axes2Of A.ndim axes1).map fun k => A.shape.getD k 1) i1 i2 = .ok (ra, ca) ∧ 0 < r ∧
      ra.Lab (pyInsert (axes1.map some) i1 none) (dimO r fun k => A.shape.getD k 1) φ ∧
      ca.Lab (pyInsert ((axes2Of A.ndim axes1).map some) i2 none) (dimO r fun k => A.shape.getD k 1) ψ ∧
      (SvdExact csvd → ∀ f : Option ℕ → ℕ, (∀ k < A.ndim, f (some k) < A.shape.getD k 1) →
        ∑ z ∈ Finset.range r, φ (Nd.upd f none z) * ψ (Nd.upd f none z) =
          A.get ((List.range A.ndim).map fun k => f (some k))) ∧
      (∀ [StarRing R], SvdIso csvd → ∀ z w, z < r → w < r →
        sumIdx ((axes2Of A.ndim axes1).map fun k => A.shape.getD k 1) (fun p =>
          ca.get (p.insertIdx i2 z) * star (ca.get (p.insertIdx i2 w))) = if z = w then 1 else 0) := by
  set dim := fun k => A.shape.getD k 1 with hdim
  have hmem2 : ∀ k, k ∈ axes2Of A.ndim axes1 ↔ k < A.ndim ∧ k ∉ axes1 := by
    intro k; unfold axes2Of; simp
  have hdpos : ∀ k, 0 < dim k := by
    intro k
    simp only [hdim]
    by_cases hk : k < A.shape.length
    · rw [List.getD_eq_getElem _ _ hk]; exact hpos _ (List.getElem_mem hk)
    · rw [List.getD_eq_default _ _ (by omega)]; exact Nat.one_pos
  have hppos : ∀ l : List ℕ, 0 < (l.map dim).prod := by
    intro l
    induction l with
    | nil => simp
    | cons x l ih => simp only [List.map_cons, List.prod_cons]; exact Nat.mul_pos (hdpos x) ih
  have hlab0 : A.Lab ([] ++ axes2Of A.ndim []) dim (fun f => A.get ((List.range A.ndim).map f)) := by
    have : axes2Of A.ndim [] = List.range A.ndim := by unfold axes2Of; simp
    rw [this, List.nil_append]
    exact Nd.Lab.self hw
  obtain ⟨B, b1, b2⟩ := moveaxis_loop axes1 [] (by simpa using hs) (by simpa using hlt) A hlab0
  simp only [List.nil_append] at b2
  obtain ⟨M, m1, m2, m3, m4⟩ := b2.reshape_matrix
  set m := (axes1.map dim).prod with hm
  set n := ((axes2Of A.ndim axes1).map dim).prod with hn
  have hm0 : 0 < m := hppos _
  have hn0 : 0 < n := hppos _
  obtain ⟨r, u, s, vh, c1, c2, c3, c4, c5, c6, c7, c8⟩ := hsv M m n m2 m3 hm0 hn0
  obtain ⟨us, d1, d2, d3, d4⟩ := Tensor.matmul_spec u s c4 c6
  -- root array
  have er : us.reshapeInfer (axes1.map dim) [] = .ok ⟨axes1.map dim ++ [r], us.data⟩ := by
    unfold Nd.reshapeInfer
    have : us.shape.prod = m * r := by rw [d3]; simp
    simp only [List.prod_nil, Nat.mul_one, List.append_nil]
    rw [if_neg (by simp [this, ← hm]; omega)]
    rw [this, ← hm, Nat.mul_div_cancel_left r hm0]
  have lr : (⟨axes1.map dim ++ [r], us.data⟩ : Nd R).Lab (axes1.map some ++ [none]) (dimO r dim)
      (fun f => us.get [ravel (axes1.map dim) (axes1.map fun k => f (some k)), f none]) := by
    refine ⟨?_, ?_, ?_⟩
    · unfold Nd.Wf; rw [d2, d3]; simp [← hm]
    · simp [dimO, Function.comp_def]
    · intro f hf
      simp only [Nd.get, d3, List.map_append, List.map_map, List.map_cons, List.map_nil]
      rw [ravel_append (by simp)]
      simp [ravel, Function.comp_def]
  obtain ⟨ra, f1, f2⟩ := lr.moveaxis (s := axes1.length) (d := i1) (by simp) (by simp; omega)
  have lra : ((axes1.map some ++ [none]).eraseIdx axes1.length).insertIdx i1
      ((axes1.map some ++ [none])[axes1.length]'(by simp)) = pyInsert (axes1.map some) i1 none := by
    rw [pyInsert_eq_insertIdx _ _ _ (by simpa using h1)]
    have q1 : (axes1.map some ++ [(none : Option ℕ)]).eraseIdx axes1.length = axes1.map some := by
      rw [List.eraseIdx_append_of_length_le (by simp)]; simp
    have q2 : (axes1.map some ++ [(none : Option ℕ)])[axes1.length]'(by simp) = none := by
      rw [List.getElem_append_right (by simp)]; simp
    rw [q1, q2]
  rw [lra] at f2
  -- child array
  have ec : vh.reshapeInfer [] ((axes2Of A.ndim axes1).map dim) =
      .ok ⟨r :: (axes2Of A.ndim axes1).map dim, vh.data⟩ := by
    unfold Nd.reshapeInfer
    have : vh.shape.prod = r * n := by rw [c8]; simp
    simp only [List.prod_nil, Nat.one_mul, List.nil_append]
    rw [if_neg (by simp [this, ← hn]; omega)]
    rw [this, ← hn, Nat.mul_div_cancel _ hn0]; rfl
  have lc : (⟨r :: (axes2Of A.ndim axes1).map dim, vh.data⟩ : Nd R).Lab
      (none :: (axes2Of A.ndim axes1).map some) (dimO r dim)
      (fun f => vh.get [f none,
        ravel ((axes2Of A.ndim axes1).map dim) ((axes2Of A.ndim axes1).map fun k => f (some k))]) := by
    refine ⟨?_, ?_, ?_⟩
    · unfold Nd.Wf; rw [c7, c8]; simp [← hn]
    · simp [dimO, Function.comp_def]
    · intro f hf
      simp [Nd.get, c8, ravel, Function.comp_def, ← hn]
  obtain ⟨ca, g1, g2⟩ := lc.moveaxis (s := 0) (d := i2) (by simp) (by simp; omega)
  have lca : ((none :: (axes2Of A.ndim axes1).map some).eraseIdx 0).insertIdx i2
      ((none :: (axes2Of A.ndim axes1).map some)[0]'(by simp)) =
      pyInsert ((axes2Of A.ndim axes1).map some) i2 none := by
    rw [pyInsert_eq_insertIdx _ _ _ (by simpa using h2)]; simp
  rw [lca] at g2
  refine ⟨ra, ca, r, _, _, ?_, c2, f2, g2, ?_, ?_⟩
  · unfold splitArrays
    have b1' : axes1.zipIdx.foldlM (fun a p => a.moveaxis p.1 p.2) A = .ok B := b1
    rw [b1', ok_bind, m1, ok_bind, c1, ok_bind]
    simp only
    rw [d1, ok_bind, er, ok_bind]
    have : (⟨axes1.map dim ++ [r], us.data⟩ : Nd R).ndim - 1 = axes1.length := by simp [Nd.ndim]
    rw [this, f1, ok_bind, ec, ok_bind, g1, ok_bind]
    rfl
  · intro hex f hf
    have v1 : Valid (axes1.map dim) (axes1.map fun k => f (some k)) :=
      Nd.valid_map fun k hk => hf k (hlt k hk)
    have v2 : Valid ((axes2Of A.ndim axes1).map dim) ((axes2Of A.ndim axes1).map fun k => f (some k)) :=
      Nd.valid_map fun k hk => hf k ((hmem2 k).1 hk).1
    have hx := ravel_lt v1
    have hy := ravel_lt v2
    rw [← m4 (fun k => f (some k)) (by
      intro k hk
      rcases List.mem_append.1 hk with hk | hk
      · exact hf k (hlt k hk)
      · exact hf k ((hmem2 k).1 hk).1)]
    rw [← hex M m n u s vh r m2 m3 c1 c6 _ _ hx hy]
    refine Finset.sum_congr rfl fun z hz => ?_
    have hz' := Finset.mem_range.1 hz
    have q : ∀ k, Nd.upd f none z (some k) = f (some k) := fun k => Nd.upd_ne f z (by simp)
    simp only [q, Nd.upd_self]
    rw [d4 _ _ hx hz']
  · intro _ hiso z w hz hw'
    rw [← hiso M m n u s vh r m2 m3 c1 c8 z w hz hw', sumIdx_eq_sum_range]
    refine Finset.sum_congr rfl fun y hy => ?_
    have hy' := Finset.mem_range.1 hy
    have key : ∀ z < r, ca.get ((unravel ((axes2Of A.ndim axes1).map dim) y).insertIdx i2 z) =
        vh.get [z, y] := by
      intro z hz
      have hv := valid_unravel hy'
      have hnd : (axes2Of A.ndim axes1).Nodup := List.nodup_range.filter _
      -- the index as a labelling
      have hl := hv.length_eq
      rw [List.length_map] at hl
      let f : Option ℕ → ℕ := fun o => match o with
        | none => z
        | some k => (unravel ((axes2Of A.ndim axes1).map dim) y).getD ((axes2Of A.ndim axes1).idxOf k) 0
      have hfm : ((axes2Of A.ndim axes1).map fun k => f (some k)) =
          unravel ((axes2Of A.ndim axes1).map dim) y := by
        refine List.ext_getElem (by simp [hl]) fun q h1 h2 => ?_
        simp only [List.length_map] at h1
        rw [List.getElem_map]
        simp only [f]
        rw [hnd.idxOf_getElem q h1, List.getD_eq_getElem _ _ (by omega)]
      have hin : ∀ k ∈ axes2Of A.ndim axes1, f (some k) < dim k := by
        intro k hk
        have h1 := List.idxOf_lt_length_iff.2 hk
        have := hv.getD_lt (k := (axes2Of A.ndim axes1).idxOf k) (by simpa using h1) 0 1
        rw [List.getD_eq_getElem ((axes2Of A.ndim axes1).map dim) _ (by simpa using h1),
          List.getElem_map, List.getElem_idxOf h1] at this
        exact this
      have hg := g2.get f (by
        intro o ho
        rw [pyInsert_eq_insertIdx _ _ _ (by simpa using h2),
          List.mem_insertIdx (by simpa using h2)] at ho
        rcases ho with rfl | ho
        · exact hz
        · obtain ⟨k, hk, rfl⟩ := List.mem_map.1 ho
          exact hin k hk)
      rw [pyInsert_eq_insertIdx _ _ _ (by simpa using h2), Nd.map_insertIdx, List.map_map] at hg
      have hcomp : (axes2Of A.ndim axes1).map (f ∘ some) = unravel ((axes2Of A.ndim axes1).map dim) y := hfm
      rw [hcomp, hfm] at hg
      rw [hg, ravel_unravel hy']
    rw [key z hz, key w hw']

end Heap
