import Verif.Nd.Lemmas
import Verif.Nd.Ops
import Mathlib.Data.List.Dedup

/-!
`np.einsum` with two operands.
-/

open scoped BigOperators
open Py

namespace Nd

variable {R : Type} [CommRing R]

/-- The dimension of every label. -/
def einsumDims (la lb : List Char) (a b : Nd R) : List (Char × ℕ) := la.zip a.shape ++ lb.zip b.shape

/-- The dimension of a label. -/
def einsumDim (la lb : List Char) (a b : Nd R) (c : Char) : ℕ := ((einsumDims la lb a b).lookup c).getD 0

/-- The labels that are summed over. -/
def einsumLabels (la lb out : List Char) : List Char := (la ++ lb).dedup.filter (· ∉ out)

/-- `np.einsum('la,lb->out', a, b)` on admissible arguments: the sum over the indices of the labels that are not in `out` of the
products of entries. -/
def einsumCore (la lb out : List Char) (a b : Nd R) : Nd R :=
  ofFn (out.map (einsumDim la lb a b)) fun o =>
    sumIdx ((einsumLabels la lb out).map (einsumDim la lb a b)) fun s =>
      a.get (la.map fun c => (o ++ s).getD ((out ++ einsumLabels la lb out).idxOf c) 0) *
        b.get (lb.map fun c => (o ++ s).getD ((out ++ einsumLabels la lb out).idxOf c) 0)

/-- `np.einsum('la,lb->out', a, b)` with explicit labels, all different within an operand: `ValueError` if the number of labels or
the dimensions do not match. Simplification: numpy would broadcast a dimension 1 against another one. -/
def einsum (la lb out : List Char) (a b : Nd R) : Res (Nd R) :=
  if a.ndim = la.length ∧ b.ndim = lb.length ∧
      ∀ p ∈ einsumDims la lb a b, ∀ q ∈ einsumDims la lb a b, p.1 = q.1 → p.2 = q.2 then
    .ok (einsumCore la lb out a b)
  else .error .valueError

/-- `'sij,aik->sajk'` -/
theorem ein_left1 {X Y : Nd R} {a i j k s : ℕ} (hX : X.shape = [s, i, j]) (hY : Y.shape = [a, i, k]) :
    ∃ Z, einsum ['s', 'i', 'j'] ['a', 'i', 'k'] ['s', 'a', 'j', 'k'] X Y = .ok Z ∧ Z.Wf ∧ Z.shape = [s, a, j, k] ∧
      ∀ s' < s, ∀ a' < a, ∀ j' < j, ∀ k' < k, Z.get [s', a', j', k'] =
        ∑ i' ∈ Finset.range i, X.get [s', i', j'] * Y.get [a', i', k'] := by
  have hlab : einsumLabels ['s', 'i', 'j'] ['a', 'i', 'k'] ['s', 'a', 'j', 'k'] = ['i'] := by decide
  have hsh : ['s', 'a', 'j', 'k'].map (einsumDim ['s', 'i', 'j'] ['a', 'i', 'k'] X Y) = [s, a, j, k] := by
    simp [einsumDim, einsumDims, hX, hY, List.lookup]
  refine ⟨einsumCore ['s', 'i', 'j'] ['a', 'i', 'k'] ['s', 'a', 'j', 'k'] X Y, ?_, ofFn_wf _ _, hsh, ?_⟩
  · unfold einsum
    rw [if_pos]
    simp [einsumDims, hX, hY, Nd.ndim]
  · intro s' hs a' ha j' hj k' hk
    unfold einsumCore
    rw [hsh, hlab]
    refine (get_ofFn _ ?_).trans ?_
    · simp [Valid, *]
    · simp [einsumDim, einsumDims, hX, hY, List.lookup, sumIdx, List.idxOf, List.findIdx_cons]

/-- `'sajk,abst->tbjk'` -/
theorem ein_left2 {X Y : Nd R} {a b j k s t : ℕ} (hX : X.shape = [s, a, j, k]) (hY : Y.shape = [a, b, s, t]) :
    ∃ Z, einsum ['s', 'a', 'j', 'k'] ['a', 'b', 's', 't'] ['t', 'b', 'j', 'k'] X Y = .ok Z ∧ Z.Wf ∧ Z.shape = [t, b, j, k] ∧
      ∀ t' < t, ∀ b' < b, ∀ j' < j, ∀ k' < k, Z.get [t', b', j', k'] =
        ∑ a' ∈ Finset.range a, ∑ s' ∈ Finset.range s, X.get [s', a', j', k'] * Y.get [a', b', s', t'] := by
  have hlab : einsumLabels ['s', 'a', 'j', 'k'] ['a', 'b', 's', 't'] ['t', 'b', 'j', 'k'] = ['a', 's'] := by decide
  have hsh : ['t', 'b', 'j', 'k'].map (einsumDim ['s', 'a', 'j', 'k'] ['a', 'b', 's', 't'] X Y) = [t, b, j, k] := by
    simp [einsumDim, einsumDims, hX, hY, List.lookup]
  refine ⟨einsumCore ['s', 'a', 'j', 'k'] ['a', 'b', 's', 't'] ['t', 'b', 'j', 'k'] X Y, ?_, ofFn_wf _ _, hsh, ?_⟩
  · unfold einsum
    rw [if_pos]
    simp [einsumDims, hX, hY, Nd.ndim]
  · intro t' ht b' hb j' hj k' hk
    unfold einsumCore
    rw [hsh, hlab]
    refine (get_ofFn _ ?_).trans ?_
    · simp [Valid, *]
    · simp [einsumDim, einsumDims, hX, hY, List.lookup, sumIdx, List.idxOf, List.findIdx_cons]

/-- `'tbjk,tkl->bjl'` -/
theorem ein_left3 {X Y : Nd R} {b j k l t : ℕ} (hX : X.shape = [t, b, j, k]) (hY : Y.shape = [t, k, l]) :
    ∃ Z, einsum ['t', 'b', 'j', 'k'] ['t', 'k', 'l'] ['b', 'j', 'l'] X Y = .ok Z ∧ Z.Wf ∧ Z.shape = [b, j, l] ∧
      ∀ b' < b, ∀ j' < j, ∀ l' < l, Z.get [b', j', l'] =
        ∑ t' ∈ Finset.range t, ∑ k' ∈ Finset.range k, X.get [t', b', j', k'] * Y.get [t', k', l'] := by
  have hlab : einsumLabels ['t', 'b', 'j', 'k'] ['t', 'k', 'l'] ['b', 'j', 'l'] = ['t', 'k'] := by decide
  have hsh : ['b', 'j', 'l'].map (einsumDim ['t', 'b', 'j', 'k'] ['t', 'k', 'l'] X Y) = [b, j, l] := by
    simp [einsumDim, einsumDims, hX, hY, List.lookup]
  refine ⟨einsumCore ['t', 'b', 'j', 'k'] ['t', 'k', 'l'] ['b', 'j', 'l'] X Y, ?_, ofFn_wf _ _, hsh, ?_⟩
  · unfold einsum
    rw [if_pos]
    simp [einsumDims, hX, hY, Nd.ndim]
  · intro b' hb j' hj l' hl
    unfold einsumCore
    rw [hsh, hlab]
    refine (get_ofFn _ ?_).trans ?_
    · simp [Valid, *]
    · simp [einsumDim, einsumDims, hX, hY, List.lookup, sumIdx, List.idxOf, List.findIdx_cons]

/-- `'sij,ik->sjk'` -/
theorem ein_left4 {X Y : Nd R} {i j k s : ℕ} (hX : X.shape = [s, i, j]) (hY : Y.shape = [i, k]) :
    ∃ Z, einsum ['s', 'i', 'j'] ['i', 'k'] ['s', 'j', 'k'] X Y = .ok Z ∧ Z.Wf ∧ Z.shape = [s, j, k] ∧
      ∀ s' < s, ∀ j' < j, ∀ k' < k, Z.get [s', j', k'] =
        ∑ i' ∈ Finset.range i, X.get [s', i', j'] * Y.get [i', k'] := by
  have hlab : einsumLabels ['s', 'i', 'j'] ['i', 'k'] ['s', 'j', 'k'] = ['i'] := by decide
  have hsh : ['s', 'j', 'k'].map (einsumDim ['s', 'i', 'j'] ['i', 'k'] X Y) = [s, j, k] := by
    simp [einsumDim, einsumDims, hX, hY, List.lookup]
  refine ⟨einsumCore ['s', 'i', 'j'] ['i', 'k'] ['s', 'j', 'k'] X Y, ?_, ofFn_wf _ _, hsh, ?_⟩
  · unfold einsum
    rw [if_pos]
    simp [einsumDims, hX, hY, Nd.ndim]
  · intro s' hs j' hj k' hk
    unfold einsumCore
    rw [hsh, hlab]
    refine (get_ofFn _ ?_).trans ?_
    · simp [Valid, *]
    · simp [einsumDim, einsumDims, hX, hY, List.lookup, sumIdx, List.idxOf, List.findIdx_cons]

/-- `'sjk,skl->jl'` -/
theorem ein_left5 {X Y : Nd R} {j k l s : ℕ} (hX : X.shape = [s, j, k]) (hY : Y.shape = [s, k, l]) :
    ∃ Z, einsum ['s', 'j', 'k'] ['s', 'k', 'l'] ['j', 'l'] X Y = .ok Z ∧ Z.Wf ∧ Z.shape = [j, l] ∧
      ∀ j' < j, ∀ l' < l, Z.get [j', l'] =
        ∑ s' ∈ Finset.range s, ∑ k' ∈ Finset.range k, X.get [s', j', k'] * Y.get [s', k', l'] := by
  have hlab : einsumLabels ['s', 'j', 'k'] ['s', 'k', 'l'] ['j', 'l'] = ['s', 'k'] := by decide
  have hsh : ['j', 'l'].map (einsumDim ['s', 'j', 'k'] ['s', 'k', 'l'] X Y) = [j, l] := by
    simp [einsumDim, einsumDims, hX, hY, List.lookup]
  refine ⟨einsumCore ['s', 'j', 'k'] ['s', 'k', 'l'] ['j', 'l'] X Y, ?_, ofFn_wf _ _, hsh, ?_⟩
  · unfold einsum
    rw [if_pos]
    simp [einsumDims, hX, hY, Nd.ndim]
  · intro j' hj l' hl
    unfold einsumCore
    rw [hsh, hlab]
    refine (get_ofFn _ ?_).trans ?_
    · simp [Valid, *]
    · simp [einsumDim, einsumDims, hX, hY, List.lookup, sumIdx, List.idxOf, List.findIdx_cons]

/-- `'sij,bjl->sbil'` -/
theorem ein_right1 {X Y : Nd R} {b i j l s : ℕ} (hX : X.shape = [s, i, j]) (hY : Y.shape = [b, j, l]) :
    ∃ Z, einsum ['s', 'i', 'j'] ['b', 'j', 'l'] ['s', 'b', 'i', 'l'] X Y = .ok Z ∧ Z.Wf ∧ Z.shape = [s, b, i, l] ∧
      ∀ s' < s, ∀ b' < b, ∀ i' < i, ∀ l' < l, Z.get [s', b', i', l'] =
        ∑ j' ∈ Finset.range j, X.get [s', i', j'] * Y.get [b', j', l'] := by
  have hlab : einsumLabels ['s', 'i', 'j'] ['b', 'j', 'l'] ['s', 'b', 'i', 'l'] = ['j'] := by decide
  have hsh : ['s', 'b', 'i', 'l'].map (einsumDim ['s', 'i', 'j'] ['b', 'j', 'l'] X Y) = [s, b, i, l] := by
    simp [einsumDim, einsumDims, hX, hY, List.lookup]
  refine ⟨einsumCore ['s', 'i', 'j'] ['b', 'j', 'l'] ['s', 'b', 'i', 'l'] X Y, ?_, ofFn_wf _ _, hsh, ?_⟩
  · unfold einsum
    rw [if_pos]
    simp [einsumDims, hX, hY, Nd.ndim]
  · intro s' hs b' hb i' hi l' hl
    unfold einsumCore
    rw [hsh, hlab]
    refine (get_ofFn _ ?_).trans ?_
    · simp [Valid, *]
    · simp [einsumDim, einsumDims, hX, hY, List.lookup, sumIdx, List.idxOf, List.findIdx_cons]

/-- `'sbil,abst->tail'` -/
theorem ein_right2 {X Y : Nd R} {a b i l s t : ℕ} (hX : X.shape = [s, b, i, l]) (hY : Y.shape = [a, b, s, t]) :
    ∃ Z, einsum ['s', 'b', 'i', 'l'] ['a', 'b', 's', 't'] ['t', 'a', 'i', 'l'] X Y = .ok Z ∧ Z.Wf ∧ Z.shape = [t, a, i, l] ∧
      ∀ t' < t, ∀ a' < a, ∀ i' < i, ∀ l' < l, Z.get [t', a', i', l'] =
        ∑ b' ∈ Finset.range b, ∑ s' ∈ Finset.range s, X.get [s', b', i', l'] * Y.get [a', b', s', t'] := by
  have hlab : einsumLabels ['s', 'b', 'i', 'l'] ['a', 'b', 's', 't'] ['t', 'a', 'i', 'l'] = ['b', 's'] := by decide
  have hsh : ['t', 'a', 'i', 'l'].map (einsumDim ['s', 'b', 'i', 'l'] ['a', 'b', 's', 't'] X Y) = [t, a, i, l] := by
    simp [einsumDim, einsumDims, hX, hY, List.lookup]
  refine ⟨einsumCore ['s', 'b', 'i', 'l'] ['a', 'b', 's', 't'] ['t', 'a', 'i', 'l'] X Y, ?_, ofFn_wf _ _, hsh, ?_⟩
  · unfold einsum
    rw [if_pos]
    simp [einsumDims, hX, hY, Nd.ndim]
  · intro t' ht a' ha i' hi l' hl
    unfold einsumCore
    rw [hsh, hlab]
    refine (get_ofFn _ ?_).trans ?_
    · simp [Valid, *]
    · simp [einsumDim, einsumDims, hX, hY, List.lookup, sumIdx, List.idxOf, List.findIdx_cons]

/-- `'tail,tkl->aik'` -/
theorem ein_right3 {X Y : Nd R} {a i k l t : ℕ} (hX : X.shape = [t, a, i, l]) (hY : Y.shape = [t, k, l]) :
    ∃ Z, einsum ['t', 'a', 'i', 'l'] ['t', 'k', 'l'] ['a', 'i', 'k'] X Y = .ok Z ∧ Z.Wf ∧ Z.shape = [a, i, k] ∧
      ∀ a' < a, ∀ i' < i, ∀ k' < k, Z.get [a', i', k'] =
        ∑ t' ∈ Finset.range t, ∑ l' ∈ Finset.range l, X.get [t', a', i', l'] * Y.get [t', k', l'] := by
  have hlab : einsumLabels ['t', 'a', 'i', 'l'] ['t', 'k', 'l'] ['a', 'i', 'k'] = ['t', 'l'] := by decide
  have hsh : ['a', 'i', 'k'].map (einsumDim ['t', 'a', 'i', 'l'] ['t', 'k', 'l'] X Y) = [a, i, k] := by
    simp [einsumDim, einsumDims, hX, hY, List.lookup]
  refine ⟨einsumCore ['t', 'a', 'i', 'l'] ['t', 'k', 'l'] ['a', 'i', 'k'] X Y, ?_, ofFn_wf _ _, hsh, ?_⟩
  · unfold einsum
    rw [if_pos]
    simp [einsumDims, hX, hY, Nd.ndim]
  · intro a' ha i' hi k' hk
    unfold einsumCore
    rw [hsh, hlab]
    refine (get_ofFn _ ?_).trans ?_
    · simp [Valid, *]
    · simp [einsumDim, einsumDims, hX, hY, List.lookup, sumIdx, List.idxOf, List.findIdx_cons]

/-- `'sij,jl->sil'` -/
theorem ein_right4 {X Y : Nd R} {i j l s : ℕ} (hX : X.shape = [s, i, j]) (hY : Y.shape = [j, l]) :
    ∃ Z, einsum ['s', 'i', 'j'] ['j', 'l'] ['s', 'i', 'l'] X Y = .ok Z ∧ Z.Wf ∧ Z.shape = [s, i, l] ∧
      ∀ s' < s, ∀ i' < i, ∀ l' < l, Z.get [s', i', l'] =
        ∑ j' ∈ Finset.range j, X.get [s', i', j'] * Y.get [j', l'] := by
  have hlab : einsumLabels ['s', 'i', 'j'] ['j', 'l'] ['s', 'i', 'l'] = ['j'] := by decide
  have hsh : ['s', 'i', 'l'].map (einsumDim ['s', 'i', 'j'] ['j', 'l'] X Y) = [s, i, l] := by
    simp [einsumDim, einsumDims, hX, hY, List.lookup]
  refine ⟨einsumCore ['s', 'i', 'j'] ['j', 'l'] ['s', 'i', 'l'] X Y, ?_, ofFn_wf _ _, hsh, ?_⟩
  · unfold einsum
    rw [if_pos]
    simp [einsumDims, hX, hY, Nd.ndim]
  · intro s' hs i' hi l' hl
    unfold einsumCore
    rw [hsh, hlab]
    refine (get_ofFn _ ?_).trans ?_
    · simp [Valid, *]
    · simp [einsumDim, einsumDims, hX, hY, List.lookup, sumIdx, List.idxOf, List.findIdx_cons]

/-- `'sil,skl->ik'` -/
theorem ein_right5 {X Y : Nd R} {i k l s : ℕ} (hX : X.shape = [s, i, l]) (hY : Y.shape = [s, k, l]) :
    ∃ Z, einsum ['s', 'i', 'l'] ['s', 'k', 'l'] ['i', 'k'] X Y = .ok Z ∧ Z.Wf ∧ Z.shape = [i, k] ∧
      ∀ i' < i, ∀ k' < k, Z.get [i', k'] =
        ∑ s' ∈ Finset.range s, ∑ l' ∈ Finset.range l, X.get [s', i', l'] * Y.get [s', k', l'] := by
  have hlab : einsumLabels ['s', 'i', 'l'] ['s', 'k', 'l'] ['i', 'k'] = ['s', 'l'] := by decide
  have hsh : ['i', 'k'].map (einsumDim ['s', 'i', 'l'] ['s', 'k', 'l'] X Y) = [i, k] := by
    simp [einsumDim, einsumDims, hX, hY, List.lookup]
  refine ⟨einsumCore ['s', 'i', 'l'] ['s', 'k', 'l'] ['i', 'k'] X Y, ?_, ofFn_wf _ _, hsh, ?_⟩
  · unfold einsum
    rw [if_pos]
    simp [einsumDims, hX, hY, Nd.ndim]
  · intro i' hi k' hk
    unfold einsumCore
    rw [hsh, hlab]
    refine (get_ofFn _ ?_).trans ?_
    · simp [Valid, *]
    · simp [einsumDim, einsumDims, hX, hY, List.lookup, sumIdx, List.idxOf, List.findIdx_cons]

/-- `'aij,sik->ajsk'` -/
theorem ein_env1 {X Y : Nd R} {a i j k s : ℕ} (hX : X.shape = [a, i, j]) (hY : Y.shape = [s, i, k]) :
    ∃ Z, einsum ['a', 'i', 'j'] ['s', 'i', 'k'] ['a', 'j', 's', 'k'] X Y = .ok Z ∧ Z.Wf ∧ Z.shape = [a, j, s, k] ∧
      ∀ a' < a, ∀ j' < j, ∀ s' < s, ∀ k' < k, Z.get [a', j', s', k'] =
        ∑ i' ∈ Finset.range i, X.get [a', i', j'] * Y.get [s', i', k'] := by
  have hlab : einsumLabels ['a', 'i', 'j'] ['s', 'i', 'k'] ['a', 'j', 's', 'k'] = ['i'] := by decide
  have hsh : ['a', 'j', 's', 'k'].map (einsumDim ['a', 'i', 'j'] ['s', 'i', 'k'] X Y) = [a, j, s, k] := by
    simp [einsumDim, einsumDims, hX, hY, List.lookup]
  refine ⟨einsumCore ['a', 'i', 'j'] ['s', 'i', 'k'] ['a', 'j', 's', 'k'] X Y, ?_, ofFn_wf _ _, hsh, ?_⟩
  · unfold einsum
    rw [if_pos]
    simp [einsumDims, hX, hY, Nd.ndim]
  · intro a' ha j' hj s' hs k' hk
    unfold einsumCore
    rw [hsh, hlab]
    refine (get_ofFn _ ?_).trans ?_
    · simp [Valid, *]
    · simp [einsumDim, einsumDims, hX, hY, List.lookup, sumIdx, List.idxOf, List.findIdx_cons]

/-- `'ajsk,abst->bjtk'` -/
theorem ein_env2 {X Y : Nd R} {a b j k s t : ℕ} (hX : X.shape = [a, j, s, k]) (hY : Y.shape = [a, b, s, t]) :
    ∃ Z, einsum ['a', 'j', 's', 'k'] ['a', 'b', 's', 't'] ['b', 'j', 't', 'k'] X Y = .ok Z ∧ Z.Wf ∧ Z.shape = [b, j, t, k] ∧
      ∀ b' < b, ∀ j' < j, ∀ t' < t, ∀ k' < k, Z.get [b', j', t', k'] =
        ∑ a' ∈ Finset.range a, ∑ s' ∈ Finset.range s, X.get [a', j', s', k'] * Y.get [a', b', s', t'] := by
  have hlab : einsumLabels ['a', 'j', 's', 'k'] ['a', 'b', 's', 't'] ['b', 'j', 't', 'k'] = ['a', 's'] := by decide
  have hsh : ['b', 'j', 't', 'k'].map (einsumDim ['a', 'j', 's', 'k'] ['a', 'b', 's', 't'] X Y) = [b, j, t, k] := by
    simp [einsumDim, einsumDims, hX, hY, List.lookup]
  refine ⟨einsumCore ['a', 'j', 's', 'k'] ['a', 'b', 's', 't'] ['b', 'j', 't', 'k'] X Y, ?_, ofFn_wf _ _, hsh, ?_⟩
  · unfold einsum
    rw [if_pos]
    simp [einsumDims, hX, hY, Nd.ndim]
  · intro b' hb j' hj t' ht k' hk
    unfold einsumCore
    rw [hsh, hlab]
    refine (get_ofFn _ ?_).trans ?_
    · simp [Valid, *]
    · simp [einsumDim, einsumDims, hX, hY, List.lookup, sumIdx, List.idxOf, List.findIdx_cons]

/-- `'bjtk,bkl->tjl'` -/
theorem ein_env3 {X Y : Nd R} {b j k l t : ℕ} (hX : X.shape = [b, j, t, k]) (hY : Y.shape = [b, k, l]) :
    ∃ Z, einsum ['b', 'j', 't', 'k'] ['b', 'k', 'l'] ['t', 'j', 'l'] X Y = .ok Z ∧ Z.Wf ∧ Z.shape = [t, j, l] ∧
      ∀ t' < t, ∀ j' < j, ∀ l' < l, Z.get [t', j', l'] =
        ∑ b' ∈ Finset.range b, ∑ k' ∈ Finset.range k, X.get [b', j', t', k'] * Y.get [b', k', l'] := by
  have hlab : einsumLabels ['b', 'j', 't', 'k'] ['b', 'k', 'l'] ['t', 'j', 'l'] = ['b', 'k'] := by decide
  have hsh : ['t', 'j', 'l'].map (einsumDim ['b', 'j', 't', 'k'] ['b', 'k', 'l'] X Y) = [t, j, l] := by
    simp [einsumDim, einsumDims, hX, hY, List.lookup]
  refine ⟨einsumCore ['b', 'j', 't', 'k'] ['b', 'k', 'l'] ['t', 'j', 'l'] X Y, ?_, ofFn_wf _ _, hsh, ?_⟩
  · unfold einsum
    rw [if_pos]
    simp [einsumDims, hX, hY, Nd.ndim]
  · intro t' ht j' hj l' hl
    unfold einsumCore
    rw [hsh, hlab]
    refine (get_ofFn _ ?_).trans ?_
    · simp [Valid, *]
    · simp [einsumDim, einsumDims, hX, hY, List.lookup, sumIdx, List.idxOf, List.findIdx_cons]

/-- `'mj,tjk->tmk'` -/
theorem ein_move1 {X Y : Nd R} {j k m t : ℕ} (hX : X.shape = [m, j]) (hY : Y.shape = [t, j, k]) :
    ∃ Z, einsum ['m', 'j'] ['t', 'j', 'k'] ['t', 'm', 'k'] X Y = .ok Z ∧ Z.Wf ∧ Z.shape = [t, m, k] ∧
      ∀ t' < t, ∀ m' < m, ∀ k' < k, Z.get [t', m', k'] =
        ∑ j' ∈ Finset.range j, X.get [m', j'] * Y.get [t', j', k'] := by
  have hlab : einsumLabels ['m', 'j'] ['t', 'j', 'k'] ['t', 'm', 'k'] = ['j'] := by decide
  have hsh : ['t', 'm', 'k'].map (einsumDim ['m', 'j'] ['t', 'j', 'k'] X Y) = [t, m, k] := by
    simp [einsumDim, einsumDims, hX, hY, List.lookup]
  refine ⟨einsumCore ['m', 'j'] ['t', 'j', 'k'] ['t', 'm', 'k'] X Y, ?_, ofFn_wf _ _, hsh, ?_⟩
  · unfold einsum
    rw [if_pos]
    simp [einsumDims, hX, hY, Nd.ndim]
  · intro t' ht m' hm k' hk
    unfold einsumCore
    rw [hsh, hlab]
    refine (get_ofFn _ ?_).trans ?_
    · simp [Valid, *]
    · simp [einsumDim, einsumDims, hX, hY, List.lookup, sumIdx, List.idxOf, List.findIdx_cons]

/-- `'rhi,im->rhm'` -/
theorem ein_move2 {X Y : Nd R} {h i m r : ℕ} (hX : X.shape = [r, h, i]) (hY : Y.shape = [i, m]) :
    ∃ Z, einsum ['r', 'h', 'i'] ['i', 'm'] ['r', 'h', 'm'] X Y = .ok Z ∧ Z.Wf ∧ Z.shape = [r, h, m] ∧
      ∀ r' < r, ∀ h' < h, ∀ m' < m, Z.get [r', h', m'] =
        ∑ i' ∈ Finset.range i, X.get [r', h', i'] * Y.get [i', m'] := by
  have hlab : einsumLabels ['r', 'h', 'i'] ['i', 'm'] ['r', 'h', 'm'] = ['i'] := by decide
  have hsh : ['r', 'h', 'm'].map (einsumDim ['r', 'h', 'i'] ['i', 'm'] X Y) = [r, h, m] := by
    simp [einsumDim, einsumDims, hX, hY, List.lookup]
  refine ⟨einsumCore ['r', 'h', 'i'] ['i', 'm'] ['r', 'h', 'm'] X Y, ?_, ofFn_wf _ _, hsh, ?_⟩
  · unfold einsum
    rw [if_pos]
    simp [einsumDims, hX, hY, Nd.ndim]
  · intro r' hr h' hh m' hm
    unfold einsumCore
    rw [hsh, hlab]
    refine (get_ofFn _ ?_).trans ?_
    · simp [Valid, *]
    · simp [einsumDim, einsumDims, hX, hY, List.lookup, sumIdx, List.idxOf, List.findIdx_cons]

/-- `'sij,tjk->stik'` -/
theorem ein_cgmps {X Y : Nd R} {i j k s t : ℕ} (hX : X.shape = [s, i, j]) (hY : Y.shape = [t, j, k]) :
    ∃ Z, einsum ['s', 'i', 'j'] ['t', 'j', 'k'] ['s', 't', 'i', 'k'] X Y = .ok Z ∧ Z.Wf ∧ Z.shape = [s, t, i, k] ∧
      ∀ s' < s, ∀ t' < t, ∀ i' < i, ∀ k' < k, Z.get [s', t', i', k'] =
        ∑ j' ∈ Finset.range j, X.get [s', i', j'] * Y.get [t', j', k'] := by
  have hlab : einsumLabels ['s', 'i', 'j'] ['t', 'j', 'k'] ['s', 't', 'i', 'k'] = ['j'] := by decide
  have hsh : ['s', 't', 'i', 'k'].map (einsumDim ['s', 'i', 'j'] ['t', 'j', 'k'] X Y) = [s, t, i, k] := by
    simp [einsumDim, einsumDims, hX, hY, List.lookup]
  refine ⟨einsumCore ['s', 'i', 'j'] ['t', 'j', 'k'] ['s', 't', 'i', 'k'] X Y, ?_, ofFn_wf _ _, hsh, ?_⟩
  · unfold einsum
    rw [if_pos]
    simp [einsumDims, hX, hY, Nd.ndim]
  · intro s' hs t' ht i' hi k' hk
    unfold einsumCore
    rw [hsh, hlab]
    refine (get_ofFn _ ?_).trans ?_
    · simp [Valid, *]
    · simp [einsumDim, einsumDims, hX, hY, List.lookup, sumIdx, List.idxOf, List.findIdx_cons]

/-- `'abst,bcuv->acsutv'` -/
theorem ein_cgmpo {X Y : Nd R} {a b c s t u v : ℕ} (hX : X.shape = [a, b, s, t]) (hY : Y.shape = [b, c, u, v]) :
    ∃ Z, einsum ['a', 'b', 's', 't'] ['b', 'c', 'u', 'v'] ['a', 'c', 's', 'u', 't', 'v'] X Y = .ok Z ∧ Z.Wf ∧ Z.shape = [a, c, s, u, t, v] ∧
      ∀ a' < a, ∀ c' < c, ∀ s' < s, ∀ u' < u, ∀ t' < t, ∀ v' < v, Z.get [a', c', s', u', t', v'] =
        ∑ b' ∈ Finset.range b, X.get [a', b', s', t'] * Y.get [b', c', u', v'] := by
  have hlab : einsumLabels ['a', 'b', 's', 't'] ['b', 'c', 'u', 'v'] ['a', 'c', 's', 'u', 't', 'v'] = ['b'] := by decide
  have hsh : ['a', 'c', 's', 'u', 't', 'v'].map (einsumDim ['a', 'b', 's', 't'] ['b', 'c', 'u', 'v'] X Y) = [a, c, s, u, t, v] := by
    simp [einsumDim, einsumDims, hX, hY, List.lookup]
  refine ⟨einsumCore ['a', 'b', 's', 't'] ['b', 'c', 'u', 'v'] ['a', 'c', 's', 'u', 't', 'v'] X Y, ?_, ofFn_wf _ _, hsh, ?_⟩
  · unfold einsum
    rw [if_pos]
    simp [einsumDims, hX, hY, Nd.ndim]
  · intro a' ha c' hc s' hs u' hu t' ht v' hv
    unfold einsumCore
    rw [hsh, hlab]
    refine (get_ofFn _ ?_).trans ?_
    · simp [Valid, *]
    · simp [einsumDim, einsumDims, hX, hY, List.lookup, sumIdx, List.idxOf, List.findIdx_cons]

end Nd
