import Verif.Model.Dvr
import Verif.Nd.Lemmas
import Verif.Py.Lemmas
import Mathlib.Algebra.Order.Ring.Nat
import Mathlib.Algebra.Ring.Int.Defs
import Mathlib.Algebra.BigOperators.Group.List.Lemmas

/-!
C51: packing and unpacking the MCTDH state vector.
-/

namespace Mctdh

open Py

variable {α : Type}

private theorem reshape_ok {sub : List α} {sh : List ℕ} (h : sub.length = sh.prod) :
    (⟨[sub.length], sub⟩ : Nd α).reshape sh = .ok ⟨sh, sub⟩ := by
  unfold Nd.reshape
  rw [if_pos (by simpa using h)]

private theorem getSubVec_nat (shapes : List (List ℕ)) {i : ℕ} (hi : i < shapes.length) (vec : List α) (b : List α)
    (hb : slice vec (((sizeList shapes).take i).sum) (((sizeList shapes).take (i + 1)).sum) = b)
    (hl : b.length = (shapes.getD i []).prod) :
    getSubVec shapes (i : ℤ) vec = .ok ⟨shapes.getD i [], b⟩ := by
  have hn : (sizeList shapes).length = shapes.length := by simp [sizeList]
  unfold getSubVec
  simp only [hn]
  rw [if_neg (by omega), show ((i : ℤ) % (shapes.length : ℤ)).toNat = i by
    rw [Int.emod_eq_of_lt (by omega) (by omega)]; simp, hb]
  exact reshape_ok hl

/-- Negative block indices count from the end; more generally only `i` modulo the number of blocks matters. -/
theorem C51_negative (shapes : List (List ℕ)) (i : ℤ) (vec : List α) :
    getSubVec shapes (i - shapes.length) vec = getSubVec shapes i vec := by
  unfold getSubVec
  have hn : (sizeList shapes).length = shapes.length := by simp [sizeList]
  simp only [hn, Int.sub_emod_right]

private theorem slice_flatten (bs : List (List α)) : ∀ i < bs.length,
    slice bs.flatten (((bs.map List.length).take i).sum) (((bs.map List.length).take (i + 1)).sum) = bs.getD i [] := by
  induction bs with
  | nil => intro i hi; simp at hi
  | cons b bs ih =>
    intro i hi
    cases i with
    | zero => simp [slice]
    | succ i =>
      have hi' : i < bs.length := by simpa using hi
      have := ih i hi'
      simp only [slice, List.flatten_cons, List.map_cons, List.take_succ_cons, List.sum_cons] at this ⊢
      rw [List.take_length_add_append, List.drop_length_add_append, this]
      simp

/-- Unpacking a concatenation of blocks gives back each block. -/
theorem C51_unpack_pack (blocks : List (Nd α)) (hw : ∀ b ∈ blocks, b.Wf) (i : ℕ) (hi : i < blocks.length) :
    getSubVec (blocks.map Nd.shape) (i : ℤ) (concatenate blocks) = .ok blocks[i] := by
  have hsz : sizeList (blocks.map Nd.shape) = (blocks.map Nd.data).map List.length := by
    simp only [sizeList, List.map_map]
    exact List.map_congr_left fun b hb => (hw b hb).symm
  have h1 := slice_flatten (blocks.map Nd.data) i (by simpa using hi)
  have e1 : (blocks.map Nd.data).getD i [] = blocks[i].data := by
    rw [List.getD_eq_getElem?_getD, List.getElem?_map, List.getElem?_eq_getElem hi]; rfl
  have e2 : (blocks.map Nd.shape).getD i [] = blocks[i].shape := by
    rw [List.getD_eq_getElem?_getD, List.getElem?_map, List.getElem?_eq_getElem hi]; rfl
  rw [getSubVec_nat _ (by simpa using hi) _ blocks[i].data (by rw [hsz]; exact h1.trans e1)
    (by rw [e2]; exact hw _ (List.getElem_mem _)), e2]

/-- Unpacking by a negative index: block `-k` is the `k`-th from the end. -/
theorem C51_from_end (blocks : List (Nd α)) (hw : ∀ b ∈ blocks, b.Wf) (k : ℕ) (h0 : 0 < k) (hk : k ≤ blocks.length) :
    getSubVec (blocks.map Nd.shape) (-(k : ℤ)) (concatenate blocks) =
      .ok (blocks[blocks.length - k]'(by omega)) := by
  have h := C51_negative (blocks.map Nd.shape) ((blocks.length - k : ℕ) : ℤ) (concatenate blocks)
  rw [C51_unpack_pack blocks hw (blocks.length - k) (by omega)] at h
  rw [← h]
  congr 1
  simp only [List.length_map]
  omega

/-- Cutting a vector at its block boundaries. -/
private theorem cut (sizes : List ℕ) : ∀ vec : List α, vec.length = sizes.sum →
    ∃ bs : List (List α), bs.flatten = vec ∧ bs.map List.length = sizes := by
  induction sizes with
  | nil => intro vec h; exact ⟨[], by simp at h; simp [h], rfl⟩
  | cons n ns ih =>
    intro vec h
    simp only [List.sum_cons] at h
    obtain ⟨bs, h1, h2⟩ := ih (vec.drop n) (by simp; omega)
    refine ⟨vec.take n :: bs, by simp [h1], ?_⟩
    simp only [List.map_cons, h2, List.length_take]
    rw [Nat.min_eq_left (by omega)]

/-- Unpacking a vector of the right size into all its blocks and packing them again gives the vector; the blocks have
the shapes of the list. -/
theorem C51_pack_unpack (shapes : List (List ℕ)) (vec : List α) (hl : vec.length = (sizeList shapes).sum) :
    ∃ blocks, (List.range shapes.length).mapM (fun i : ℕ => getSubVec shapes (i : ℤ) vec) = .ok blocks ∧
      blocks.map Nd.shape = shapes ∧ (∀ b ∈ blocks, b.Wf) ∧ concatenate blocks = vec := by
  obtain ⟨bs, h1, h2⟩ := cut (sizeList shapes) vec hl
  have hlen : bs.length = shapes.length := by
    have := congrArg List.length h2; simpa [sizeList] using this
  set blocks := (List.range shapes.length).map fun i => (⟨shapes.getD i [], bs.getD i []⟩ : Nd α) with hb
  have hlb : blocks.length = shapes.length := by simp [hb]
  have hsh : blocks.map Nd.shape = shapes := by
    rw [hb, List.map_map]
    refine List.ext_getElem (by simp) fun i h3 h4 => ?_
    simp [List.getElem?_eq_getElem h4]
  have hdat : blocks.map Nd.data = bs := by
    rw [hb, List.map_map]
    refine List.ext_getElem (by simp [hlen]) fun i h3 h4 => ?_
    simp [List.getElem?_eq_getElem h4]
  have hwf : ∀ b ∈ blocks, b.Wf := by
    intro b hbm
    obtain ⟨i, hi, rfl⟩ := List.getElem_of_mem hbm
    have e1 : (blocks[i]).data.length = (bs.map List.length).getD i 0 := by
      simp only [← hdat, List.getD_eq_getElem?_getD, List.getElem?_map, List.getElem?_eq_getElem hi]; rfl
    have e2 : (sizeList shapes).getD i 0 = (blocks[i]).shape.prod := by
      simp only [sizeList]
      conv_lhs => rw [← hsh]
      simp only [List.getD_eq_getElem?_getD, List.getElem?_map, List.getElem?_eq_getElem hi]; rfl
    unfold Nd.Wf
    rw [e1, h2, e2]
  have hcat : concatenate blocks = vec := by unfold concatenate; rw [hdat, h1]
  refine ⟨blocks, ?_, hsh, hwf, hcat⟩
  have key : ∀ l : List ℕ, (∀ i ∈ l, i < shapes.length) →
      l.mapM (fun i : ℕ => getSubVec shapes (i : ℤ) vec) = .ok (l.map fun i => (⟨shapes.getD i [], bs.getD i []⟩ : Nd α)) := by
    intro l
    induction l with
    | nil => intro _; rfl
    | cons i l ih =>
      intro hmem
      rw [List.mapM_cons, ih (fun j hj => hmem j (List.mem_cons_of_mem _ hj))]
      have hi := hmem i List.mem_cons_self
      have hu := C51_unpack_pack blocks hwf i (by omega)
      rw [hsh, hcat] at hu
      rw [hu]
      simp [hb, pure, Except.pure]
  exact key _ fun i hi => by simpa using hi

/-- A vector that ends before the block does raises `ValueError` (from `reshape`). -/
theorem C51_too_short (shapes : List (List ℕ)) (vec : List α) (i : ℕ) (hi : i < shapes.length)
    (hp : 0 < (shapes.getD i []).prod) (hl : vec.length < ((sizeList shapes).take (i + 1)).sum) :
    getSubVec shapes (i : ℤ) vec = .error .valueError := by
  have hn : (sizeList shapes).length = shapes.length := by simp [sizeList]
  unfold getSubVec
  simp only [hn]
  rw [if_neg (by omega), show ((i : ℤ) % (shapes.length : ℤ)).toNat = i by
    rw [Int.emod_eq_of_lt (by omega) (by omega)]; simp]
  unfold Nd.reshape
  rw [if_neg]
  simp only [slice, List.length_drop, List.length_take, List.prod_cons, List.prod_nil, mul_one]
  have hs : ((sizeList shapes).take (i + 1)).sum = ((sizeList shapes).take i).sum + (shapes.getD i []).prod := by
    rw [List.take_add_one, List.sum_append]
    simp [sizeList, List.getElem?_eq_getElem hi]
  intro h
  rw [Nat.min_eq_right hl.le] at h
  omega

/-! ### A case: two modes of 3 × 2 and 2 × 2, and a coefficient tensor of 2 × 2. -/

example : shapeList [(3, 2), (2, 2)] = [[3, 2], [2, 2], [2, 2]] := by decide

example : getSubVec (shapeList [(3, 2), (2, 2)]) (-1) (List.range 14) = .ok ⟨[2, 2], [10, 11, 12, 13]⟩ := by decide

example : (List.range 14).length = (sizeList (shapeList [(3, 2), (2, 2)])).sum := by decide

example : ∀ b ∈ [(⟨[2, 1], [1, 2]⟩ : Nd ℕ), ⟨[3], [3, 4, 5]⟩], b.Wf := by simp [Nd.Wf]

end Mctdh
