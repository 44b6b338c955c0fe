import Verif.Lemmas.Contract

/-!
Arrays with labelled axes: a calculus for `moveaxis`, `reshape` and `partial_product` in which the
order of axes is bookkeeping only.
-/

open scoped BigOperators
open Py

namespace Nd

variable {κ R : Type*} [CommRing R]

/-- The axes of `A` are labelled by `L`, with dimensions `dim`, and its entry where label `k` has
index `f k` is `φ f`. -/
structure Lab (A : Nd R) (L : List κ) (dim : κ → ℕ) (φ : (κ → ℕ) → R) : Prop where
  wf : A.Wf
  shape : A.shape = L.map dim
  get : ∀ f, (∀ k ∈ L, f k < dim k) → A.get (L.map f) = φ f

theorem valid_map {L : List κ} {dim f : κ → ℕ} (h : ∀ k ∈ L, f k < dim k) :
    Valid (L.map dim) (L.map f) := by
  induction L with
  | nil => simp
  | cons x L ih =>
    simp only [List.map_cons, valid_cons_cons]
    exact ⟨h x (by simp), ih fun k hk => h k (by simp [hk])⟩

theorem map_eraseIdx {α β : Type*} (f : α → β) (l : List α) (i : ℕ) :
    (l.eraseIdx i).map f = (l.map f).eraseIdx i := by
  rw [List.eraseIdx_eq_take_drop_succ, List.eraseIdx_eq_take_drop_succ]
  simp

theorem map_insertIdx {α β : Type*} (f : α → β) (l : List α) (i : ℕ) (x : α) :
    (l.insertIdx i x).map f = (l.map f).insertIdx i (f x) := by
  induction i generalizing l with
  | zero => simp
  | succ i ih =>
    cases l with
    | nil => simp
    | cons y l => simp [ih]

theorem Lab.congr {A : Nd R} {L : List κ} {dim : κ → ℕ} {φ ψ : (κ → ℕ) → R} (h : A.Lab L dim φ)
    (e : ∀ f, (∀ k ∈ L, f k < dim k) → φ f = ψ f) : A.Lab L dim ψ :=
  ⟨h.wf, h.shape, fun f hf => (h.get f hf).trans (e f hf)⟩

theorem Lab.congr_dim {A : Nd R} {L : List κ} {dim dim' : κ → ℕ} {φ : (κ → ℕ) → R}
    (h : A.Lab L dim φ) (e : ∀ k ∈ L, dim k = dim' k) : A.Lab L dim' φ :=
  ⟨h.wf, h.shape.trans (List.map_congr_left e),
    fun f hf => h.get f fun k hk => by rw [e k hk]; exact hf k hk⟩

/-- Rename labels. -/
theorem Lab.map {κ' : Type*} {A : Nd R} {L : List κ} {dim : κ' → ℕ} (g : κ → κ')
    {φ : (κ → ℕ) → R} (h : A.Lab L (fun k => dim (g k)) φ) :
    A.Lab (L.map g) dim (fun f => φ fun k => f (g k)) := by
  refine ⟨h.wf, by rw [h.shape, List.map_map]; rfl, ?_⟩
  intro f hf
  rw [List.map_map]
  exact h.get (fun k => f (g k)) fun k hk => hf _ (List.mem_map.2 ⟨k, hk, rfl⟩)

theorem Lab.ndim {A : Nd R} {L : List κ} {dim : κ → ℕ} {φ : (κ → ℕ) → R} (h : A.Lab L dim φ) :
    A.ndim = L.length := by unfold Nd.ndim; rw [h.shape, List.length_map]

/-- Every array is labelled by its axis numbers. -/
theorem Lab.self {A : Nd R} (h : A.Wf) :
    A.Lab (List.range A.ndim) (fun k => A.shape.getD k 1)
      (fun f => A.get ((List.range A.ndim).map f)) := by
  refine ⟨h, ?_, fun f _ => rfl⟩
  refine List.ext_getElem (by simp) fun n h1 h2 => ?_
  simp at h1 ⊢
  simp [h1]

/-- Two arrays with the same labels and the same values are equal. -/
theorem Lab.ext {A B : Nd R} {L : List κ} {dim : κ → ℕ} {φ : (κ → ℕ) → R} (hL : L.Nodup)
    (hA : A.Lab L dim φ) (hB : B.Lab L dim φ) : A = B := by
  classical
  refine ext_get hA.wf hB.wf (hA.shape.trans hB.shape.symm) ?_
  intro idx hidx
  rw [hA.shape] at hidx
  have hl := hidx.length_eq
  rw [List.length_map] at hl
  have e : L.map (fun k => idx.getD (L.idxOf k) 0) = idx := by
    refine List.ext_getElem (by simp [hl]) fun n h1 h2 => ?_
    simp only [List.length_map] at h1
    rw [List.getElem_map, hL.idxOf_getElem n h1, List.getD_eq_getElem _ _ (by omega)]
  have hv : ∀ k ∈ L, idx.getD (L.idxOf k) 0 < dim k := by
    intro k hk
    have h1 := List.idxOf_lt_length_iff.2 hk
    have := hidx.getD_lt (k := L.idxOf k) (by simpa using h1) 0 1
    rw [List.getD_eq_getElem (L.map dim) _ (by simpa using h1), List.getElem_map,
      List.getElem_idxOf h1] at this
    exact this
  rw [← e, hA.get _ hv, hB.get _ hv]

theorem Lab.moveaxis {A : Nd R} {L : List κ} {dim : κ → ℕ} {φ : (κ → ℕ) → R} (h : A.Lab L dim φ)
    {s d : ℕ} (hs : s < L.length) (hd : d < L.length) :
    ∃ B, A.moveaxis s d = .ok B ∧ B.Lab ((L.eraseIdx s).insertIdx d L[s]) dim φ := by
  have hn := h.ndim
  refine ⟨A.moveaxisCore s d, ?_, moveaxisCore_wf _ _ _, ?_, ?_⟩
  · unfold Nd.moveaxis; rw [if_pos ⟨by omega, by omega⟩]
  · rw [moveaxisCore_shape, h.shape, map_insertIdx, map_eraseIdx,
      List.getD_eq_getElem _ _ (by simpa using hs), List.getElem_map]
  · intro f hf
    have hmem : ∀ k, k ∈ (L.eraseIdx s).insertIdx d L[s] ↔ k ∈ L := by
      intro k
      have hl : d ≤ (L.eraseIdx s).length := by rw [List.length_eraseIdx_of_lt hs]; omega
      rw [List.mem_insertIdx hl]
      have := (List.getElem_cons_eraseIdx_perm hs).mem_iff (a := k)
      rw [← this]; simp
    have hf' : ∀ k ∈ L, f k < dim k := fun k hk => hf k ((hmem k).2 hk)
    rw [map_insertIdx, map_eraseIdx]
    rw [get_moveaxisCore_insert A (by omega) (by omega)]
    · have : ((L.map f).eraseIdx s).insertIdx s (f L[s]) = L.map f := by
        have := insertIdx_eraseIdx_getD (l := L.map f) (k := s) (by simpa using hs) 0
        rw [List.getD_eq_getElem _ _ (by simpa using hs), List.getElem_map] at this
        exact this
      rw [this]
      exact h.get f hf'
    · rw [h.shape]
      exact (valid_map hf').eraseIdx s
    · rw [h.shape, List.getD_eq_getElem _ _ (by simpa using hs), List.getElem_map]
      exact hf' _ (List.getElem_mem hs)

/-- `f` with the value at `k` replaced. -/
def upd [DecidableEq κ] (f : κ → ℕ) (k : κ) (v : ℕ) : κ → ℕ := fun x => if x = k then v else f x

@[simp] theorem upd_self [DecidableEq κ] (f : κ → ℕ) (k : κ) (v : ℕ) : upd f k v k = v := by
  simp [upd]

theorem upd_ne [DecidableEq κ] (f : κ → ℕ) {k x : κ} (v : ℕ) (h : x ≠ k) : upd f k v x = f x := by
  simp [upd, h]

theorem map_upd_of_notMem [DecidableEq κ] {L : List κ} {k : κ} (hk : k ∉ L) (f : κ → ℕ) (v : ℕ) :
    L.map (upd f k v) = L.map f := by
  refine List.map_congr_left fun x hx => upd_ne f v ?_
  rintro rfl; exact hk hx

theorem drop_length_succ {β : Type*} (l r : List β) (x : β) :
    (l ++ x :: r).drop (l.length + 1) = r := by
  induction l with
  | nil => rfl
  | cons y l ih => simpa using ih

/-- Contraction over label `k` of `A` and label `k'` of `B`. -/
theorem Lab.partialProduct [DecidableEq κ] {A B : Nd R} {L₁ L₂ M₁ M₂ : List κ} {k k' : κ}
    {dim : κ → ℕ} {φ ψ : (κ → ℕ) → R} (hA : A.Lab (L₁ ++ k :: L₂) dim φ)
    (hB : B.Lab (M₁ ++ k' :: M₂) dim ψ) (hk : k ∉ L₁ ++ L₂) (hk' : k' ∉ M₁ ++ M₂)
    (hd : dim k = dim k') :
    ∃ C, Tensor.partialProduct A L₁.length (some B) M₁.length = .ok C ∧
      C.Lab (L₁ ++ (M₁ ++ M₂) ++ L₂) dim
        (fun f => ∑ v ∈ Finset.range (dim k), φ (upd f k v) * ψ (upd f k' v)) := by
  have nA := hA.ndim
  have nB := hB.ndim
  simp only [List.length_append, List.length_cons] at nA nB
  have gA : A.shape.getD L₁.length 1 = dim k := by
    rw [hA.shape]; simp
  have gB : B.shape.getD M₁.length 1 = dim k' := by
    rw [hB.shape]; simp
  obtain ⟨C, e1, e2, e3, e4⟩ := Tensor.partialProductAux_spec A B (i := L₁.length) (j := M₁.length)
    (by omega) (by omega) (by rw [gA, gB, hd])
  have s1 : A.shape.take L₁.length = L₁.map dim := by rw [hA.shape]; simp
  have s2 : A.shape.drop (L₁.length + 1) = L₂.map dim := by
    have := drop_length_succ (L₁.map dim) (L₂.map dim) (dim k)
    rw [List.length_map] at this
    rw [hA.shape, List.map_append, List.map_cons, this]
  have s3 : B.shape.eraseIdx M₁.length = (M₁ ++ M₂).map dim := by
    have := drop_length_succ (M₁.map dim) (M₂.map dim) (dim k')
    rw [List.length_map] at this
    rw [hB.shape, List.eraseIdx_eq_take_drop_succ, List.map_append, List.map_cons, this]
    simp
  refine ⟨C, e1, e2, ?_, ?_⟩
  · rw [e3, s1, s2, s3]; simp
  · intro f hf
    simp only [List.mem_append, not_or] at hk hk'
    have v1 : Valid (A.shape.take L₁.length) (L₁.map f) := by
      rw [s1]; exact valid_map fun x hx => hf x (by simp [hx])
    have v2 : Valid (A.shape.drop (L₁.length + 1)) (L₂.map f) := by
      rw [s2]; exact valid_map fun x hx => hf x (by simp [hx])
    have v3 : Valid (B.shape.eraseIdx M₁.length) ((M₁ ++ M₂).map f) := by
      rw [s3]; exact valid_map fun x hx => hf x (by simp only [List.mem_append] at hx ⊢; tauto)
    have := e4 _ _ _ v1 v3 v2
    rw [← List.map_append, ← List.map_append] at this
    rw [this, gA]
    refine Finset.sum_congr rfl fun v hv => ?_
    have hv' := Finset.mem_range.1 hv
    congr 1
    · rw [← hA.get]
      · rw [List.map_append, List.map_cons, map_upd_of_notMem hk.1, map_upd_of_notMem hk.2, upd_self]
      · intro x hx
        by_cases e : x = k
        · subst e; rw [upd_self]; exact hv'
        · rw [upd_ne _ _ e]
          refine hf x ?_
          simp only [List.mem_append, List.mem_cons] at hx ⊢
          tauto
    · rw [← hB.get]
      · rw [List.map_append, List.map_append, List.map_cons, map_upd_of_notMem hk'.1,
          map_upd_of_notMem hk'.2, upd_self]
        have hl : M₁.length = (M₁.map f).length := by simp
        rw [hl, Tensor.insertIdx_append_length]
      · intro x hx
        by_cases e : x = k'
        · subst e; rw [upd_self]; rw [← hd]; exact hv'
        · rw [upd_ne _ _ e]
          refine hf x ?_
          simp only [List.mem_append, List.mem_cons] at hx ⊢
          tauto

/-- Grouping the axes of a labelled array into a matrix. -/
theorem Lab.reshape_matrix {A : Nd R} {L₁ L₂ : List κ} {dim : κ → ℕ} {φ : (κ → ℕ) → R}
    (h : A.Lab (L₁ ++ L₂) dim φ) :
    ∃ B, A.reshape [(L₁.map dim).prod, (L₂.map dim).prod] = .ok B ∧ B.Wf ∧
      B.shape = [(L₁.map dim).prod, (L₂.map dim).prod] ∧
      ∀ f, (∀ k ∈ L₁ ++ L₂, f k < dim k) →
        B.get [ravel (L₁.map dim) (L₁.map f), ravel (L₂.map dim) (L₂.map f)] = φ f := by
  have hp : A.shape.prod = [(L₁.map dim).prod, (L₂.map dim).prod].prod := by
    rw [h.shape]; simp
  refine ⟨⟨_, A.data⟩, ?_, ?_, rfl, ?_⟩
  · unfold Nd.reshape; rw [if_pos hp]
  · unfold Nd.Wf; rw [← hp]; exact h.wf
  · intro f hf
    rw [← h.get f hf]
    simp only [Nd.get]
    congr 1
    rw [h.shape, List.map_append, List.map_append, ravel_append (by simp)]
    simp [ravel]

end Nd
