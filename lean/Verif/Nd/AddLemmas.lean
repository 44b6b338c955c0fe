import Verif.Nd.OpsLemmas

/-! Entries of sums, differences and multiples of arrays. -/

open Py

namespace Nd

variable {R : Type}

theorem get_eq_getElem {R : Type} [Zero R] {a : Nd R} (ha : a.Wf) {idx : List ℕ} (h : Valid a.shape idx) :
    a.data[ravel a.shape idx]? = some (a.get idx) := by
  have hlt : ravel a.shape idx < a.data.length := by rw [ha]; exact ravel_lt h
  unfold Nd.get
  rw [List.getD_eq_getElem?_getD, List.getElem?_eq_getElem hlt]
  rfl

theorem add_ok [Zero R] [Add R] {a b : Nd R} (ha : a.Wf) (hb : b.Wf) (hs : a.shape = b.shape) :
    ∃ c, a.add b = .ok c ∧ c.Wf ∧ c.shape = a.shape ∧ ∀ idx, Valid a.shape idx → c.get idx = a.get idx + b.get idx := by
  refine ⟨⟨a.shape, List.zipWith (· + ·) a.data b.data⟩, by unfold Nd.add; rw [if_pos hs], ?_, rfl, ?_⟩
  · unfold Nd.Wf at *
    simp [ha, hb, hs]
  · intro idx h
    have h1 := get_eq_getElem ha h
    have h2 := get_eq_getElem hb (hs ▸ h)
    rw [← hs] at h2
    conv_lhs => unfold Nd.get
    rw [List.getD_eq_getElem?_getD, List.getElem?_zipWith, h1, h2]
    rfl

theorem add_error [Add R] {a b : Nd R} (hs : a.shape ≠ b.shape) : a.add b = .error .valueError := by
  unfold Nd.add; rw [if_neg hs]

theorem sub_ok [Zero R] [Sub R] {a b : Nd R} (ha : a.Wf) (hb : b.Wf) (hs : a.shape = b.shape) :
    ∃ c, a.sub b = .ok c ∧ c.Wf ∧ c.shape = a.shape ∧ ∀ idx, Valid a.shape idx → c.get idx = a.get idx - b.get idx := by
  refine ⟨⟨a.shape, List.zipWith (· - ·) a.data b.data⟩, by unfold Nd.sub; rw [if_pos hs], ?_, rfl, ?_⟩
  · unfold Nd.Wf at *
    simp [ha, hb, hs]
  · intro idx h
    have h1 := get_eq_getElem ha h
    have h2 := get_eq_getElem hb (hs ▸ h)
    rw [← hs] at h2
    conv_lhs => unfold Nd.get
    rw [List.getD_eq_getElem?_getD, List.getElem?_zipWith, h1, h2]
    rfl

end Nd
