import Verif.Lemmas.Absorb
import Verif.Lemmas.SplitRank

/-! The states a tensor in the middle of a bond can give, and those of the tensor it came from; for C134. -/

open scoped BigOperators
open Py

namespace Heap

variable {R : Type} [CommRing R] [StarRing R]

/-- Every state of the tensor in the middle is one of the tensor that was split. -/
theorem absorb_src {csvd : Svd R} (hsv : SvdShape csvd) (hex : SvdExact csvd) {h h1 : Heap R} {r i fin j mid : ℕ} {F F1 : Forest} {nr : Bool}
    (ht : h.IsTTN r F) (hr : h.Rooted r F) (hb : h.acc r i = some (fin, j)) (hl : h.isLeaf fin = false)
    (hp : h.PlainNames (h.tensors r F)) (m : h.MidSplit csvd h1 r i fin j mid) (mt : h1.IsTTN mid F1)
    (e : h.split csvd r (.one i) none none (some r) nr = .ok (h1, mid, r)) {M Y A' : Nd R} (hM : h1.array mid = some M) (hY : Y.Wf) (hYs : Y.shape = M.shape)
    (hA' : h.array r = some A') :
    ∃ Z : Nd R, Z.Wf ∧ Z.shape = A'.shape ∧ ∀ x : ℕ → ℕ, (∀ p ∈ h1.leafList mid F1, x p.1 < p.2) →
      (h1.setArray mid (some Y)).treeAmp mid F1 x = (h.setArray r (some Z)).treeAmp r F x := by
  have hrT : r ∈ h.tensors r F := mem_tensors.2 ⟨.inl rfl, ht.leaf⟩
  have hn := ht.isNet
  obtain ⟨A, hA⟩ := hn.full r hrT
  obtain ⟨n1, hn1⟩ := hn.names r hrT
  have hin : i < A.ndim := (hA.acc i).1 (by rw [hb]; simp)
  have hlt := ht.lt
  have hfr := m.fresh
  obtain ⟨h1', mid', h2, e1, e2, a1, a2, -⟩ := C09_in_place hsv hex ht.links hA
    (fun k l q => (hn.simple r hrT k r l q hrT).1 rfl) ht.lt hr.1 (splitNames_ok hn1 (hp _ hrT n1 hn1)) hin nr nr
  rw [e] at e1
  simp only [Except.ok.injEq, Prod.mk.injEq] at e1
  obtain ⟨rfl, rfl, -⟩ := e1
  have hmr : mid ≠ r := by omega
  have hrT1 : r ∈ h1.tensors mid F1 := by
    refine mem_tensors.2 ⟨(mt.mem_linked r).2 ?_, by rw [m.self.2.1]; exact ht.leaf⟩
    exact Relation.ReflTransGen.single ⟨0, i, by rw [m.accMid]; rfl⟩
  obtain ⟨F1', t1, p1⟩ := mt.reroot hrT1
  obtain ⟨h2', F2, u1, u2, -, -, u3, u4, u5, u6, -, u7⟩ := t1.uniteEnd (.inr m.axis) (i := i) (t := mid) (j := 0)
    (by rw [m.accSelf, if_pos rfl]) mt.leaf nr
  rw [e2] at u1
  simp only [Except.ok.injEq, Prod.mk.injEq, and_true] at u1
  subst u1
  have harr : ∀ c, c ≠ mid → h2.array c = h.array c := by
    intro c hc
    by_cases hcr : c = r
    · subst hcr; rw [a1, hA.array]
    · exact ((core_eq (u5 c hcr).1).2.2.1).trans (core_eq (m.other c hcr hc)).2.2.1
  have hlf : ∀ c, c ≠ mid → h2.isLeaf c = h.isLeaf c := by
    intro c hc
    rw [u4]
    by_cases hcr : c = r
    · subst hcr; exact m.self.2.1
    · exact (core_eq (m.other c hcr hc)).2.2.2.2.2.2
  have hacc : ∀ c k, h2.acc c k = h.acc c k := by
    intro c k
    by_cases hc : c < h.next
    · exact a2 c k hc
    · have h0 : h.acc c k = none := by
        cases q : h.acc c k with
        | none => rfl
        | some y => exact absurd (ht.links.lt (b := y.1) (j := y.2) q).1 hc
      rw [h0]
      by_cases hcm : c = mid
      · rw [hcm]; exact u6 k
      · have hcr : c ≠ r := by omega
        have hcf : c ≠ fin := by have := (ht.links.lt hb).2; omega
        exact (u5 c hcr).2 k (by rw [m.accOther c k hcr hcf hcm]; exact h0)
  have hids : ∀ c ∈ r :: F.ids, c ≠ mid := fun c hc => by have := ht.ids_lt hc; omega
  have tree2 : IsTree h2 r none F := ht.tree.congr ht.links.wf u2.links.wf hacc fun c hc => hlf c (hids c hc)
  obtain rfl := u2.tree.unique tree2
  obtain rfl : A = A' := Option.some.inj (hA.array.symm.trans hA')
  obtain ⟨Z, z1, z2, z3⟩ := absorb mt m.axis (kb := 0) (b := r) (jb := i) (by rw [m.accMid]; rfl) (by rw [m.self.2.1]; exact ht.leaf) e2 u2 hM hY hYs a1
  refine ⟨Z, z1, z2, fun x hx => (z3 x hx).trans ?_⟩
  have hsl : ∀ (g : Heap R) c, (g.setArray r (some Z)).isLeaf c = g.isLeaf c := fun g c => by
    unfold Heap.isLeaf; rw [node_setArray]; split <;> rfl
  refine treeAmp_congr_ids (h := h.setArray r (some Z)) (h' := h2.setArray r (some Z)) (ht.setArray hA.array z1 z2) (fun t h1 => ?_)
    (fun t k => by rw [acc_setArray, acc_setArray]; exact hacc t k) (fun t h1 => by rw [hsl, hsl]; exact hlf t (hids t h1)) x
  rw [array_setArray, array_setArray]
  split
  · rfl
  · exact harr t (hids t (List.mem_cons.2 (mem_tensors.1 h1).1))

theorem hdim_congr {h h' : Heap R} {c : ℕ} (e : h'.array c = h.array c) (k : ℕ) : h'.hdim (c, k) = h.hdim (c, k) := by
  unfold hdim
  simp only [e]

theorem hdim_full {h : Heap R} {c : ℕ} {A : Nd R} (hA : h.array c = some A) (k : ℕ) : h.hdim (c, k) = A.shape.getD k 1 := by
  unfold hdim
  simp only [hA]

/-- The shape of a tensor in terms of the dimensions of its links. -/
theorem shape_eq {h h' : Heap R} {c : ℕ} {A A' : Nd R} (hA : h.Full c A) (hA' : h'.Full c A') (hacc : ∀ k, h'.acc c k = h.acc c k)
    (hd : ∀ k, h'.hdim (c, k) = h.hdim (c, k)) : A'.shape = A.shape := by
  have hn : ∀ k, k < A'.ndim ↔ k < A.ndim := fun k => by rw [← hA.acc, ← hA'.acc, hacc]
  have hn' : A'.shape.length = A.shape.length := by
    show A'.ndim = A.ndim
    have h1 := hn A.ndim; have h2 := hn A'.ndim; omega
  refine List.ext_getElem hn' fun k q1 q2 => ?_
  have := hd k
  rw [hdim_full hA.array, hdim_full hA'.array, List.getD_eq_getElem _ _ q1, List.getD_eq_getElem _ _ q2] at this
  exact this

theorem prod_eraseIdx {l : List ℕ} {i : ℕ} (h : i < l.length) : l.prod = l.getD i 1 * (l.eraseIdx i).prod := by
  rw [List.getD_eq_getElem _ _ h]
  induction l generalizing i with
  | nil => simp at h
  | cons a l ih =>
    cases i with
    | zero => simp
    | succ i =>
      simp only [List.prod_cons, List.getElem_cons_succ, List.eraseIdx_cons_succ]
      rw [ih (by simpa using h)]
      ring

end Heap
