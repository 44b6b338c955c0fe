import Verif.Lemmas.Truncate5
import Verif.Spec.Truncation

/-!
Overlaps of the state before and after a truncated `unite_split`.
-/

open scoped BigOperators

open Py TreeSum

namespace Heap

variable {R : Type} [CommRing R]

/-- The inner product of two root arrays, by columns. -/
theorem factor_inner [StarRing R] {X Y ca : Nd R} {d1 d2 : List ℕ} {i j n : ℕ} {U W V : ℕ → ℕ → R} (hj : j ≤ d1.length)
    (fX : Factor X ca d1 d2 j i n U V) (fY : Factor Y ca d1 d2 j i n W V) :
    sumIdx (d1.insertIdx j n) (fun w => X.get w * star (Y.get w)) =
      ∑ z ∈ Finset.range n, ∑ x ∈ Finset.range d1.prod, U x z * star (W x z) := by
  rw [sumIdx_insertIdx _ _ _ hj]
  refine Finset.sum_congr rfl fun z hz => ?_
  have hz' := Finset.mem_range.1 hz
  rw [sumIdx_eq_sum_range]
  refine Finset.sum_congr rfl fun x hx => ?_
  have hx' := Finset.mem_range.1 hx
  rw [fX.getR _ (valid_unravel hx') z hz', fY.getR _ (valid_unravel hx') z hz', ravel_unravel hx']

theorem setArray_same {h : Heap R} {t : ℕ} {A : Nd R} (hA : h.array t = some A) (r : ℕ) (F : Forest) (x : ℕ → ℕ) :
    (h.setArray t (some A)).treeAmp r F x = h.treeAmp r F x := by
  have hlf : ∀ c, (h.setArray t (some A)).isLeaf c = h.isLeaf c := by
    intro c; unfold Heap.isLeaf; rw [node_setArray]; split <;> rfl
  have e1 : (h.setArray t (some A)).tensors r F = h.tensors r F := by
    unfold Heap.tensors; exact List.filter_congr fun c _ => by rw [hlf]
  have e2 : (h.setArray t (some A)).bonds r F = h.bonds r F := by
    unfold Heap.bonds; exact List.filter_congr fun c _ => by rw [hlf]
  have e3 : (h.setArray t (some A)).entry = h.entry := by
    funext σ u
    rw [entry_setArray]
    split
    · rename_i q; subst q; unfold entry; rw [hA]
    · rfl
  have e4 : ∀ (E : List (ℕ × ℕ × ℕ × ℕ)) (g : Assign → R) (σ : Assign), sumBonds (h.setArray t (some A)) E g σ = sumBonds h E g σ := by
    intro E g
    induction E with
    | nil => intro σ; rfl
    | cons e E ih =>
      intro σ
      simp only [sumBonds, ih]
      rw [hdim_setArray hA rfl]
  unfold treeAmp amp
  rw [e1, e2, e3, e4, leafAssign_setArray]

/-- The dimensions of the rest of a tensor. -/
theorem rest_dims {h : Heap R} {t a r : ℕ} {X B : Nd R} {h' : Heap R} (hX : h'.array t = some X) (hB : h.array t = some B)
    {d : List ℕ} (hs : X.shape = d.insertIdx a r) (ha : a ≤ d.length) (hlen : B.ndim = d.length + 1)
    (hd : ∀ k, k ≠ a → h'.hdim (t, k) = h.hdim (t, k)) : d = B.shape.eraseIdx a := by
  have hlen' : B.shape.length = d.length + 1 := hlen
  refine List.ext_getElem (by rw [List.length_eraseIdx_of_lt (by omega)]; omega) fun k h1 h2 => ?_
  have hX' : ∀ k, h'.hdim (t, k) = (d.insertIdx a r).getD k 1 := by
    intro k; unfold hdim; rw [hX]; simp only; rw [hs]
  have hB' : ∀ k, h.hdim (t, k) = B.shape.getD k 1 := by
    intro k; unfold hdim; rw [hB]
  have hi := List.length_insertIdx_of_le_length ha r
  rw [List.getElem_eraseIdx]
  split
  · rename_i hk
    have := hd k (by omega)
    rw [hX', hB', List.getD_eq_getElem _ _ (by omega), List.getD_eq_getElem _ _ (by omega), List.getElem_insertIdx_of_lt hk] at this
    exact this
  · rename_i hk
    have := hd (k + 1) (by omega)
    rw [hX', hB', List.getD_eq_getElem _ _ (by omega), List.getD_eq_getElem _ _ (by omega), List.getElem_insertIdx_of_gt (by omega)] at this
    simpa using this

/-- The indices of a list with one index inserted, and taken out again. -/
theorem range_getD_erase {p : List ℕ} {n j : ℕ} (hp : p.length = n) (hj : j ≤ n) :
    ((List.range (n + 1)).map fun k => (p.insertIdx j 0).getD k 0).eraseIdx j = p := by
  have hl : (p.insertIdx j 0).length = n + 1 := by rw [List.length_insertIdx_of_le_length (by omega)]; omega
  have : ((List.range (n + 1)).map fun k => (p.insertIdx j 0).getD k 0) = p.insertIdx j 0 := by
    refine List.ext_getElem (by simp [hl]) fun k h1 h2 => ?_
    rw [List.getElem_map, List.getElem_range, List.getD_eq_getElem _ _ h2]
  rw [this, List.eraseIdx_insertIdx_self]

open Truncation in
/-- The matrix that is decomposed is that of the two tensors. -/
theorem merged_of_factor {ce : Svd R} {h hE : Heap R} {r i fin j mid : ℕ} (hne : r ≠ fin) (hex : SvdExact ce)
    (mE : MoveSpec ce none h hE r i fin j mid) {A B ra ca M : Nd R} (hA : h.Full r A) (hB : h.Full fin B)
    (aE : hE.array fin = some ra) (bE : hE.array r = some ca) {d1 d2 : List ℕ} {n : ℕ} {U V : ℕ → ℕ → R}
    (hj : j ≤ d1.length) (hi : i ≤ d2.length) (fE : Factor ra ca d1 d2 j i n U V) (hM : M.Wf) (hMs : M.shape = [d1.prod, d2.prod])
    (hMv : ∀ x < d1.prod, ∀ y < d2.prod, M.get [x, y] = ∑ z ∈ Finset.range n, V z y * U x z) :
    d1 = B.shape.eraseIdx j ∧ d2 = A.shape.eraseIdx i ∧ Merged A B i j M := by
  obtain ⟨A', fA⟩ := mE.fullSelf
  obtain ⟨B', fB⟩ := mE.fullFin
  have fA' := fA.array; rw [bE] at fA'; cases fA'
  have fB' := fB.array; rw [aE] at fB'; cases fB'
  have n1 : ra.ndim = d1.length + 1 := by unfold Nd.ndim; rw [fE.shapeR, List.length_insertIdx_of_le_length hj]
  have n2 : ca.ndim = d2.length + 1 := by unfold Nd.ndim; rw [fE.shapeC, List.length_insertIdx_of_le_length hi]
  have key : ∀ {a b : ℕ}, (∀ k, k < a ↔ k < b) → a = b := fun {a b} q => by
    have q1 := q a; have q2 := q b; omega
  have nB : B.ndim = d1.length + 1 := by
    rw [← n1]
    exact key fun k => by rw [← hB.acc k, ← fB.acc k, mE.acc]
  have nA : A.ndim = d2.length + 1 := by
    rw [← n2]
    exact key fun k => by rw [← hA.acc k, ← fA.acc k, mE.acc]
  have hd1 := rest_dims aE hB.array fE.shapeR hj nB mE.dimsFin
  have hd2 := rest_dims bE hA.array fE.shapeC hi nA mE.dimsSelf
  refine ⟨hd1, hd2, hM, by rw [← hd1, ← hd2]; exact hMs, fun p q hp hq => ?_⟩
  rw [← hd1] at hp ⊢
  rw [← hd2] at hq ⊢
  let σ : Assign := fun x => if x.1 = fin then (p.insertIdx j 0).getD x.2 0 else (q.insertIdx i 0).getD x.2 0
  have s1 : ∀ k, σ (fin, k) = (p.insertIdx j 0).getD k 0 := fun k => by simp [σ]
  have s2 : ∀ k, σ (r, k) = (q.insertIdx i 0).getD k 0 := fun k => by simp [σ, hne]
  have e1 : ((List.range (d1.length + 1)).map fun k => σ (fin, k)).eraseIdx j = p := by
    simp only [s1]; exact range_getD_erase hp.length_eq hj
  have e2 : ((List.range (d2.length + 1)).map fun k => σ (r, k)).eraseIdx i = q := by
    simp only [s2]; exact range_getD_erase hq.length_eq hi
  have hlt : ∀ (d l : List ℕ) (a : ℕ), a ≤ d.length → Valid d l → ∀ k, k ≠ a → k < d.length + 1 → ∀ s,
      (l.insertIdx a 0).getD k 0 < (d.insertIdx a s).getD k 1 := by
    intro d l a ha hv k hk hk' s
    have hle := hv.length_eq
    have hi1 := List.length_insertIdx_of_le_length (as := l) (i := a) (by omega) 0
    have hi2 := List.length_insertIdx_of_le_length ha s
    rw [List.getD_eq_getElem _ _ (by omega), List.getD_eq_getElem _ _ (by omega)]
    rcases Nat.lt_or_ge k a with q | q
    · rw [List.getElem_insertIdx_of_lt q, List.getElem_insertIdx_of_lt q]
      have := hv.getD_lt (k := k) (by omega) 0 1
      rwa [List.getD_eq_getElem _ _ (by omega), List.getD_eq_getElem _ _ (by omega)] at this
    · rw [List.getElem_insertIdx_of_gt (by omega), List.getElem_insertIdx_of_gt (by omega)]
      have := hv.getD_lt (k := k - 1) (by omega) 0 1
      rwa [List.getD_eq_getElem _ _ (by omega), List.getD_eq_getElem _ _ (by omega)] at this
  have hpair := mE.exact hex rfl σ
    (fun k hk ha => by
      rw [← mE.dimsSelf k hk, s2]
      unfold hdim
      rw [bE]; simp only; rw [fE.shapeC]
      exact hlt d2 q i hi hq k hk (by rw [← nA]; exact (hA.acc k).1 ha) n)
    (fun k hk ha => by
      rw [← mE.dimsFin k hk, s1]
      unfold hdim
      rw [aE]; simp only; rw [fE.shapeR]
      exact hlt d1 p j hj hp k hk (by rw [← nB]; exact (hB.acc k).1 ha) n)
  have f1 := fE.pairSum (h := hE) (σ := σ) hne aE bE hj hi (by rw [e1]; exact hp) (by rw [e2]; exact hq)
  rw [e1, e2] at f1
  rw [hMv _ (ravel_lt hp) _ (ravel_lt hq), ← f1, hpair]
  unfold Heap.pairSum
  simp only
  rw [hA.hdim_eq]
  refine Finset.sum_congr rfl fun z hz => ?_
  have hsb : ∀ p, setBond (r, i, fin, j) z σ p = if p = (fin, j) then z else if p = (r, i) then z else σ p := by
    intro p; unfold setBond Nd.upd; simp only
  rw [entry_bond hA.array nA hi (σ := σ) (v := z) (by rw [hsb]; simp [hne])
      (by intro k hk; rw [hsb]; simp [hne, hk]),
    entry_bond hB.array nB hj (σ := σ) (v := z) (by rw [hsb]; simp)
      (by intro k hk; rw [hsb]; simp [hne.symm, hk]), e1, e2]

end Heap
