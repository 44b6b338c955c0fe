import Verif.Lemmas.Overlap2
import Mathlib.Algebra.BigOperators.Group.List.Basic

/-!
The amplitude of a network is linear in each array, and a matrix on a bond belongs to either of its tensors.
-/

open scoped BigOperators
open Py

namespace Heap

variable {R : Type} [CommRing R]

theorem valid_map {S : List ℕ} {n : ℕ} (hn : n = S.length) {f : ℕ → ℕ} (h : ∀ k < n, f k < S.getD k 1) :
    Valid S ((List.range n).map f) := by
  subst hn
  unfold Valid
  rw [List.forall₂_iff_get]
  refine ⟨by simp, fun k h1 h2 => ?_⟩
  have := h k h2
  rw [List.getD_eq_getElem _ _ h2] at this
  simpa using this

/-- The indices of the arrays stay in range. -/
theorem IsNet.valid_idx {h : Heap R} {T : List ℕ} {E : List (ℕ × ℕ × ℕ × ℕ)} (hn : h.IsNet T E) {x : ℕ → ℕ} (hx : h.InRange T x)
    {τ : Assign} (h1 : ∀ p, p ∉ halves E → τ p = h.leafAssign x p)
    (h2 : ∀ e ∈ E, τ (e.1, e.2.1) < h.hdim (e.1, e.2.1) ∧ τ (e.2.2.1, e.2.2.2) = τ (e.1, e.2.1)) {t : ℕ} (ht : t ∈ T) {A : Nd R}
    (hA : h.Full t A) : Valid A.shape ((List.range A.ndim).map fun k => τ (t, k)) := by
  refine valid_map rfl fun k hk => ?_
  rw [← hA.hdim_eq k]
  obtain ⟨⟨u, l⟩, hu⟩ := Option.ne_none_iff_exists'.1 ((hA.acc k).2 hk)
  by_cases hT : u ∈ T
  · obtain ⟨e, he, q⟩ := mem_halves.1 (hn.all t ht k u l hu hT)
    rcases q with q | q
    · rw [q]; exact (h2 e he).1
    · rw [q, (h2 e he).2, ← hn.dims e he]; exact (h2 e he).1
  · have hnot : (t, k) ∉ halves E := by
      intro q
      obtain ⟨e, he, q⟩ := mem_halves.1 q
      obtain ⟨⟨l1, l2⟩, l3, l4⟩ := hn.isLink e he
      rcases q with q | q
      · obtain ⟨rfl, rfl⟩ := Prod.mk.inj q
        rw [hu] at l1
        obtain ⟨rfl, -⟩ := Prod.mk.inj (Option.some.inj l1)
        exact hT l4
      · obtain ⟨rfl, rfl⟩ := Prod.mk.inj q
        rw [hu] at l2
        obtain ⟨rfl, -⟩ := Prod.mk.inj (Option.some.inj l2)
        exact hT l3
    rw [h1 _ hnot]
    unfold leafAssign
    simp only [hu]
    exact hx t ht k u l hu hT

theorem entry_setArray (h : Heap R) (t : ℕ) (B : Nd R) (σ : Assign) (u : ℕ) : (h.setArray t (some B)).entry σ u =
    if u = t then B.get ((List.range B.ndim).map fun k => σ (t, k)) else h.entry σ u := by
  unfold entry Heap.array
  rw [node_setArray]
  by_cases q : u = t
  · subst q; simp
  · simp [q]

theorem acc_setArray (h : Heap R) (t : ℕ) (B : Option (Nd R)) (u i : ℕ) : (h.setArray t B).acc u i = h.acc u i := by
  unfold Heap.acc; rw [node_setArray]; split <;> rfl

theorem hdim_setArray {h : Heap R} {t : ℕ} {A B : Nd R} (hA : h.array t = some A) (hs : B.shape = A.shape) (p : ℕ × ℕ) :
    (h.setArray t (some B)).hdim p = h.hdim p := by
  unfold hdim Heap.array
  rw [node_setArray]
  by_cases q : p.1 = t
  · subst q
    have : (h.node p.1).array = some A := hA
    simp [this, hs]
  · simp [q]

theorem leafAssign_setArray (h : Heap R) (t : ℕ) (B : Option (Nd R)) (x : ℕ → ℕ) : (h.setArray t B).leafAssign x = h.leafAssign x := by
  unfold leafAssign
  simp only [acc_setArray]

theorem sumBonds_sum (h : Heap R) (E : List (ℕ × ℕ × ℕ × ℕ)) {ι : Type} (s : Finset ι) (c : ι → R) (g : ι → Assign → R) (σ : Assign) :
    sumBonds h E (fun τ => ∑ j ∈ s, c j * g j τ) σ = ∑ j ∈ s, c j * sumBonds h E (g j) σ := by
  induction E generalizing σ with
  | nil => rfl
  | cons e E ih =>
    simp only [sumBonds, ih, Finset.mul_sum]
    exact Finset.sum_comm

/-- The amplitude is linear in the array of a tensor. -/
theorem IsNet.amp_lin {h : Heap R} {T : List ℕ} {E : List (ℕ × ℕ × ℕ × ℕ)} (hn : h.IsNet T E) {x : ℕ → ℕ} (hx : h.InRange T x)
    {t : ℕ} (ht : t ∈ T) {A B : Nd R} (hA : h.Full t A) (hB : B.shape = A.shape) {ι : Type} (s : Finset ι) (c : ι → R) (Bs : ι → Nd R)
    (hBs : ∀ j, (Bs j).shape = A.shape) (hl : ∀ w, Valid A.shape w → B.get w = ∑ j ∈ s, c j * (Bs j).get w) :
    (h.setArray t (some B)).amp T E x = ∑ j ∈ s, c j * (h.setArray t (some (Bs j))).amp T E x := by
  have e0 : ∀ C : Nd R, C.shape = A.shape → (h.setArray t (some C)).amp T E x =
      sumBonds h E (fun σ => C.get ((List.range A.ndim).map fun k => σ (t, k)) * ((T.erase t).map (h.entry σ)).prod) (h.leafAssign x) := by
    intro C hC
    unfold amp
    rw [leafAssign_setArray]
    refine sumBonds_congr hn.once (fun e _ => hdim_setArray hA.array hC _) fun τ _ _ => ?_
    rw [← List.prod_map_erase _ ht, entry_setArray, if_pos rfl]
    congr 1
    · unfold Nd.ndim; rw [hC]
    · refine congrArg List.prod (List.map_congr_left fun u hu => ?_)
      rw [entry_setArray, if_neg]
      rintro rfl
      exact (List.Nodup.not_mem_erase hn.nodup) hu
  rw [e0 B hB]
  simp only [e0 _ (hBs _)]
  rw [← sumBonds_sum]
  refine sumBonds_congr hn.once (fun _ _ => rfl) fun τ h1 h2 => ?_
  rw [hl _ (hn.valid_idx hx h1 h2 ht hA), Finset.sum_mul]
  exact Finset.sum_congr rfl fun j _ => by ring

/-- A matrix on a bond belongs to either of its tensors. -/
theorem IsNet.amp_shift {h : Heap R} {T : List ℕ} {E : List (ℕ × ℕ × ℕ × ℕ)} (hn : h.IsNet T E) {x : ℕ → ℕ} (hx : h.InRange T x)
    {a i t k : ℕ} (he : (a, i, t, k) ∈ E) {A A' C D : Nd R} (hA : h.Full t A) (hA' : h.Full a A') (hC : C.shape = A.shape)
    (hD : D.shape = A'.shape) {n : ℕ} (hd : h.hdim (a, i) = n) (X : ℕ → ℕ → R)
    (hCX : ∀ p z, Valid (A.shape.eraseIdx k) p → z < n → C.get (p.insertIdx k z) =
      ∑ c ∈ Finset.range n, A.get (p.insertIdx k c) * X c z)
    (hDX : ∀ p c, Valid (A'.shape.eraseIdx i) p → c < n → D.get (p.insertIdx i c) =
      ∑ z ∈ Finset.range n, A'.get (p.insertIdx i z) * X c z) :
    (h.setArray t (some C)).amp T E x = (h.setArray a (some D)).amp T E x := by
  obtain ⟨⟨l1, l2⟩, l3, l4⟩ := hn.isLink _ he
  simp only at l1 l2 l3 l4
  have hta : t ≠ a := (hn.simple a l3 i t k l1 l4).1
  obtain ⟨E1, E2, rfl⟩ := List.append_of_mem he
  have hk : k < A.ndim := (hA.acc k).1 (by rw [l2]; simp)
  have hi : i < A'.ndim := (hA'.acc i).1 (by rw [l1]; simp)
  have hta' : t ∈ T.erase a := (List.mem_erase_of_ne hta).2 l4
  have hrest : ∀ (C D : Nd R) (g : Heap R), (∀ σ u, u ≠ a → u ≠ t → g.entry σ u = h.entry σ u) → ∀ σ,
      (T.map (g.entry σ)).prod = g.entry σ a * (g.entry σ t * (((T.erase a).erase t).map (h.entry σ)).prod) := by
    intro C D g hg σ
    rw [← List.prod_map_erase _ l3, ← List.prod_map_erase _ hta']
    congr 2
    refine congrArg List.prod (List.map_congr_left fun u hu => ?_)
    have n1 := hn.nodup.erase a
    refine hg σ u ?_ ?_
    · rintro rfl
      exact (List.Nodup.not_mem_erase hn.nodup) (List.mem_of_mem_erase hu)
    · rintro rfl
      exact (List.Nodup.not_mem_erase n1) hu
  have idx : ∀ (S : List ℕ) (m u j v : ℕ) (τ : Assign), j < m → ((u, j) = (a, i) ∨ (u, j) = (t, k)) →
      (List.range m).map (fun k' => setBond (a, i, t, k) v τ (u, k')) =
        (((List.range m).map fun k' => τ (u, k')).eraseIdx j).insertIdx j v := by
    intro S m u j v τ hj hq
    rw [List.insertIdx_eraseIdx_self (by simp; omega)]
    refine List.ext_getElem (by simp) fun k' h1 h2 => ?_
    simp only [List.getElem_map, List.getElem_range, List.getElem_set, setBond_apply]
    by_cases q : j = k'
    · subst q; rw [if_pos hq, if_pos rfl]
    · rw [if_neg q, if_neg]
      rintro (q' | q') <;> rcases hq with hq | hq <;> simp only [Prod.mk.injEq] at q' hq
      · exact q (hq.2.trans q'.2.symm)
      · exact hta (hq.1.symm.trans q'.1)
      · exact hta (q'.1.symm.trans hq.1)
      · exact q (hq.2.trans q'.2.symm)
  have hrestc : ∀ v τ, (((T.erase a).erase t).map (h.entry (setBond (a, i, t, k) v τ))).prod = (((T.erase a).erase t).map (h.entry τ)).prod := by
    intro v τ
    refine congrArg List.prod (List.map_congr_left fun u hu => ?_)
    have h1 : u ≠ t := by
      rintro rfl
      exact (List.Nodup.not_mem_erase (hn.nodup.erase a)) hu
    have h2 : u ≠ a := by
      rintro rfl
      exact (List.Nodup.not_mem_erase hn.nodup) (List.mem_of_mem_erase hu)
    unfold entry
    split
    · congr 1
      refine List.map_congr_left fun k' _ => ?_
      rw [setBond_apply, if_neg]
      simp [h1, h2]
    · rfl
  unfold amp
  rw [leafAssign_setArray, leafAssign_setArray, sumBonds_middle _ _ _ _ hn.once, sumBonds_middle _ _ _ _ hn.once]
  have hsub : (halves (E1 ++ E2)).Nodup := hn.once.sublist (halves_sublist (by simp))
  refine sumBonds_congr hsub (fun e _ => by rw [hdim_setArray hA.array hC, hdim_setArray hA'.array hD]) fun τ h1 h2 => ?_
  rw [hdim_setArray hA.array hC, hdim_setArray hA'.array hD]
  simp only [hd]
  have hval : ∀ v < n, ∀ u ∈ T, ∀ B, h.Full u B → Valid B.shape ((List.range B.ndim).map fun k' => setBond (a, i, t, k) v τ (u, k')) := by
    intro v hv u hu B hB
    refine hn.valid_idx hx (fun p hp => ?_) (fun e he' => ?_) hu hB
    · have hpe : p ∉ halves (E1 ++ E2) := fun q => hp ((halves_sublist (by simp)).subset q)
      rw [setBond_apply, if_neg, h1 p hpe]
      rintro q
      exact hp (mem_halves.2 ⟨_, he, q⟩)
    · by_cases hee : e = (a, i, t, k)
      · subst hee
        simp only [setBond_apply, true_or, or_true, if_true, hd]
        exact ⟨hv, trivial⟩
      · have he2 : e ∈ E1 ++ E2 := by
          rcases List.mem_append.1 he' with q | q
          · simp [q]
          · rcases List.mem_cons.1 q with q | q
            · exact absurd q hee
            · simp [q]
        have hh := h2 e he2
        rw [hdim_setArray hA'.array hD] at hh
        have hperm : (halves ((a, i, t, k) :: (E1 ++ E2))).Nodup := by
          have : (halves (E1 ++ (a, i, t, k) :: E2)).Perm (halves ((a, i, t, k) :: (E1 ++ E2))) := by
            simp only [halves_append, halves_cons]
            exact (List.perm_middle.trans (List.Perm.cons _ List.perm_middle))
          exact this.nodup_iff.1 hn.once
        rw [halves_cons, List.nodup_cons, List.nodup_cons] at hperm
        obtain ⟨m1, m2, -⟩ := hperm
        simp only [List.mem_cons, not_or] at m1
        have a1 : ∀ p ∈ halves (E1 ++ E2), setBond (a, i, t, k) v τ p = τ p := by
          intro p hp
          rw [setBond_apply, if_neg]
          rintro (q | q)
          · rw [q] at hp; exact m1.2 hp
          · rw [q] at hp; exact m2 hp
        rw [a1 _ (mem_halves.2 ⟨e, he2, .inl rfl⟩), a1 _ (mem_halves.2 ⟨e, he2, .inr rfl⟩)]
        exact hh
  set p := (((List.range A.ndim).map fun k' => τ (t, k')).eraseIdx k) with hp
  set q := (((List.range A'.ndim).map fun k' => τ (a, k')).eraseIdx i) with hq
  have it : ∀ v, (List.range A.ndim).map (fun k' => setBond (a, i, t, k) v τ (t, k')) = p.insertIdx k v :=
    fun v => idx [] _ t k v τ hk (.inr rfl)
  have ia : ∀ v, (List.range A'.ndim).map (fun k' => setBond (a, i, t, k) v τ (a, k')) = q.insertIdx i v :=
    fun v => idx [] _ a i v τ hi (.inl rfl)
  by_cases hn0 : n = 0
  · simp [hn0]
  have hpv : Valid (A.shape.eraseIdx k) p := by
    have := (hval 0 (Nat.pos_of_ne_zero hn0) t l4 A hA).eraseIdx k
    rw [it 0, List.eraseIdx_insertIdx_self] at this
    exact this
  have hqv : Valid (A'.shape.eraseIdx i) q := by
    have := (hval 0 (Nat.pos_of_ne_zero hn0) a l3 A' hA').eraseIdx i
    rw [ia 0, List.eraseIdx_insertIdx_self] at this
    exact this
  set W := (((T.erase a).erase t).map (h.entry τ)).prod with hW
  have hCn : C.ndim = A.ndim := by unfold Nd.ndim; rw [hC]
  have hDn : D.ndim = A'.ndim := by unfold Nd.ndim; rw [hD]
  have entA : ∀ σ, h.entry σ a = A'.get ((List.range A'.ndim).map fun k => σ (a, k)) := fun σ => by
    unfold entry; rw [hA'.array]
  have entT : ∀ σ, h.entry σ t = A.get ((List.range A.ndim).map fun k => σ (t, k)) := fun σ => by
    unfold entry; rw [hA.array]
  have L : ∀ v ∈ Finset.range n, (T.map ((h.setArray t (some C)).entry (setBond (a, i, t, k) v τ))).prod =
      ∑ c ∈ Finset.range n, A.get (p.insertIdx k c) * A'.get (q.insertIdx i v) * X c v * W := by
    intro v hv
    rw [hrest C D (h.setArray t (some C)) (fun σ u _ hu => by rw [entry_setArray, if_neg hu]), hrestc, entry_setArray, entry_setArray,
      if_neg hta.symm, if_pos rfl, entA, ia, hCn, it, hCX p v hpv (Finset.mem_range.1 hv), Finset.sum_mul, Finset.mul_sum]
    exact Finset.sum_congr rfl fun c _ => by ring
  have Rr : ∀ v ∈ Finset.range n, (T.map ((h.setArray a (some D)).entry (setBond (a, i, t, k) v τ))).prod =
      ∑ c ∈ Finset.range n, A.get (p.insertIdx k v) * A'.get (q.insertIdx i c) * X v c * W := by
    intro v hv
    rw [hrest C D (h.setArray a (some D)) (fun σ u hu _ => by rw [entry_setArray, if_neg hu]), hrestc, entry_setArray, entry_setArray,
      if_neg hta, if_pos rfl, entT, it, hDn, ia, hDX q v hqv (Finset.mem_range.1 hv), Finset.sum_mul]
    exact Finset.sum_congr rfl fun c _ => by ring
  rw [Finset.sum_congr rfl L, Finset.sum_congr rfl Rr]
  exact Finset.sum_comm

end Heap
