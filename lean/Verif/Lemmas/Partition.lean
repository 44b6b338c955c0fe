import Verif.Spec.Partition
import Verif.Lemmas.Rk4
import Verif.Lemmas.Overlap2
import Verif.Props.C18

/-!
Lemmas for imaginary time: the normalization of the root of a canonical network normalizes the state.
-/

open scoped BigOperators
open Py

namespace ML

open Heap

variable {T R : Type} [Zero T] [Field R] [StarRing R]

theorem squareNorm_congr {D : List (ℕ × ℕ)} (hD : (D.map Prod.fst).Nodup) {φ χ : (ℕ → ℕ) → R} (h : SameState D φ χ) :
    squareNorm D φ = squareNorm D χ := by
  unfold squareNorm
  refine TreeSum.sumLeaves_congr' hD fun y _ hy => ?_
  rw [h y hy]

theorem squareNorm_smul (D : List (ℕ × ℕ)) (c : R) (φ : (ℕ → ℕ) → R) : squareNorm D (fun y => c * φ y) = c * star c * squareNorm D φ := by
  unfold squareNorm
  rw [← TreeSum.sumLeaves_mul_left]
  refine TreeSum.sumLeaves_congr fun y => ?_
  rw [star_mul]; ring

/-- The state's squared norm is that of the root array. -/
theorem squareNorm_root {s : Obj T R} {F : Forest} (ht : s.heap.IsTTN s.root F) (hc : s.heap.CanonicalTree s.root F) {A : Nd R}
    (hA : s.heap.Full s.root A) :
    squareNorm (s.heap.leafList s.root F) (s.heap.treeAmp s.root F) = sumIdx A.shape (fun w => A.get w * star (A.get w)) := by
  have e : Sim2 (s.withTerm []) s.heap := sim_withTerm s []
  have ht' : (s.withTerm []).IsTTN s.root F := Sim2.ttn (Sim.symm e) ht
  have hl0 : (s.withTerm []).isLeaf s.root = false := by rw [withTerm_isLeaf]; exact ht.leaf
  have hb : (s.withTerm []).bonds s.root F = s.heap.bonds s.root F := by unfold bonds; simp only [withTerm_isLeaf]
  have hc' : (s.withTerm []).CanonicalTree s.root F := fun b hb' => by
    rw [hb] at hb'
    obtain ⟨C, c1, c2⟩ := hc b hb'
    exact ⟨C, by rw [withTerm_array (mem_bonds.1 hb').2]; exact c1, c2⟩
  have hA1 : (s.withTerm []).array s.root = some A := by rw [withTerm_array ht.leaf]; exact hA.array
  have hA' : (s.withTerm []).Full s.root A := by
    obtain ⟨A', h'⟩ := ht'.full s.root (mem_tensors.2 ⟨.inl rfl, ht'.leaf⟩)
    obtain rfl : A = A' := Option.some.inj (hA1.symm.trans h'.array)
    exact h'
  have := overlap_root ht' hc' (fun b _ hl => by rw [withTerm_leaf (by rw [← withTerm_isLeaf s []]; exact hl)]; rfl) hA' hA.wf rfl hA.wf rfl
  rw [← this]
  unfold squareNorm
  rw [e.leafList ht']
  refine TreeSum.sumLeaves_congr fun x => ?_
  have e2 : ((s.withTerm []).setArray s.root (some A)).treeAmp s.root F x = s.heap.treeAmp s.root F x := by
    rw [e.treeAmp ht']
    refine treeAmp_congr (fun t => ?_) (fun t k => acc_setArray _ _ _ _ _) (fun t => ?_) _ _ _
    · rw [array_setArray]; split
      · subst_vars; exact hA1.symm
      · rfl
    · unfold isLeaf; rw [node_setArray]; split <;> rfl
  rw [e2]

theorem normalize_root {sqrt : R → R} (hq : SqrtOk sqrt) {s : Obj T R} {F : Forest} (ht : s.heap.IsTTN s.root F)
    (hc : s.heap.CanonicalTree s.root F) (hax : (s.heap.node s.root).axis = none)
    (h0 : squareNorm (s.heap.leafList s.root F) (s.heap.treeAmp s.root F) ≠ 0) :
    ∃ A B c, c ≠ 0 ∧ star c = c ∧ c * c = squareNorm (s.heap.leafList s.root F) (s.heap.treeAmp s.root F) ∧
      s.heap.array s.root = some A ∧ B.Wf ∧ B.shape = A.shape ∧ (∀ w, Valid A.shape w → B.get w = A.get w / c) ∧
      s.heap.normalize sqrt s.root true = .ok ((s.heap.setAux s.root (some A.conj)).setArray s.root (some B), some [c]) ∧
      SameState (s.heap.leafList s.root F) (s.heap.treeAmp s.root F)
        (fun y => c * ((s.heap.setAux s.root (some A.conj)).setArray s.root (some B)).treeAmp s.root F y) := by
  obtain ⟨A, hA⟩ := ht.full s.root (mem_tensors.2 ⟨.inl rfl, ht.leaf⟩)
  have hn := squareNorm_root ht hc hA
  rw [hn] at h0
  obtain ⟨B, c, b1, b2, b3, b4, b5, b6, b7⟩ := C18_root hq (h := s.heap) (t := s.root) (forced := true) (.inr rfl) hA.array hax hA.wf h0
  have hstar : star c = c := by
    rw [b5] at b7
    have e : sumIdx A.shape (fun p => B.get p * star (B.get p)) = sumIdx A.shape (fun p => (A.get p * star (A.get p)) * (c * star c)⁻¹) := by
      refine sumIdx_congr fun p hp => ?_
      rw [b6 p hp, star_div₀, div_mul_div_comm, div_eq_mul_inv]
    rw [e, sumIdx_mul_right, ← b2] at b7
    have hs : star c ≠ 0 := star_ne_zero.2 b1
    field_simp at b7
    exact b7.symm
  refine ⟨A, B, c, b1, hstar, by rw [hn, b2], hA.array, b4, b5, b6, b3, fun y hy => ?_⟩
  have hsim : Sim2 ((s.heap.setAux s.root (some A.conj)).setArray s.root (some B)) (s.heap.setArray s.root (some B)) :=
    sim2_setArray (Sim.aux (setAux_noAux _ _ _)) (by
      have : (s.heap.setAux s.root (some A.conj)).isLeaf s.root = s.heap.isLeaf s.root := (Sim.aux (setAux_noAux _ _ _)).isLeaf _
      rw [this]; exact ht.leaf) _
  have ht1 := ht.setArray hA.array b4 b5
  show _ = c * _
  rw [← hsim.treeAmp (Sim2.ttn (Sim.symm hsim) ht1)]
  have hm : s.root ∈ s.heap.tensors s.root F := mem_tensors.2 ⟨.inl rfl, ht.leaf⟩
  have lin := ht.isNet.amp_lin (ht.inRange hy) hm hA (B := A) rfl (Finset.univ : Finset Unit) (fun _ => c) (fun _ => B) (fun _ => b5)
    (fun w hw => by simp [b6 w hw, mul_div_cancel₀ _ b1])
  simp only [Finset.univ_unique, Finset.sum_singleton] at lin
  have e1 : ∀ (B : Nd R), B.shape = A.shape → (s.heap.setArray s.root (some B)).treeAmp s.root F y =
      (s.heap.setArray s.root (some B)).amp (s.heap.tensors s.root F) (s.heap.bonds s.root F) y := by
    intro B _
    have hl : ∀ l, (s.heap.setArray s.root (some B)).isLeaf l = s.heap.isLeaf l := fun l => by
      unfold isLeaf; rw [node_setArray]; split <;> rfl
    unfold treeAmp tensors bonds
    simp only [hl]
  rw [e1 B b5, ← lin, ← e1 A rfl]
  refine (treeAmp_congr (fun t => ?_) (fun t k => acc_setArray _ _ _ _ _) (fun t => ?_) _ _ _).symm
  · rw [array_setArray]; split
    · subst_vars; exact hA.array.symm
    · rfl
  · unfold isLeaf; rw [node_setArray]; split <;> rfl

end ML

namespace ML

open Heap

variable {T R : Type} [Zero T] [Field R] [StarRing R]

/-- The loop, from an intermediate state. -/
theorem run_core {sqrt : R → R} (hq : SqrtOk sqrt) {step : Obj T R → Res (Obj T R)} {P : Obj T R → Prop} {F : Forest} {D : List (ℕ × ℕ)}
    {L : ((ℕ → ℕ) → R) → (ℕ → ℕ) → R} (hP : Orthogonal P F D) (hL : Homogeneous D L) (hs : Realises step P F D L) :
    ∀ (n : ℕ) (s : Obj T R) (N : R) (φ : (ℕ → ℕ) → R), P s → star N = N → N ≠ 0 →
      SameState D φ (fun y => N * s.heap.treeAmp s.root F y) → (∀ k, 0 < k → k ≤ n → squareNorm D (L^[k] φ) ≠ 0) →
      ∃ s' N', imaginaryRun sqrt step n (s, N) = .ok (s', N') ∧ P s' ∧ star N' = N' ∧ N' ≠ 0 ∧
        SameState D (L^[n] φ) (fun y => N' * s'.heap.treeAmp s'.root F y) ∧
        (0 < n → squareNorm D (s'.heap.treeAmp s'.root F) = 1) := by
  intro n
  induction n with
  | zero => intro s N φ h1 h2 h3 h4 _; exact ⟨s, N, rfl, h1, h2, h3, h4, fun h => absurd h (lt_irrefl _)⟩
  | succ n ih =>
    intro s N φ h1 h2 h3 h4 h5
    obtain ⟨s1, a1, a2, a3⟩ := hs { s with time := none } (hP.time s h1) rfl
    have hD : (D.map Prod.fst).Nodup := by rw [← hP.leaves s h1]; exact leafList_nodup (hP.ttn s h1)
    have b1 : SameState D (L φ) (fun y => N * s1.heap.treeAmp s1.root F y) := fun y hy => by
      rw [hL N φ _ h4 y hy]
      exact congrArg (N * ·) (a3 y hy).symm
    have b2 : squareNorm D (s1.heap.treeAmp s1.root F) ≠ 0 := by
      have := h5 1 Nat.one_pos (by omega)
      rw [Function.iterate_one, squareNorm_congr hD b1, squareNorm_smul] at this
      exact fun q => this (by rw [q, mul_zero])
    rw [← hP.leaves s1 a2] at b2
    obtain ⟨A, B, c, c1, c2, c3, c4, c5, c6, c7, c8, c9⟩ := normalize_root hq (hP.ttn s1 a2) (hP.can s1 a2) (hP.axis s1 a2) b2
    rw [hP.leaves s1 a2] at c3 c9
    set s2 : Obj T R := { s1 with heap := (s1.heap.setAux s1.root (some A.conj)).setArray s1.root (some B) } with hs2
    have p2 : P s2 := hP.scale s1 a2 A B _ c c4 c5 c6 c7
    have e1 : imaginaryStep sqrt step (s, N) = .ok (s2, N * c) := by
      unfold imaginaryStep
      simp only
      rw [a1, ok_bind, c8, ok_bind]
      simp only [hP.axis s1 a2]
      rfl
    have hn2 : squareNorm D (s2.heap.treeAmp s2.root F) = 1 := by
      have := squareNorm_congr hD c9
      rw [squareNorm_smul, c2, c3] at this
      have h0 : squareNorm D (s1.heap.treeAmp s1.root F) ≠ 0 := by rw [← c3]; exact mul_ne_zero c1 c1
      exact mul_left_cancel₀ h0 (by rw [mul_one]; exact this.symm)
    obtain ⟨s', N', d1, d2, d3, d4, d5, d6⟩ := ih s2 (N * c) (L φ) p2 (by rw [star_mul, h2, c2, mul_comm]) (mul_ne_zero h3 c1)
      (fun y hy => by
        rw [b1 y hy]
        show N * _ = N * c * _
        rw [c9 y hy]
        exact (mul_assoc _ _ _).symm)
      (fun k hk hkn => by
        have := h5 (k + 1) (Nat.succ_pos _) (by omega)
        rwa [Function.iterate_succ_apply] at this)
    refine ⟨s', N', ?_, d2, d3, d4, ?_, fun _ => ?_⟩
    · show (imaginaryStep sqrt step (s, N) >>= fun x => imaginaryRun sqrt step n x) = _
      rw [e1, ok_bind, d1]
    · rw [Function.iterate_succ_apply]; exact d5
    · rcases Nat.eq_zero_or_pos n with q | q
      · subst q
        have : (s', N') = (s2, N * c) := (Except.ok.inj d1).symm
        cases this
        exact hn2
      · exact d6 q

/-- Networks of one tensor: another array, `aux`, caches, or operators on the leaves. -/
theorem DirectReady.twin {s u : Obj T R} {F : Forest} (hr : DirectReady s F) (hone : ∀ l ∈ F.ids, s.heap.isLeaf l = true) {A0 B : Nd R}
    (hA : s.heap.array s.root = some A0) (hB : B.Wf) (hBs : B.shape = A0.shape)
    (e : Twin u { s with heap := s.heap.setArray s.root (some B) }) :
    DirectReady u F ∧ (∀ l ∈ F.ids, u.heap.isLeaf l = true) ∧ u.heap.leafList u.root F = s.heap.leafList s.root F := by
  have ht0 := hr.ttn.setArray hA hB hBs
  have hroot : u.root = s.root := e.root
  have hleaf0 : ∀ l, (s.heap.setArray s.root (some B)).isLeaf l = s.heap.isLeaf l := fun l => by
    unfold isLeaf; rw [node_setArray]; split <;> rfl
  have haxis0 : ∀ l, ((s.heap.setArray s.root (some B)).node l).axis = (s.heap.node l).axis := fun l => by
    rw [node_setArray]; split <;> rfl
  have hleaf : ∀ l, u.heap.isLeaf l = s.heap.isLeaf l := fun l => (e.sim.isLeaf l).trans (hleaf0 l)
  have hone' : ∀ l ∈ F.ids, u.heap.isLeaf l = true := fun l hl => by rw [hleaf]; exact hone l hl
  have htu : u.heap.IsTTN s.root F := Sim2.ttn (Sim.symm e.sim) ht0
  have hten : u.heap.tensors s.root F = [s.root] := tensors_one htu.leaf hone'
  have hterms : u.allTerms none = s.allTerms none := e.terms
  have hnow : u.now = s.now := e.now
  have hll : u.heap.leafList s.root F = s.heap.leafList s.root F := by
    rw [e.sim.leafList htu]
    unfold leafList
    simp only [hleaf0, hdim_setArray hA hBs]
  refine ⟨⟨?_, ?_, ?_, ?_, ?_, ?_, ?_, ?_⟩, hone', by rw [hroot, hll]⟩
  · rw [hroot]; exact htu
  · rw [hroot]
    refine ⟨by rw [e.sim.axis, haxis0]; exact hr.rooted.1, ?_⟩
    rw [bonds_one hone']
    simp
  · unfold CanonicalTree
    rw [bonds_one hone']
    simp
  · rw [hroot, hten]
    intro t ht hax
    simp only [List.mem_cons, List.not_mem_nil, or_false] at ht
    subst ht
    rw [e.sim.axis, haxis0] at hax
    exact absurd hr.rooted.1 hax
  · intro l hl hlf
    rw [e.sim.axis, haxis0]
    exact hr.axes l hl (hone l hl)
  · intro term hterm p hp
    rw [hterms] at hterm
    rw [hleaf]
    exact hr.leaf term hterm p hp
  · intro term hterm p hp
    rw [hterms] at hterm
    rw [hroot, hll] at hp
    rw [hnow]
    exact hr.fits term hterm p hp
  · rw [hterms]; exact hr.terms

/-- One Runge-Kutta step of a network of one tensor (as `C69_rk4_partial`, and the network is as before). -/
theorem rk4_one [CharZero R] {s : Obj T R} {F : Forest} (hr : DirectReady s F) (hone : ∀ l ∈ F.ids, s.heap.isLeaf l = true)
    (lin : Linalg R) {coef : R} (hcoef : coef ≠ 0) (initEnergy : Option R) (dt : R) {fuel : ℕ} (hf : F.ids.length < fuel) :
    ∃ s' A0 B, rk4Step fuel lin coef initEnergy dt s = .ok s' ∧ s.heap.array s.root = some A0 ∧ B.Wf ∧ B.shape = A0.shape ∧
      Twin s' { s with heap := s.heap.setArray s.root (some B) } := by
  have hlin : lin.Works s F := by
    intro e he
    rw [bonds_one hone] at he
    cases he
  obtain ⟨s2, inv, s', -, t2, -, -, a5, -, -, s1, b1, b2⟩ := derivative_core' hr hlin hcoef initEnergy hf
  have hl2 : ∀ l, s2.heap.isLeaf l = s.heap.isLeaf l := t2.sim.isLeaf
  have hone2 : ∀ l ∈ F.ids, s2.heap.isLeaf l = true := fun l hl => by rw [hl2]; exact hone l hl
  have hs : OneReady s2 F inv := ⟨a5.ready, hone2, a5.env _ (mem_tensors.2 ⟨.inl rfl, a5.ready.ttn.leaf⟩), by rw [t2.terms]; exact hr.terms⟩
  obtain ⟨s', B, c1, c2, c3, c4⟩ := rk4_core hs (fun l hl hlf => by
    rw [← edges_targets F s2.root] at hl
    obtain ⟨e, he, rfl⟩ := List.mem_map.1 hl
    exact a5.leafArr e he hlf) hcoef initEnergy dt hf b1 b2
  obtain ⟨A0, hA0⟩ := hr.ttn.full s.root (mem_tensors.2 ⟨.inl rfl, hr.ttn.leaf⟩)
  have hA2 : s2.heap.array s2.root = some A0 := by
    rw [t2.root, t2.sim.array (by rw [hl2]; exact hr.ttn.leaf)]; exact hA0.array
  refine ⟨s', A0, B, c1, hA0.array, c2.wf, c2.shape A0 hA2, ?_, c2.twin.root.trans t2.root, c2.twin.hList.trans t2.hList,
    c2.twin.fList.trans t2.fList, c2.twin.time.trans t2.time⟩
  refine Sim.trans c2.twin.sim ?_
  show Sim2 (s2.heap.setArray s2.root (some B)) _
  rw [t2.root]
  exact sim2_setArray t2.sim (by rw [hl2]; exact hr.ttn.leaf) _

end ML
