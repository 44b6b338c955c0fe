import Verif.Model.Seom
import Verif.Spec.Seom
import Verif.Lemmas.Heom2
import Verif.Lemmas.Sbm2

/-! How the terms of `heom/seom.py` act. -/

open scoped BigOperators
open Py

namespace Seom

open Heom SeomSpec

variable {dims n : List ℕ} {d e k a q : ℕ}

theorem shK (hk : k < dims.length) : (dims ++ [e, d]).getD k 0 = dims.getD k 0 := List.getD_append _ _ _ _ hk
theorem shP : (dims ++ [e, d]).getD (dims.length + 1) 0 = d := by simp
theorem setK (hn : n.length = dims.length) (hk : k < dims.length) (x : ℕ) : (n ++ [q, a]).set k x = n.set k x ++ [q, a] := by
  rw [List.set_append_left _ _ (by omega)]
theorem getK (hn : n.length = dims.length) (hk : k < dims.length) : (n ++ [q, a]).getD k 0 = n.getD k 0 :=
  List.getD_append _ _ _ _ (by omega)

theorem fitP (M : Nd ℂ) {t : Term} (hM : M.shape = [d, d]) (ht : Fits (dims ++ [e, d]) t) :
    Fits (dims ++ [e, d]) ((dims.length + 1, M) :: t) := by
  intro m hm
  rcases List.mem_cons.1 hm with rfl | hm
  · exact ⟨by simp, by rw [shP]; exact hM⟩
  · exact ht m hm

theorem fitK (M : Nd ℂ) {t : Term} (hk : k < dims.length) (hM : M.shape = [dims.getD k 0, dims.getD k 0]) (ht : Fits (dims ++ [e, d]) t) :
    Fits (dims ++ [e, d]) ((k, M) :: t) := by
  intro m hm
  rcases List.mem_cons.1 hm with rfl | hm
  · exact ⟨by simp; omega, by rw [shK hk]; exact hM⟩
  · exact ht m hm

theorem fitNil : Fits (dims ++ [e, d]) [] := fun m hm => absurd hm (by simp)

theorem termP (M : Nd ℂ) (f : List ℕ → ℂ) (hn : n.length = dims.length) : termFn (dims ++ [e, d]) [(dims.length + 1, M)] f (n ++ [q, a]) =
    ∑ s ∈ Finset.range d, f (n ++ [q, s]) * M.get [s, a] := by
  simp only [termFn, shP, set_j hn, get_j hn]

theorem termK (M : Nd ℂ) (f : List ℕ → ℂ) (hn : n.length = dims.length) (hk : k < dims.length) :
    termFn (dims ++ [e, d]) [(k, M)] f (n ++ [q, a]) =
    ∑ x ∈ Finset.range (dims.getD k 0), f (n.set k x ++ [q, a]) * M.get [x, n.getD k 0] := by
  simp only [termFn, shK hk, setK hn hk, getK hn hk]

theorem termPK (M N : Nd ℂ) (f : List ℕ → ℂ) (hn : n.length = dims.length) (hk : k < dims.length) :
    termFn (dims ++ [e, d]) [(dims.length + 1, M), (k, N)] f (n ++ [q, a]) =
    ∑ s ∈ Finset.range d, (∑ x ∈ Finset.range (dims.getD k 0), f (n.set k x ++ [q, s]) * N.get [x, n.getD k 0]) * M.get [s, a] := by
  have hn' : ∀ x, (n.set k x).length = dims.length := fun x => by simp [hn]
  simp only [termFn, shP, shK hk, setK hn hk, getK hn hk, set_j (hn' _), get_j (hn' _), Finset.sum_mul]
  rw [Finset.sum_comm]
  refine Finset.sum_congr rfl fun s _ => Finset.sum_congr rfl fun x _ => by ring

namespace Hierachy

variable (H : Hierachy)

theorem creator_ok (hk : k < H.nDims.length) : ∃ M, H.creator k = .ok M ∧ M.Wf ∧ M.shape = [H.nDims.getD k 0, H.nDims.getD k 0] ∧
    ∀ a b, a < H.nDims.getD k 0 → b < H.nDims.getD k 0 →
      M.get [a, b] = if (b : ℤ) = a + 1 then ((Real.sqrt b : ℝ) : ℂ) else 0 := by
  unfold creator
  rw [item_ok hk 0, ok_bind]
  exact eye_matmul 1 (sqrt_shape _) (fun a b ha hb => sqrt_diag_get ha hb)

theorem annihilator_ok (hk : k < H.nDims.length) : ∃ M, H.annihilator k = .ok M ∧ M.Wf ∧
    M.shape = [H.nDims.getD k 0, H.nDims.getD k 0] ∧ ∀ a b, a < H.nDims.getD k 0 → b < H.nDims.getD k 0 →
      M.get [a, b] = if (b : ℤ) = a + -1 then ((Real.sqrt (b + 1 : ℕ) : ℝ) : ℂ) else 0 := by
  unfold annihilator
  rw [item_ok hk 0, ok_bind]
  obtain ⟨M, h1, h2, h3, h4⟩ := matmul_eye (-1) (sqrt_shape (H.nDims.getD k 0)) (fun a b ha hb => sqrt_diag_get ha hb)
  refine ⟨M, h1, h2, h3, fun a b ha hb => ?_⟩
  rw [h4 a b ha hb]
  by_cases h : (b : ℤ) = a + -1
  · rw [if_pos h, if_pos h, show b + 1 = a by omega]
  · rw [if_neg h, if_neg h]

theorem numberer_ok (hk : k < H.nDims.length) : H.numberer k = .ok (npDiag (arange (H.nDims.getD k 0))) := by
  unfold numberer
  rw [item_ok hk 0, ok_bind]
  rfl

/-- The terms of one mode. -/
theorem diffK_ok (hop : H.op.shape = [d, d]) (hk : k < H.nDims.length) (h1 : H.nDims.length ≤ H.corr.symm.length)
    (h2 : H.nDims.length ≤ H.corr.asymm.length) :
    ∃ ts, H.diffK k = .ok ts ∧ (∀ t ∈ ts, Fits (H.nDims ++ [e, d]) t) ∧
      ∀ p : (List ℕ → ℂ) × List ℕ × ℕ × ℕ, Valid H.nDims p.2.1 →
        (ts.map fun t => termFn (H.nDims ++ [e, d]) t p.1 (p.2.1 ++ [p.2.2.1, p.2.2.2])).sum =
        ∑ s ∈ Finset.range d, H.op.get [s, p.2.2.2] *
          (((Real.sqrt (p.2.1.getD k 0 + 1 : ℕ) : ℝ) : ℂ) * upper H.nDims (fun n a => p.1 (n ++ [p.2.2.1, a])) p.2.1 k s
          + (H.corr.symm.getD k 0 + Complex.I * H.corr.asymm.getD k 0) * ((Real.sqrt (p.2.1.getD k 0 : ℕ) : ℝ) : ℂ) *
            lower (fun n a => p.1 (n ++ [p.2.2.1, a])) p.2.1 k s) := by
  obtain ⟨C, c1, c2, c3, c4⟩ := H.creator_ok hk
  obtain ⟨A, a1, a2, a3, a4⟩ := H.annihilator_ok hk
  refine ⟨[[(H.p, H.op), (k, A)], [(H.p, Nd.smul (H.corr.symm.getD k 0 + Complex.I * H.corr.asymm.getD k 0) H.op), (k, C)]], ?_, ?_, ?_⟩
  · unfold diffK
    rw [item_ok (lt_of_lt_of_le hk h1) 0, ok_bind, item_ok (lt_of_lt_of_le hk h2) 0, ok_bind]
    dsimp only
    rw [c1, ok_bind, a1, ok_bind]
    rfl
  · intro t ht
    simp only [List.mem_cons, List.not_mem_nil, or_false] at ht
    rcases ht with rfl | rfl
    · exact fitP _ hop (fitK _ hk a3 fitNil)
    · exact fitP _ hop (fitK _ hk c3 fitNil)
  · rintro ⟨f, n, q, a⟩ hn
    dsimp only at hn ⊢
    have hl := hn.length_eq
    have hlt := hn.getD_lt hk 0 0
    simp only [List.map_cons, List.map_nil, List.sum_cons, List.sum_nil, add_zero]
    unfold p
    rw [termPK _ _ _ hl hk, termPK _ _ _ hl hk, ← Finset.sum_add_distrib]
    refine Finset.sum_congr rfl fun s _ => ?_
    rw [sum_up hlt (fun x => f (n.set k x ++ [q, s])) (fun b => ((Real.sqrt (b + 1 : ℕ) : ℝ) : ℂ)) a4,
      sum_down hlt (fun x => f (n.set k x ++ [q, s])) (fun b => ((Real.sqrt b : ℝ) : ℂ)) c4, smul_get]
    unfold upper lower
    dsimp only
    split <;> split <;> ring

/-- The terms of the occupation numbers. -/
theorem diffN_ok {close : ℂ → Bool} (hc : close 0 = true) (h1 : H.nDims.length ≤ H.corr.exp.length) :
    ∃ ts, H.diffN close = .ok ts ∧ (∀ t ∈ ts, Fits (H.nDims ++ [e, d]) t) ∧
      ∀ p : (List ℕ → ℂ) × List ℕ × ℕ × ℕ, Valid H.nDims p.2.1 →
        (ts.map fun t => termFn (H.nDims ++ [e, d]) t p.1 (p.2.1 ++ [p.2.2.1, p.2.2.2])).sum =
          ∑ k ∈ Finset.range H.nDims.length, (if close (H.corr.exp.getD k 0) then 0 else Complex.I / 2 * H.corr.exp.getD k 0) *
            p.2.1.getD k 0 * p.1 (p.2.1 ++ [p.2.2.1, p.2.2.2]) := by
  obtain ⟨tss, t1, t2, t3⟩ := Sbm.mapM_sum
    ((List.range H.nDims.length).flatMap fun i => (List.range H.nDims.length).map fun j => (i, j))
    (f := fun p : ℕ × ℕ => H.diffNPair close p.1 p.2) (P := Fits (H.nDims ++ [e, d]))
    (Q := fun p : (List ℕ → ℂ) × List ℕ × ℕ × ℕ => Valid H.nDims p.2.1)
    (v := fun p t => termFn (H.nDims ++ [e, d]) t p.1 (p.2.1 ++ [p.2.2.1, p.2.2.2]))
    (G := fun p (i : ℕ × ℕ) => if i.1 = i.2 then (if close (H.corr.exp.getD i.1 0) then 0 else Complex.I / 2 * H.corr.exp.getD i.1 0) *
            p.2.1.getD i.1 0 * p.1 (p.2.1 ++ [p.2.2.1, p.2.2.2]) else 0) (by
      rintro ⟨i, j⟩ hp
      simp only [List.mem_flatMap, List.mem_map, List.mem_range, Prod.mk.injEq] at hp
      obtain ⟨i', hi, j', hj, rfl, rfl⟩ := hp
      dsimp only
      unfold diffNPair
      rw [if_neg (by push Not; omega)]
      by_cases hij : i' = j'
      · subst hij
        simp only [if_true, pure_bind]
        by_cases hcl : close (H.corr.exp.getD i' 0)
        · rw [if_pos hcl]
          refine ⟨[], rfl, by simp, ?_⟩
          intro p _
          simp only [List.map_nil, List.sum_nil, if_pos hcl, zero_mul]
        · rw [if_neg hcl, H.numberer_ok hi, ok_bind, if_neg (not_not.2 rfl)]
          refine ⟨_, rfl, ?_, ?_⟩
          · intro t ht
            obtain rfl := List.mem_singleton.1 ht
            exact fitK _ hi (arange_shape _) fitNil
          · rintro ⟨f, n, q, a⟩ hn
            dsimp only at hn ⊢
            have hl := hn.length_eq
            simp only [List.map_cons, List.map_nil, List.sum_cons, List.sum_nil, add_zero]
            rw [termK _ _ hl hi, if_neg hcl, sum_diag (hn.getD_lt hi 0 0) (fun x => f (n.set i' x ++ [q, a]))
              (fun x => 1 / 2 * Complex.I * hbar * H.corr.exp.getD i' 0 * (x : ℂ)) (fun a b ha hb => by
                rw [smul_get, arange_diag_get ha hb]; split <;> simp), set_self (by omega)]
            unfold hbar
            ring
      · simp only [if_neg hij, pure_bind, hc, if_true]
        exact ⟨[], rfl, by simp, by simp⟩)
  refine ⟨tss.flatten, ?_, t2, ?_⟩
  · unfold diffN
    dsimp only
    rw [t1, ok_bind]
    rfl
  · intro p hn
    rw [t3 p hn]
    generalize H.nDims.length = m
    generalize hG : (fun k : ℕ => (if close (H.corr.exp.getD k 0) then 0 else Complex.I / 2 * H.corr.exp.getD k 0) *
      p.2.1.getD k 0 * p.1 (p.2.1 ++ [p.2.2.1, p.2.2.2])) = G
    have hG' : ∀ k, (if close (H.corr.exp.getD k 0) then 0 else Complex.I / 2 * H.corr.exp.getD k 0) *
      p.2.1.getD k 0 * p.1 (p.2.1 ++ [p.2.2.1, p.2.2.2]) = G k := fun k => congrFun hG k
    simp only [hG']
    have key : ∀ l : List ℕ, ((l.flatMap fun i => (List.range m).map fun j => (i, j)).map fun p : ℕ × ℕ =>
        if p.1 = p.2 then G p.1 else 0).sum = (l.map fun k => if k < m then G k else 0).sum := by
      intro l
      induction l with
      | nil => rfl
      | cons k l ih =>
        rw [List.flatMap_cons, List.map_append, List.sum_append, ih, List.map_cons, List.sum_cons, List.map_map]
        congr 1
        rw [show ((fun p : ℕ × ℕ => if p.1 = p.2 then G p.1 else 0) ∘ fun j => (k, j)) =
          fun j => if k = j then G k else 0 from rfl, sum_range_list, Finset.sum_ite_eq]
        simp
    rw [key, sum_range_list]
    exact Finset.sum_congr rfl fun k hk => if_pos (Finset.mem_range.1 hk)

end Hierachy

end Seom
