import Verif.Lemmas.Sbm
import Verif.Lemmas.Phonon

/-! The loops over the oscillators in `models/sbm.py`. -/

open scoped BigOperators
open Py

namespace Sbm

open SbmSpec Heom

/-- Adding what the steps of a loop give. -/
theorem mapM_sum {ι X π : Type} {f : ι → Res (List X)} {P : X → Prop} {Q : π → Prop} {v : π → X → ℂ} {G : π → ι → ℂ} (l : List ι)
    (h : ∀ k ∈ l, ∃ ts, f k = .ok ts ∧ (∀ t ∈ ts, P t) ∧ ∀ p, Q p → (ts.map (v p)).sum = G p k) :
    ∃ tss, l.mapM f = .ok tss ∧ (∀ t ∈ tss.flatten, P t) ∧ ∀ p, Q p → (tss.flatten.map (v p)).sum = (l.map (G p)).sum := by
  induction l with
  | nil => exact ⟨[], rfl, by simp, by simp⟩
  | cons k l ih =>
    obtain ⟨ts, h1, h2, h3⟩ := h k (by simp)
    obtain ⟨tss, g1, g2, g3⟩ := ih fun x hx => h x (by simp [hx])
    refine ⟨ts :: tss, by rw [List.mapM_cons, h1, ok_bind, g1]; rfl, ?_, ?_⟩
    · intro t ht
      rw [List.flatten_cons, List.mem_append] at ht
      exact ht.elim (h2 t) (g2 t)
    · intro p hp
      rw [List.flatten_cons, List.map_append, List.sum_append, h3 p hp, g3 p hp, List.map_cons, List.sum_cons]

/-- The indices of an array `Sh` seen as `(a, n)`: the system at axis `x`, oscillator `k` at axis `y + k`, everything else fixed. -/
structure Emb (Sh : List ℕ) (d : ℕ) (dims : List ℕ) (x y : ℕ) (emb : ℕ → List ℕ → List ℕ) : Prop where
  setX : ∀ a n s, n.length = dims.length → (emb a n).set x s = emb s n
  setY : ∀ a n k v, n.length = dims.length → k < dims.length → (emb a n).set (y + k) v = emb a (n.set k v)
  getX : ∀ a n, n.length = dims.length → (emb a n).getD x 0 = a
  getY : ∀ a n k, n.length = dims.length → k < dims.length → (emb a n).getD (y + k) 0 = n.getD k 0

/-- One oscillator. -/
theorem phTerms_ok {L : Type} [DecidableEq L] (S : SpinBoson) {d : ℕ} (hop : S.op.shape = [d, d]) {order : List L} {sys ph : L} {Sh dims : List ℕ}
    {x y k : ℕ} (hx : order.idxOf sys = x) (hy : order.idxOf ph = y + k) (lx : x < Sh.length) (ly : y + k < Sh.length)
    (sx : Sh.getD x 0 = d) (sy : Sh.getD (y + k) 0 = dims.getD k 0) (hk : k < dims.length) (h1 : 1 ≤ dims.getD k 0) (c : ℂ) (omega g : ℝ) :
    ∃ ts, S.phTerms c sys ph omega g (dims.getD k 0) = .ok ts ∧
      (∀ t ∈ ts, Fits Sh (t.map fun m => (order.idxOf m.1, m.2))) ∧
      ∀ (p : (ℕ → List ℕ → List ℕ) × (List ℕ → ℂ) × ℕ × List ℕ), (Emb Sh d dims x y p.1 ∧ Valid dims p.2.2.2) →
        (ts.map fun t => termFn Sh (t.map fun m => (order.idxOf m.1, m.2)) p.2.1 (p.1 p.2.2.1 p.2.2.2)).sum =
        c * (omega * (p.2.2.2.getD k 0 + 1 / 2) * p.2.1 (p.1 p.2.2.1 p.2.2.2) +
          g * ∑ s ∈ Finset.range d, S.op.get [s, p.2.2.1] *
            (((Real.sqrt (p.2.2.2.getD k 0 : ℕ) : ℝ) : ℂ) * psiBelow (fun a n => p.2.1 (p.1 a n)) p.2.2.2 k s +
            ((Real.sqrt (p.2.2.2.getD k 0 + 1 : ℕ) : ℝ) : ℂ) * psiAbove dims (fun a n => p.2.1 (p.1 a n)) p.2.2.2 k s)) := by
  set P : Phonon := ⟨dims.getD k 0, omega, 1, 1⟩ with hP
  have hPd : P.dim = dims.getD k 0 := rfl
  have s1 := P.annihilation_shape h1
  have s2 := P.creation_shape h1
  obtain ⟨X, x1, x2, x3, x4⟩ := Nd.add_ok (a := P.annihilation) (b := P.creation) (Nd.ofFn_wf _ _) (Nd.ofFn_wf _ _) (s1.trans s2.symm)
  refine ⟨[[(ph, Nd.smul c P.hamiltonian)], [(ph, Nd.smul g X), (sys, Nd.smul c S.op)]], ?_, ?_, ?_⟩
  · unfold SpinBoson.phTerms
    dsimp only
    rw [← hP, x1]
    rfl
  · intro t ht m hm
    simp only [List.mem_cons, List.not_mem_nil, or_false] at ht
    rcases ht with rfl | rfl
    · simp only [List.map_cons, List.map_nil, List.mem_singleton] at hm
      subst hm
      dsimp only
      rw [hy, sy]
      exact ⟨ly, P.hamiltonian_shape⟩
    · simp only [List.map_cons, List.map_nil, List.mem_cons, List.not_mem_nil, or_false] at hm
      rcases hm with rfl | rfl
      · dsimp only
        rw [hy, sy]
        exact ⟨ly, x3.trans s1⟩
      · dsimp only
        rw [hx, sx]
        exact ⟨lx, hop⟩
  · rintro ⟨emb, f, a, n⟩ ⟨hE, hn⟩
    dsimp only at hE hn ⊢
    have hl := hn.length_eq
    have hlt := hn.getD_lt hk 0 0
    simp only [List.map_cons, List.map_nil, List.sum_cons, List.sum_nil, hx, hy, termFn, sx, sy, add_zero]
    rw [mul_add]
    congr 1
    · simp only [hE.setY a n k _ hl hk, hE.getY a n k hl hk]
      rw [sum_diag hlt (fun b => f (emb a (n.set k b))) (fun b => c * (omega * (b + 1 / 2))) fun u v hu hv => by
        rw [smul_get, P.hamiltonian_get hu hv]
        split
        · simp only [hP]; push_cast; ring
        · exact mul_zero _]
      rw [set_self (by omega)]
      ring
    · simp only [hE.setX a n _ hl, hE.getX a n hl, hE.setY _ n k _ hl hk, hE.getY _ n k hl hk, smul_get]
      have key : ∀ s, (∑ b ∈ Finset.range (dims.getD k 0), f (emb s (n.set k b)) * (g * X.get [b, n.getD k 0])) =
          g * (((Real.sqrt (n.getD k 0 : ℕ) : ℝ) : ℂ) * psiBelow (fun a n => f (emb a n)) n k s +
            ((Real.sqrt (n.getD k 0 + 1 : ℕ) : ℝ) : ℂ) * psiAbove dims (fun a n => f (emb a n)) n k s) := by
        intro s
        have e : ∀ b ∈ Finset.range (dims.getD k 0), f (emb s (n.set k b)) * (g * X.get [b, n.getD k 0]) =
            g * (f (emb s (n.set k b)) * P.annihilation.get [b, n.getD k 0]) + g * (f (emb s (n.set k b)) * P.creation.get [b, n.getD k 0]) := by
          intro b hb
          rw [x4 _ (by rw [s1]; exact Phonon.valid2 (Finset.mem_range.1 hb) hlt)]
          ring
        rw [Finset.sum_congr rfl e, Finset.sum_add_distrib, ← Finset.mul_sum, ← Finset.mul_sum, ← mul_add]
        congr 2
        · rw [sum_down hlt (fun b => f (emb s (n.set k b))) (fun b => ((Real.sqrt (b : ℕ) : ℝ) : ℂ)) fun u v hu hv => by
            rw [P.annihilation_get hu hv]
            by_cases h : v = u + 1
            · subst h; rw [if_pos rfl, if_pos (by push_cast; ring)]
            · rw [if_neg h, if_neg (by omega)]]
          unfold psiBelow
          split <;> simp
        · rw [sum_up hlt (fun b => f (emb s (n.set k b))) (fun b => ((Real.sqrt (b + 1 : ℕ) : ℝ) : ℂ)) fun u v hu hv => by
            rw [P.creation_get hu hv]
            by_cases h : u = v + 1
            · subst h; rw [if_pos rfl, if_pos (by push_cast; ring)]
            · rw [if_neg h, if_neg (by omega)]]
          unfold psiAbove
          split <;> simp
      simp only [key]
      rw [Finset.mul_sum, Finset.mul_sum]
      exact Finset.sum_congr rfl fun s _ => by ring

/-- A loop over the oscillators. -/
theorem phLoop_ok {L : Type} [DecidableEq L] (S : SpinBoson) {d : ℕ} (hop : S.op.shape = [d, d]) (hlen : S.phDims.length = S.ph.length)
    (hpos : ∀ m ∈ S.phDims, 1 ≤ m) {order : List L} {sys : L} {phs : List L} (hphs : phs.length = S.ph.length) {Sh : List ℕ}
    {x y : ℕ} (hx : order.idxOf sys = x) (hy : ∀ k (hk : k < phs.length), order.idxOf phs[k] = y + k) (lx : x < Sh.length)
    (ly : y + S.phDims.length ≤ Sh.length)
    (sx : Sh.getD x 0 = d) (sy : ∀ k, k < S.phDims.length → Sh.getD (y + k) 0 = S.phDims.getD k 0) (c : ℂ) :
    ∃ ts, S.phLoop c sys phs = .ok ts ∧
      (∀ t ∈ onAxes order ts, Fits Sh t) ∧
      ∀ (emb : ℕ → List ℕ → List ℕ) (f : List ℕ → ℂ) (a : ℕ) (n : List ℕ), Emb Sh d S.phDims x y emb → Valid S.phDims n →
        ((onAxes order ts).map fun t => termFn Sh t f (emb a n)).sum =
        c * ∑ k ∈ Finset.range S.ph.length, ((S.ph.getD k 0).1 * (n.getD k 0 + 1 / 2) * f (emb a n) +
          (S.ph.getD k 0).2 * ∑ s ∈ Finset.range d, S.op.get [s, a] *
            (((Real.sqrt (n.getD k 0 : ℕ) : ℝ) : ℂ) * psiBelow (fun a n => f (emb a n)) n k s +
            ((Real.sqrt (n.getD k 0 + 1 : ℕ) : ℝ) : ℂ) * psiAbove S.phDims (fun a n => f (emb a n)) n k s)) := by
  have hz : (phs.zip (S.ph.zip S.phDims)) = (List.range S.ph.length).map fun k => (phs.getD k sys, (S.ph.getD k 0, S.phDims.getD k 0)) := by
    refine List.ext_getElem (by simp; omega) fun k h1 h2 => ?_
    have hk : k < S.ph.length := by simpa using h2
    simp only [List.getElem_zip, List.getElem_map, List.getElem_range]
    rw [List.getD_eq_getElem _ _ (by omega), List.getD_eq_getElem _ _ (by omega), List.getD_eq_getElem _ _ (by omega)]
  obtain ⟨tss, t1, t2, t3⟩ := mapM_sum (X := LTerm L) (π := (ℕ → List ℕ → List ℕ) × (List ℕ → ℂ) × ℕ × List ℕ)
    (f := fun k => S.phTerms c sys (phs.getD k sys) (S.ph.getD k 0).1 (S.ph.getD k 0).2 (S.phDims.getD k 0))
    (P := fun t => Fits Sh (t.map fun m => (order.idxOf m.1, m.2)))
    (Q := fun p => Emb Sh d S.phDims x y p.1 ∧ Valid S.phDims p.2.2.2)
    (v := fun p t => termFn Sh (t.map fun m => (order.idxOf m.1, m.2)) p.2.1 (p.1 p.2.2.1 p.2.2.2))
    (List.range S.ph.length) (fun k hk => by
      have hk := List.mem_range.1 hk
      exact phTerms_ok S hop hx (by rw [List.getD_eq_getElem _ _ (by omega)]; exact hy k (by omega)) lx (by omega) sx (sy k (by omega)) (by omega)
        (by rw [List.getD_eq_getElem _ _ (by omega)]; exact hpos _ (List.getElem_mem _)) c _ _)
  refine ⟨tss.flatten, ?_, ?_, ?_⟩
  · unfold SpinBoson.phLoop
    rw [hz, List.mapM_map]
    exact (congrArg (· >>= fun tss : List (List (LTerm L)) => (pure tss.flatten : Res _)) t1).trans rfl
  · intro t ht
    unfold onAxes at ht
    obtain ⟨u, hu, rfl⟩ := List.mem_map.1 ht
    exact t2 u hu
  · intro emb f a n hE hn
    unfold onAxes
    rw [List.map_map]
    refine (t3 (emb, f, a, n) ⟨hE, hn⟩).trans ?_
    rw [sum_range_list, Finset.mul_sum]

end Sbm
