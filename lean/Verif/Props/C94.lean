import Verif.Model.MctdhProp
import Verif.Spec.Mctdh
import Verif.Props.C89
import Verif.Lemmas.Mctdh
import Verif.Lemmas.Autocomplete

/-! C94: the Hamiltonian that `MCTDH.gen_h_terms` sets. -/

open Py
open scoped BigOperators

namespace Mctdh

/-- Specification: `(∑ᵢ Tᵢ + ∑ᵢ Vᵢ(xᵢ) + ∑ₜ ∏ g(xⱼ)) f` at a point of the grid; each element of `extra` is a list of pairs of a coordinate `j`
and a function `g`. -/
noncomputable def sumOfProducts (conf : List (ℝ × ℝ × ℕ)) (T : ℕ → Nd ℂ) (Vs : List (ℝ → ℂ)) (extra : List (List (ℕ × (ℝ → ℂ))))
    (f : List ℕ → ℂ) (x : List ℕ) : ℂ :=
  (∑ i ∈ Finset.range conf.length, ∑ k ∈ Finset.range (conf.getD i (0, 0, 0)).2.2, (T i).get [x.getD i 0, k] * f (x.set i k)) +
  ((List.zipWith (fun V y => V y) Vs (PoDvr.point conf x)).sum +
    (extra.map fun term => (term.map fun p => p.2 (PoDvr.gridPoint (conf.getD p.1 (0, 0, 0)) (x.getD p.1 0))).prod).sum) * f x

/-- A one-dimensional object with parameters `c` and potential `V`, whatever else has been called. -/
private structure Is (c : ℝ × ℝ × ℕ) (hbar me : ℝ) (V : ℝ → ℂ) (D : SineDVR) : Prop where
  grid : D.gridPoints = (List.range c.2.2).map (PoDvr.gridPoint c)
  kin : D.tMat = (⟨c.1, c.2.1, c.2.2, hbar, me, none, none⟩ : SineDVR).tMat
  ham : D.hMat = (⟨c.1, c.2.1, c.2.2, hbar, me, some (PoDvr.pointwise V), none⟩ : SineDVR).hMat

private theorem Is.solve {c : ℝ × ℝ × ℕ} {hbar me : ℝ} {V : ℝ → ℂ} {D : SineDVR} (h : Is c hbar me V D) : Is c hbar me V D.solve := by
  obtain ⟨h1, h2, h3⟩ := h
  unfold SineDVR.solve
  cases e : D.hMat with
  | error _ => exact ⟨h1, h2, h3⟩
  | ok M => exact ⟨h1, h2, by rw [← h3, e]; rfl⟩

/-- The objects after `set_v_func` and further calls of `init_state`. -/
noncomputable def after (conf : List (ℝ × ℝ × ℕ)) (hbar me : ℝ) (ops : List PoDvr.Op) (Vs : List (ℝ → ℂ)) (W : Option (List ℝ → ℂ)) (inits : List ℕ) :
    List SineDVR :=
  ((((PoDvr.new conf hbar me).run ops).setVFunc (Vs.map PoDvr.pointwise) W).1.run (inits.map PoDvr.Op.initState)).dvrs

private theorem after_is (conf : List (ℝ × ℝ × ℕ)) (hbar me : ℝ) (ops : List PoDvr.Op) (Vs : List (ℝ → ℂ)) (W : Option (List ℝ → ℂ))
    (hV : Vs.length = conf.length) (inits : List ℕ) : (after conf hbar me ops Vs W inits).length = conf.length ∧
    ∀ (i : ℕ) (D : SineDVR), (after conf hbar me ops Vs W inits)[i]? = some D →
      Is (conf.getD i (0, 0, 0)) hbar me (Vs.getD i fun _ => 0) D := by
  have hset : (((PoDvr.new conf hbar me).run ops).setVFunc (Vs.map PoDvr.pointwise) W).1.dvrs =
      List.zipWith (fun (c : ℝ × ℝ × ℕ) f => (⟨c.1, c.2.1, c.2.2, hbar, me, some f, none⟩ : SineDVR)) conf (Vs.map PoDvr.pointwise) := by
    unfold PoDvr.setVFunc
    rw [PoDvr.setEach_conf conf hbar me ops _ (by simpa using hV)]
    dsimp only
    split
    · rfl
    · split
      · rfl
      · split <;> rfl
  unfold after
  generalize (((PoDvr.new conf hbar me).run ops).setVFunc (Vs.map PoDvr.pointwise) W).1 = o at hset
  have h0 : o.dvrs.length = conf.length ∧ ∀ (i : ℕ) (D : SineDVR), o.dvrs[i]? = some D →
      Is (conf.getD i (0, 0, 0)) hbar me (Vs.getD i fun _ => 0) D := by
    rw [hset]
    refine ⟨by simp [hV], fun i D hD => ?_⟩
    obtain ⟨hi, rfl⟩ := List.getElem?_eq_some_iff.1 hD
    have hi' : i < conf.length := by simp at hi; omega
    rw [List.getElem_zipWith, List.getElem_map, List.getD_eq_getElem _ _ hi', List.getD_eq_getElem _ _ (hV ▸ hi')]
    exact ⟨rfl, rfl, rfl⟩
  clear hset
  induction inits generalizing o with
  | nil => exact h0
  | cons k inits ih =>
    rw [List.map_cons, PoDvr.run]
    refine ih _ ⟨?_, fun i D hD => ?_⟩
    · simp only [PoDvr.initState, List.length_append, List.length_map, List.length_take, List.length_drop]
      omega
    · unfold PoDvr.initState at hD
      dsimp only at hD
      by_cases hi : i < (o.dvrs.take k).length
      · rw [List.getElem?_append_left (by rw [List.length_map]; exact hi), List.getElem?_map] at hD
        obtain ⟨D', h1, rfl⟩ := Option.map_eq_some_iff.1 hD
        rw [List.getElem?_take] at h1
        split at h1
        · exact (h0.2 i D' h1).solve
        · cases h1
      · rw [List.getElem?_append_right (by rw [List.length_map]; exact not_lt.1 hi), List.getElem?_drop] at hD
        simp only [List.length_take, not_lt, List.length_map] at hi hD
        by_cases hk : k ≤ o.dvrs.length
        · rw [min_eq_left hk] at hi hD
          rw [show k + (i - k) = i by omega] at hD
          exact h0.2 i D hD
        · exfalso
          obtain ⟨hl, _⟩ := List.getElem?_eq_some_iff.1 hD
          omega

private theorem npDiag_get {v : List ℂ} {a b : ℕ} (ha : a < v.length) (hb : b < v.length) :
    (npDiagK v 0).get [a, b] = if b = a then v.getD a 0 else 0 := by
  unfold npDiagK
  rw [Nd.get_ofFn _ (valid_cons_iff.2 ⟨a, [b], rfl, by simpa using ha, valid_cons_iff.2 ⟨b, [], rfl, by simpa using hb, valid_nil_iff.2 rfl⟩⟩)]
  simp only [List.getD_cons_zero, List.getD_cons_succ, Int.add_zero, Nat.cast_inj]
  split
  · rename_i h
    rw [h, min_self]
  · rfl

private theorem set_self' (x : List ℕ) (i : ℕ) : x.set i (x.getD i 0) = x := by
  by_cases hi : i < x.length
  · rw [List.getD_eq_getElem _ _ hi, List.set_getElem_self]
  · exact List.set_eq_of_length_le (by omega)

private theorem actOn_diag {n j : ℕ} (g : ℕ → ℂ) (f : List ℕ → ℂ) (x : List ℕ) (hx : x.getD j 0 < n) :
    actOn (j, npDiagK ((List.range n).map g) 0) f x = g (x.getD j 0) * f x := by
  unfold actOn
  have hd : (npDiagK ((List.range n).map g) 0).dim 1 = n := by
    unfold npDiagK Nd.dim Nd.ofFn
    simp
  simp only [hd]
  rw [Finset.sum_eq_single (x.getD j 0)]
  · rw [npDiag_get (by simpa using hx) (by simpa using hx), if_pos rfl, set_self',
      List.getD_eq_getElem (α := ℂ) _ _ (by simpa using hx)]
    simp
  · intro k hk hne
    rw [npDiag_get (by simpa using hx) (by simpa using hk), if_neg hne, zero_mul]
  · intro h
    exact absurd (Finset.mem_range.2 hx) h

private theorem grid_getD (conf : List (ℝ × ℝ × ℕ)) {i : ℕ} (hi : i < conf.length) {x : List ℕ}
    (hx : Valid (conf.map fun c => c.2.2) x) : x.getD i 0 < (conf.getD i (0, 0, 0)).2.2 := by
  have := hx.getD_lt (k := i) (by simpa using hi) 0 0
  rwa [List.getD_eq_getElem (conf.map fun c => c.2.2) _ (by simpa using hi), List.getElem_map, ← List.getD_eq_getElem _ (0, 0, 0) hi] at this

/-- **C94.** After `set_v_func(Vs)`, whatever was called before and however often `init_state` is called in between, `gen_h_terms` gives matrices
of the right shapes whose sum of products is the kinetic energy plus the potentials `Vs` (not with `kinetic_only`) plus the products of the
functions in `extra`. -/
theorem C94_terms (conf : List (ℝ × ℝ × ℕ)) (hbar me : ℝ) (ops : List PoDvr.Op) (Vs : List (ℝ → ℂ)) (W : Option (List ℝ → ℂ))
    (hV : Vs.length = conf.length) (inits : List ℕ) (extra : List (List (ℕ × (ℝ → ℂ)))) (kineticOnly : Bool)
    (he : ∀ term ∈ extra, ∀ p ∈ term, p.1 < conf.length) :
    ∃ terms T, genHTerms (after conf hbar me ops Vs W inits) (some (extra.map fun term => term.map fun p => (p.1, PoDvr.pointwise p.2)))
        kineticOnly = .ok terms ∧
      (∀ (i : ℕ) (D : SineDVR), (PoDvr.new conf hbar me).dvrs[i]? = some D → D.tMat = .ok (T i)) ∧
      (∀ term ∈ terms, ∀ p ∈ term, p.1 < conf.length ∧ p.2.shape = [(conf.getD p.1 (0, 0, 0)).2.2, (conf.getD p.1 (0, 0, 0)).2.2]) ∧
      (terms.map fun t => t.map Prod.fst) = (List.range conf.length).map (fun i => [i]) ++ extra.map (fun t => t.map Prod.fst) ∧
      ∀ f x, Valid (conf.map fun c => c.2.2) x →
        actSum terms f x = sumOfProducts conf T (if kineticOnly then [] else Vs) extra f x := by
  obtain ⟨hlen, his⟩ := after_is conf hbar me ops Vs W hV inits
  set ds := after conf hbar me ops Vs W inits with hds
  clear_value ds
  choose T M h1 h2 h3 h4 using fun c V => PoDvr.hMat_ok c hbar me V
  have hT1 : ∀ c V, (T c V).shape = [c.2.2, c.2.2] := by
    intro c V
    obtain ⟨T', t1, t2, t3, _⟩ := SineDVR.tMat_ok (⟨c.1, c.2.1, c.2.2, hbar, me, none, none⟩ : SineDVR)
    rw [h1 c V] at t1
    cases t1
    assumption
  let cf : ℕ → ℝ × ℝ × ℕ := fun i => conf.getD i (0, 0, 0)
  let vf : ℕ → ℝ → ℂ := fun i => Vs.getD i fun _ => 0
  let hm : ℕ → Nd ℂ := fun i => if kineticOnly then T (cf i) (vf i) else M (cf i) (vf i)
  have hbase : (ds.zipIdx.mapM fun p => do
      let h ← if kineticOnly then p.1.tMat else p.1.hMat
      pure [(p.2, h)]) = Except.ok (ds.zipIdx.map fun p => [(p.2, hm p.2)]) := by
    refine Heap.mapM_ok (g := fun p : SineDVR × ℕ => [(p.2, hm p.2)]) fun p hp => ?_
    obtain ⟨D, i⟩ := p
    have hD : ds[i]? = some D := by
      have := List.mem_zipIdx_iff_getElem?.1 hp
      exact this
    obtain ⟨g1, g2, g3⟩ := his i D hD
    cases kineticOnly with
    | true =>
      simp only [if_pos]
      rw [g2, h1 (cf i) (vf i), ok_bind]
      rfl
    | false =>
      simp only [Bool.false_eq_true, if_neg, not_false_eq_true]
      rw [g3, h2 (cf i) (vf i), ok_bind]
      rfl
  have hmap : (ds.zipIdx.map fun p => [(p.2, hm p.2)]) = (List.range conf.length).map fun i => [(i, hm i)] := by
    refine List.ext_getElem (by simp [hlen]) fun i a b => ?_
    simp
  let dt : ℕ × (ℝ → ℂ) → ℕ × Nd ℂ := fun p => (p.1, npDiagK ((List.range (cf p.1).2.2).map fun k => p.2 (PoDvr.gridPoint (cf p.1) k)) 0)
  have hex : (extra.map fun term => term.map fun p => (p.1, PoDvr.pointwise p.2)).mapM (fun term => term.mapM (diagTerm ds)) =
      Except.ok (extra.map fun term => term.map dt) := by
    rw [List.mapM_map]
    refine Heap.mapM_ok (g := fun term : List (ℕ × (ℝ → ℂ)) => term.map dt) fun term ht => ?_
    change (term.map fun p => (p.1, PoDvr.pointwise p.2)).mapM (diagTerm ds) = _
    rw [List.mapM_map]
    refine Heap.mapM_ok (g := dt) fun p hp => ?_
    have hi := he term ht p hp
    change diagTerm ds (p.1, PoDvr.pointwise p.2) = _
    unfold diagTerm item
    have hD : ds[p.1]? = some (ds[p.1]'(hlen ▸ hi)) := List.getElem?_eq_getElem _
    rw [hD]
    simp only [Option.elim, ok_bind]
    unfold PoDvr.pointwise
    rw [(his _ _ hD).grid, ok_bind, List.map_map]
    rfl
  refine ⟨(List.range conf.length).map (fun i => [(i, hm i)]) ++ extra.map (fun term => term.map dt),
    fun i => T (cf i) (vf i), ?_, ?_, ?_, ?_, ?_⟩
  · unfold genHTerms
    rw [hbase, ok_bind]
    dsimp only
    rw [hex, ok_bind, hmap]
    rfl
  · intro i D hD
    rw [PoDvr.new, List.getElem?_map] at hD
    obtain ⟨c, hc1, hc2⟩ := Option.map_eq_some_iff.1 hD
    have : cf i = c := by
      change conf.getD i (0, 0, 0) = c
      rw [List.getD_eq_getElem?_getD, hc1]
      rfl
    rw [← hc2]
    change _ = Except.ok (T (cf i) (vf i))
    rw [this]
    exact h1 c (vf i)
  · intro term ht p hp
    rcases List.mem_append.1 ht with ht | ht
    · obtain ⟨i, hi, rfl⟩ := List.mem_map.1 ht
      obtain rfl := List.mem_singleton.1 hp
      refine ⟨List.mem_range.1 hi, ?_⟩
      change (if kineticOnly then T (cf i) (vf i) else M (cf i) (vf i)).shape = _
      split
      · exact hT1 _ _
      · exact h3 _ _
    · obtain ⟨t, ht', rfl⟩ := List.mem_map.1 ht
      obtain ⟨q, hq, rfl⟩ := List.mem_map.1 hp
      refine ⟨he t ht' q hq, ?_⟩
      change (npDiagK _ 0).shape = _
      unfold npDiagK Nd.ofFn
      simp [cf, dt]
  · rw [List.map_append, List.map_map, List.map_map]
    congr 1
    refine List.map_congr_left fun t _ => ?_
    simp only [Function.comp_apply, List.map_map]
    rfl
  · intro f x hx
    have hxl : x.length = conf.length := by have := hx.length_eq; simpa using this
    unfold actSum sumOfProducts
    rw [List.map_append, List.sum_append, List.map_map, List.map_map, Heom.sum_range_list, add_mul, ← add_assoc]
    congr 1
    · have e : ∀ i ∈ Finset.range conf.length, ((fun term => actTerm term f x) ∘ fun i => [(i, hm i)]) i =
          (∑ k ∈ Finset.range (cf i).2.2, (T (cf i) (vf i)).get [x.getD i 0, k] * f (x.set i k)) +
            (if kineticOnly then 0 else vf i (PoDvr.gridPoint (cf i) (x.getD i 0))) * f x := by
        intro i hi
        have hi := Finset.mem_range.1 hi
        have hxi : x.getD i 0 < (cf i).2.2 := grid_getD conf hi hx
        change actOn (i, hm i) f x = _
        unfold actOn
        dsimp only
        cases kineticOnly with
        | true =>
          have : hm i = T (cf i) (vf i) := if_pos rfl
          have hd : (hm i).dim 1 = (cf i).2.2 := by rw [this]; unfold Nd.dim; rw [hT1]; rfl
          rw [hd, this]
          simp
        | false =>
          have : hm i = M (cf i) (vf i) := if_neg (by decide)
          have hd : (hm i).dim 1 = (cf i).2.2 := by rw [this]; unfold Nd.dim; rw [h3]; rfl
          rw [hd, this]
          simp only [Bool.false_eq_true, if_false]
          have e2 : ∀ k ∈ Finset.range (cf i).2.2, (M (cf i) (vf i)).get [x.getD i 0, k] * f (x.set i k) =
              (T (cf i) (vf i)).get [x.getD i 0, k] * f (x.set i k) +
                if k = x.getD i 0 then vf i (PoDvr.gridPoint (cf i) (x.getD i 0)) * f x else 0 := by
            intro k hk
            rw [h4 _ _ _ _ hxi (Finset.mem_range.1 hk), add_mul]
            congr 1
            split
            · rename_i h
              rw [h, set_self']
            · rw [zero_mul]
          rw [Finset.sum_congr rfl e2, Finset.sum_add_distrib, Finset.sum_ite_eq' (Finset.range (cf i).2.2) (x.getD i 0),
            if_pos (Finset.mem_range.2 hxi)]
      rw [Finset.sum_congr rfl e, Finset.sum_add_distrib]
      congr 1
      rw [← Finset.sum_mul]
      congr 1
      cases kineticOnly with
      | true => simp
      | false =>
        simp only [Bool.false_eq_true, if_false]
        rw [← Heom.sum_range_list]
        congr 1
        unfold PoDvr.point
        refine List.ext_getElem (by simp [hV, hxl]) fun i a b => ?_
        have hi : i < conf.length := by simpa using a
        rw [List.getElem_zipWith, List.getElem_zipWith, List.getElem_map, List.getElem_range]
        simp only [vf, cf]
        rw [List.getD_eq_getElem _ _ (hV ▸ hi), List.getD_eq_getElem _ _ hi, List.getD_eq_getElem _ _ (hxl ▸ hi)]
    · have e : ∀ term ∈ extra, ((fun term => actTerm term f x) ∘ fun term => term.map dt) term =
          (term.map fun p => p.2 (PoDvr.gridPoint (conf.getD p.1 (0, 0, 0)) (x.getD p.1 0))).prod * f x := by
        intro term ht
        have hterm := he term ht
        clear ht
        change actTerm (term.map dt) f x = _
        have gen : ∀ (term : List (ℕ × (ℝ → ℂ))), (∀ p ∈ term, p.1 < conf.length) → ∀ f : List ℕ → ℂ, actTerm (term.map dt) f x =
            (term.map fun p => p.2 (PoDvr.gridPoint (conf.getD p.1 (0, 0, 0)) (x.getD p.1 0))).prod * f x := by
          intro term
          induction term with
          | nil => intro _ f; simp [actTerm]
          | cons p term ih =>
            intro hp f
            have : actTerm ((p :: term).map dt) f x = actTerm (term.map dt) (actOn (dt p) f) x := rfl
            rw [this, ih (fun q hq => hp q (List.mem_cons_of_mem _ hq)), List.map_cons, List.prod_cons]
            have hxi : x.getD p.1 0 < (cf p.1).2.2 := grid_getD conf (hp p List.mem_cons_self) hx
            have := actOn_diag (j := p.1) (fun k => p.2 (PoDvr.gridPoint (cf p.1) k)) f x hxi
            change actOn (dt p) f x = _ at this
            rw [this]
            ring
        exact gen term hterm f
      rw [List.map_congr_left e, ← List.sum_map_mul_right]

/-- Without `extra` it is the same as with an empty list. -/
theorem C94_none (ds : List SineDVR) (kineticOnly : Bool) : genHTerms ds none kineticOnly = genHTerms ds (some []) kineticOnly := by
  unfold genHTerms
  generalize (ds.zipIdx.mapM fun p => do
      let h ← if kineticOnly then p.1.tMat else p.1.hMat
      pure [(p.2, h)]) = r
  cases r with
  | error e => rfl
  | ok b =>
    rw [ok_bind, ok_bind]
    simp [pure_eq_ok, ok_bind]

/-- A coordinate in `extra` that does not exist is refused. -/
theorem C94_range (conf : List (ℝ × ℝ × ℕ)) (hbar me : ℝ) (ops : List PoDvr.Op) (Vs : List (ℝ → ℂ)) (W : Option (List ℝ → ℂ))
    (hV : Vs.length = conf.length) (inits : List ℕ) (extra : List (List (ℕ × (ℝ → ℂ)))) (kineticOnly : Bool)
    (he : ∃ term ∈ extra, ∃ p ∈ term, conf.length ≤ p.1) :
    genHTerms (after conf hbar me ops Vs W inits) (some (extra.map fun term => term.map fun p => (p.1, PoDvr.pointwise p.2)))
        kineticOnly = .error .indexError := by
  obtain ⟨hlen, his⟩ := after_is conf hbar me ops Vs W hV inits
  obtain ⟨terms0, _, h0, _⟩ := C94_terms conf hbar me ops Vs W hV inits [] kineticOnly (by simp)
  generalize after conf hbar me ops Vs W inits = ds at *
  unfold genHTerms at h0 ⊢
  generalize (ds.zipIdx.mapM fun p => do
      let h ← if kineticOnly then p.1.tMat else p.1.hMat
      pure [(p.2, h)]) = r at h0 ⊢
  cases r with
  | error e => cases h0
  | ok b =>
    rw [ok_bind]
    have one : ∀ p : ℕ × (ℝ → ℂ), diagTerm ds (p.1, PoDvr.pointwise p.2) = .error .indexError ∨
        (∃ q, diagTerm ds (p.1, PoDvr.pointwise p.2) = .ok q) ∧ p.1 < conf.length := by
      intro p
      unfold diagTerm item
      dsimp only
      cases hD : ds[p.1]? with
      | none => left; rfl
      | some D =>
        right
        obtain ⟨hi, _⟩ := List.getElem?_eq_some_iff.1 hD
        exact ⟨⟨_, rfl⟩, hlen ▸ hi⟩
    have lst : ∀ term : List (ℕ × (ℝ → ℂ)), (term.map fun p => (p.1, PoDvr.pointwise p.2)).mapM (diagTerm ds) = .error .indexError ∨
        (∃ q, (term.map fun p => (p.1, PoDvr.pointwise p.2)).mapM (diagTerm ds) = .ok q) ∧ ∀ p ∈ term, p.1 < conf.length := by
      intro term
      induction term with
      | nil => right; exact ⟨⟨_, rfl⟩, by simp⟩
      | cons p term ih =>
        rw [List.map_cons, List.mapM_cons]
        rcases one p with h | ⟨⟨q, h⟩, hp⟩
        · left; rw [h]; rfl
        · rw [h, ok_bind]
          rcases ih with h' | ⟨⟨q', h'⟩, hq⟩
          · left; rw [h']; rfl
          · right
            rw [h']
            refine ⟨⟨_, rfl⟩, fun r hr => ?_⟩
            rcases List.mem_cons.1 hr with rfl | hr
            · exact hp
            · exact hq r hr
    have all : ∀ extra : List (List (ℕ × (ℝ → ℂ))), (∃ term ∈ extra, ∃ p ∈ term, conf.length ≤ p.1) →
        (extra.map fun term => term.map fun p => (p.1, PoDvr.pointwise p.2)).mapM (fun term => term.mapM (diagTerm ds)) =
          (.error .indexError : Res (List (Term ℂ))) := by
      intro extra
      induction extra with
      | nil => intro h; simp at h
      | cons t extra ih =>
        rintro ⟨term, ht, p, hp, hge⟩
        rw [List.map_cons, List.mapM_cons]
        rcases lst t with h | ⟨⟨q, h⟩, hq⟩
        · rw [h]; rfl
        · rw [h, ok_bind]
          rcases List.mem_cons.1 ht with rfl | ht
          · exact absurd (hq p hp) (by omega)
          · rw [ih ⟨term, ht, p, hp, hge⟩]; rfl
    dsimp only
    rw [all extra he]
    rfl

/-- Two coordinates, a bilinear coupling: the hypotheses of `C94_terms` are met. -/
example : ∃ terms, genHTerms (after [(0, 1, 2), (0, 2, 3)] 1 1 [] [fun x : ℝ => (x : ℂ), fun _ => 3] none [1, 2])
    (some ([[(0, fun x : ℝ => (x : ℂ)), (1, fun x : ℝ => (x : ℂ))]].map fun term => term.map fun p => (p.1, PoDvr.pointwise p.2))) false =
      .ok terms := by
  obtain ⟨terms, _, h, _⟩ := C94_terms [(0, 1, 2), (0, 2, 3)] 1 1 [] [fun x : ℝ => (x : ℂ), fun _ => 3] none rfl [1, 2]
    [[(0, fun x : ℝ => (x : ℂ)), (1, fun x : ℝ => (x : ℂ))]] false (by
      intro t ht p hp
      obtain rfl := List.mem_singleton.1 ht
      rcases List.mem_cons.1 hp with rfl | hp
      · decide
      · obtain rfl := List.mem_singleton.1 hp
        decide)
  exact ⟨terms, h⟩

end Mctdh
