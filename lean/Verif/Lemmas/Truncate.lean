import Verif.Lemmas.Network
import Verif.Lemmas.SplitFull
import Verif.Lemmas.Moves2

/-!
Two networks that differ only in the two tensors of one bond, and the arrays of `split` written out: what is needed to
compare a truncated move of the root with the exact one.
-/

open scoped BigOperators

open Py

namespace Heap

variable {R : Type} [CommRing R]

/-- Two networks with the same links, whose tensors are the same but for the two of one bond, have the same amplitudes if
those two, multiplied, are the same. -/
theorem IsNet.pair_amp {h h' : Heap R} {T : List ℕ} {E : List (ℕ × ℕ × ℕ × ℕ)} {self i fin j : ℕ} (hn : h.IsNet T E)
    (hn' : h'.IsNet T E) (hacc : ∀ c k, h'.acc c k = h.acc c k) (hs : self ∈ T) (hf : fin ∈ T)
    (hb : h.acc self i = some (fin, j)) (harr : ∀ t ∈ T, t ≠ self → t ≠ fin → h'.array t = h.array t)
    (hds : ∀ k, k ≠ i → h'.hdim (self, k) = h.hdim (self, k)) (hdf : ∀ k, k ≠ j → h'.hdim (fin, k) = h.hdim (fin, k))
    (hpair : ∀ σ : Assign, (∀ k, k ≠ i → h.acc self k ≠ none → σ (self, k) < h.hdim (self, k)) →
      (∀ k, k ≠ j → h.acc fin k ≠ none → σ (fin, k) < h.hdim (fin, k)) →
      h'.pairSum (self, i, fin, j) σ = h.pairSum (self, i, fin, j) σ)
    {x : ℕ → ℕ} (hx : h.InRange T x) : h'.amp T E x = h.amp T E x := by
  have hbs := hn.links.sym _ _ _ _ hb
  have hne : fin ≠ self := (hn.simple self hs i fin j hb hf).1
  set e0 : ℕ × ℕ × ℕ × ℕ := (self, i, fin, j) with he0
  obtain ⟨T', hT⟩ : ∃ T', T.Perm (self :: fin :: T') := by
    have h1 := List.perm_cons_erase hs
    have h2 : fin ∈ T.erase self := (List.mem_erase_of_ne hne).2 hf
    exact ⟨_, h1.trans ((List.perm_cons_erase h2).cons _)⟩
  have hTn : (self :: fin :: T').Nodup := hT.nodup hn.nodup
  -- the inner sum
  have inner : ∀ (g : Heap R), g.IsNet T E → ∀ f ∈ E, (f = e0 ∨ f = flipE e0) → ∀ τ : Assign,
      ∑ v ∈ Finset.range (g.hdim (f.1, f.2.1)), (T.map (g.entry (setBond f v τ))).prod =
        g.pairSum e0 τ * (T'.map (g.entry τ)).prod := by
    intro g hg f hf hfe τ
    have e1 : ∑ v ∈ Finset.range (g.hdim (f.1, f.2.1)), (T.map (g.entry (setBond f v τ))).prod =
        ∑ v ∈ Finset.range (g.hdim (e0.1, e0.2.1)), (T.map (g.entry (setBond e0 v τ))).prod := by
      rcases hfe with rfl | rfl
      · rfl
      · have := hg.dims _ hf
        simp only [flipE] at this
        simp only [setBond_flip]
        simp only [flipE]
        rw [this]
    rw [e1, pairSum, Finset.sum_mul]
    refine Finset.sum_congr rfl fun v _ => ?_
    rw [(hT.map _).prod_eq, List.map_cons, List.map_cons, List.prod_cons, List.prod_cons, ← mul_assoc]
    congr 2
    refine List.map_congr_left fun t ht => ?_
    have t1 : t ≠ self := by rintro rfl; simp [ht] at hTn
    have t2 : t ≠ fin := by rintro rfl; simp [ht] at hTn
    unfold entry
    cases g.array t with
    | none => rfl
    | some A =>
      simp only
      congr 1
      refine List.map_congr_left fun k _ => ?_
      rw [setBond_apply, if_neg]
      simp [he0, t1, t2]
  have hfT := hf
  obtain ⟨f, hf, hfe⟩ : ∃ f ∈ E, f = e0 ∨ f = flipE e0 := by
    rcases hn.mem_bond hs hf hb with q | q
    · exact ⟨_, q, .inl rfl⟩
    · exact ⟨_, q, .inr rfl⟩
  obtain ⟨E1, E2, hE⟩ := List.append_of_mem hf
  have hsub : (E1 ++ E2).Sublist E := by
    rw [hE]; exact (List.Sublist.refl _).append (List.sublist_cons_self _ _)
  unfold amp
  have hla : h'.leafAssign x = h.leafAssign x := by
    funext p; unfold leafAssign; rw [hacc]
  rw [hla]
  have a1 : ∀ g : Heap R, g.IsNet T E → ∀ σ, sumBonds g E (fun σ => (T.map (g.entry σ)).prod) σ =
      sumBonds g (E1 ++ E2) (fun τ => g.pairSum e0 τ * (T'.map (g.entry τ)).prod) σ := by
    intro g hg σ
    conv_lhs => rw [hE]
    rw [sumBonds_middle g f E1 E2 (hE ▸ hn.once)]
    congr 1
    funext τ
    exact inner g hg f hf hfe τ
  rw [a1 h' hn', a1 h hn]
  have hperm : (halves E).Perm (halves (f :: (E1 ++ E2))) := by
    rw [hE, halves_append, halves_cons, halves_cons, halves_append]
    exact (List.perm_middle.trans (List.Perm.cons _ List.perm_middle))
  have hnd := hperm.nodup hn.once
  rw [halves_cons, List.nodup_cons, List.nodup_cons] at hnd
  obtain ⟨m1, m2, m3⟩ := hnd
  have hout : ∀ p, p = (self, i) ∨ p = (fin, j) → p ∉ halves (E1 ++ E2) := by
    intro p hp q
    have q1 : p ∉ [(f.1, f.2.1), (f.2.2.1, f.2.2.2)] := by
      intro q2
      simp only [List.mem_cons, List.not_mem_nil, or_false] at q2
      rcases q2 with rfl | rfl
      · exact m1 (List.mem_cons_of_mem _ q)
      · exact m2 q
    apply q1
    rcases hfe with rfl | rfl <;> rcases hp with rfl | rfl <;> simp [he0, flipE]
  have hin : ∀ p ∈ halves E, p ≠ (self, i) → p ≠ (fin, j) → p ∈ halves (E1 ++ E2) := by
    intro p hp p1 p2
    have := hperm.mem_iff.1 hp
    rw [halves_cons, List.mem_cons, List.mem_cons] at this
    rcases hfe with rfl | rfl <;> simp only [he0, flipE] at this <;> tauto
  have hdimo : ∀ t ∈ T, ∀ k, (t, k) ≠ (self, i) → (t, k) ≠ (fin, j) → h'.hdim (t, k) = h.hdim (t, k) := by
    intro t ht k q1 q2
    by_cases h1 : t = self
    · subst h1; exact hds k (fun q => q1 (by rw [q]))
    by_cases h2 : t = fin
    · subst h2; exact hdf k (fun q => q2 (by rw [q]))
    unfold Heap.hdim
    rw [harr t ht h1 h2]
  refine sumBonds_congr m3 ?_ ?_
  · intro e he
    have hh : (e.1, e.2.1) ∈ halves (E1 ++ E2) := mem_halves.2 ⟨e, he, .inl rfl⟩
    refine hdimo e.1 (hn.isLink e (hsub.subset he)).2.1 _ ?_ ?_
    · intro q; exact hout _ (.inl q) hh
    · intro q; exact hout _ (.inr q) hh
  · intro τ t1 t2
    have hrange : ∀ t ∈ T, ∀ k, (t, k) ≠ (self, i) → (t, k) ≠ (fin, j) → h.acc t k ≠ none →
        τ (t, k) < h.hdim (t, k) := by
      intro t ht k q1 q2 q3
      cases hk : h.acc t k with
      | none => exact absurd hk q3
      | some y =>
        obtain ⟨u, l⟩ := y
        by_cases hu : u ∈ T
        · obtain ⟨e, he, q⟩ := mem_halves.1 (hin _ (hn.all t ht k u l hk hu) q1 q2)
          obtain ⟨r1, r2⟩ := t2 e he
          rcases q with q | q
          · rw [q]; exact r1
          · rw [q, r2, ← hn.dims e (hsub.subset he)]; exact r1
        · have hno : (t, k) ∉ halves (E1 ++ E2) := by
            intro q
            obtain ⟨e, he, q⟩ := mem_halves.1 q
            obtain ⟨⟨l1, l2⟩, l3, l4⟩ := hn.isLink e (hsub.subset he)
            rcases q with q | q <;> cases q
            · rw [hk] at l1; cases l1; exact hu l4
            · rw [hk] at l2; cases l2; exact hu l3
          rw [t1 _ hno]
          unfold leafAssign
          simp only [hk]
          exact hx t ht k u l hk hu
    rw [hpair τ
      (fun k hk ha => hrange self hs k (fun q => hk (by cases q; rfl)) (fun q => by cases q; exact hne rfl) ha)
      (fun k hk ha => hrange fin hfT k (fun q => by cases q; exact hne rfl) (fun q => hk (by cases q; rfl)) ha)]
    congr 2
    refine List.map_congr_left fun t ht => ?_
    have q1 : t ≠ self := by rintro rfl; simp [ht] at hTn
    have q2 : t ≠ fin := by rintro rfl; simp [ht] at hTn
    unfold entry
    rw [harr t (hT.mem_iff.2 (by simp [ht])) q1 q2]

/-- The arrays of `split`, entry by entry, from what the decomposition of the matrix `M` of the tensor returned. -/
theorem splitArrays_explicit {A : Nd R} (hw : A.Wf) (hpos : ∀ d ∈ A.shape, 0 < d) {axes1 : List ℕ}
    (hs : axes1.Pairwise (· < ·)) (hlt : ∀ x ∈ axes1, x < A.ndim) {i1 i2 : ℕ} (h1 : i1 ≤ axes1.length)
    (h2 : i2 ≤ (axes2Of A.ndim axes1).length) :
    ∃ M : Nd R, M.Wf ∧
      M.shape = [(axes1.map fun k => A.shape.getD k 1).prod, ((axes2Of A.ndim axes1).map fun k => A.shape.getD k 1).prod] ∧
      0 < (axes1.map fun k => A.shape.getD k 1).prod ∧ 0 < ((axes2Of A.ndim axes1).map fun k => A.shape.getD k 1).prod ∧
      ∀ (csvd : Svd R) (r : ℕ) (u s vh : Nd R), csvd M = .ok (u, s, vh) → 0 < r → u.Wf →
        u.shape = [(axes1.map fun k => A.shape.getD k 1).prod, r] → s.Wf → s.shape = [r, r] → vh.Wf →
        vh.shape = [r, ((axes2Of A.ndim axes1).map fun k => A.shape.getD k 1).prod] →
        ∃ ra ca, splitArrays csvd A axes1 (axes1.map fun k => A.shape.getD k 1)
            ((axes2Of A.ndim axes1).map fun k => A.shape.getD k 1) i1 i2 = .ok (ra, ca) ∧
          ra.Lab (pyInsert (axes1.map some) i1 none) (dimO r fun k => A.shape.getD k 1) (fun f =>
            ∑ w ∈ Finset.range r, u.get [ravel (axes1.map fun k => A.shape.getD k 1) (axes1.map fun k => f (some k)), w] *
              s.get [w, f none]) ∧
          ca.Lab (pyInsert ((axes2Of A.ndim axes1).map some) i2 none) (dimO r fun k => A.shape.getD k 1) (fun f =>
            vh.get [f none, ravel ((axes2Of A.ndim axes1).map fun k => A.shape.getD k 1)
              ((axes2Of A.ndim axes1).map fun k => f (some k))]) := by
  set dim := fun k => A.shape.getD k 1 with hdim
  have hmem2 : ∀ k, k ∈ axes2Of A.ndim axes1 ↔ k < A.ndim ∧ k ∉ axes1 := by
    intro k; unfold axes2Of; simp
  have hdpos : ∀ k, 0 < dim k := by
    intro k
    simp only [hdim]
    by_cases hk : k < A.shape.length
    · rw [List.getD_eq_getElem _ _ hk]; exact hpos _ (List.getElem_mem hk)
    · rw [List.getD_eq_default _ _ (by omega)]; exact Nat.one_pos
  have hppos : ∀ l : List ℕ, 0 < (l.map dim).prod := by
    intro l
    induction l with
    | nil => simp
    | cons x l ih => simp only [List.map_cons, List.prod_cons]; exact Nat.mul_pos (hdpos x) ih
  have hlab0 : A.Lab ([] ++ axes2Of A.ndim []) dim (fun f => A.get ((List.range A.ndim).map f)) := by
    have : axes2Of A.ndim [] = List.range A.ndim := by unfold axes2Of; simp
    rw [this, List.nil_append]
    exact Nd.Lab.self hw
  obtain ⟨B, b1, b2⟩ := moveaxis_loop axes1 [] (by simpa using hs) (by simpa using hlt) A hlab0
  simp only [List.nil_append] at b2
  obtain ⟨M, m1, m2, m3, m4⟩ := b2.reshape_matrix
  set m := (axes1.map dim).prod with hm
  set n := ((axes2Of A.ndim axes1).map dim).prod with hn
  have hm0 : 0 < m := hppos _
  have hn0 : 0 < n := hppos _
  refine ⟨M, m2, m3, hm0, hn0, fun csvd r u s vh c1 c2 c3 c4 c5 c6 c7 c8 => ?_⟩
  obtain ⟨us, d1, d2, d3, d4⟩ := Tensor.matmul_spec u s c4 c6
  -- root array
  have er : us.reshapeInfer (axes1.map dim) [] = .ok ⟨axes1.map dim ++ [r], us.data⟩ := by
    unfold Nd.reshapeInfer
    have : us.shape.prod = m * r := by rw [d3]; simp
    simp only [List.prod_nil, Nat.mul_one, List.append_nil]
    rw [if_neg (by simp [this, ← hm]; omega)]
    rw [this, ← hm, Nat.mul_div_cancel_left r hm0]
  have lr : (⟨axes1.map dim ++ [r], us.data⟩ : Nd R).Lab (axes1.map some ++ [none]) (dimO r dim)
      (fun f => us.get [ravel (axes1.map dim) (axes1.map fun k => f (some k)), f none]) := by
    refine ⟨?_, ?_, ?_⟩
    · unfold Nd.Wf; rw [d2, d3]; simp [← hm]
    · simp [dimO, Function.comp_def]
    · intro f hf
      simp only [Nd.get, d3, List.map_append, List.map_map, List.map_cons, List.map_nil]
      rw [ravel_append (by simp)]
      simp [ravel, Function.comp_def]
  obtain ⟨ra, f1, f2⟩ := lr.moveaxis (s := axes1.length) (d := i1) (by simp) (by simp; omega)
  have lra : ((axes1.map some ++ [none]).eraseIdx axes1.length).insertIdx i1
      ((axes1.map some ++ [none])[axes1.length]'(by simp)) = pyInsert (axes1.map some) i1 none := by
    rw [pyInsert_eq_insertIdx _ _ _ (by simpa using h1)]
    have q1 : (axes1.map some ++ [(none : Option ℕ)]).eraseIdx axes1.length = axes1.map some := by
      rw [List.eraseIdx_append_of_length_le (by simp)]; simp
    have q2 : (axes1.map some ++ [(none : Option ℕ)])[axes1.length]'(by simp) = none := by
      rw [List.getElem_append_right (by simp)]; simp
    rw [q1, q2]
  rw [lra] at f2
  -- child array
  have ec : vh.reshapeInfer [] ((axes2Of A.ndim axes1).map dim) =
      .ok ⟨r :: (axes2Of A.ndim axes1).map dim, vh.data⟩ := by
    unfold Nd.reshapeInfer
    have : vh.shape.prod = r * n := by rw [c8]; simp
    simp only [List.prod_nil, Nat.one_mul, List.nil_append]
    rw [if_neg (by simp [this, ← hn]; omega)]
    rw [this, ← hn, Nat.mul_div_cancel _ hn0]; rfl
  have lc : (⟨r :: (axes2Of A.ndim axes1).map dim, vh.data⟩ : Nd R).Lab
      (none :: (axes2Of A.ndim axes1).map some) (dimO r dim)
      (fun f => vh.get [f none,
        ravel ((axes2Of A.ndim axes1).map dim) ((axes2Of A.ndim axes1).map fun k => f (some k))]) := by
    refine ⟨?_, ?_, ?_⟩
    · unfold Nd.Wf; rw [c7, c8]; simp [← hn]
    · simp [dimO, Function.comp_def]
    · intro f hf
      simp [Nd.get, c8, ravel, Function.comp_def, ← hn]
  obtain ⟨ca, g1, g2⟩ := lc.moveaxis (s := 0) (d := i2) (by simp) (by simp; omega)
  have lca : ((none :: (axes2Of A.ndim axes1).map some).eraseIdx 0).insertIdx i2
      ((none :: (axes2Of A.ndim axes1).map some)[0]'(by simp)) =
      pyInsert ((axes2Of A.ndim axes1).map some) i2 none := by
    rw [pyInsert_eq_insertIdx _ _ _ (by simpa using h2)]; simp
  rw [lca] at g2
  refine ⟨ra, ca, ?_, f2.congr fun f hf => ?_, g2⟩
  · unfold splitArrays
    have b1' : axes1.zipIdx.foldlM (fun a p => a.moveaxis p.1 p.2) A = .ok B := b1
    rw [b1', ok_bind, m1, ok_bind, c1, ok_bind]
    simp only
    rw [d1, ok_bind, er, ok_bind]
    have : (⟨axes1.map dim ++ [r], us.data⟩ : Nd R).ndim - 1 = axes1.length := by simp [Nd.ndim]
    rw [this, f1, ok_bind, ec, ok_bind, g1, ok_bind]
    rfl
  · rw [pyInsert_eq_insertIdx _ _ _ (by simpa using h1)] at hf
    have hf' : ∀ o, o = none ∨ o ∈ axes1.map some → f o < dimO r dim o := fun o ho =>
      hf o ((List.mem_insertIdx (by simpa using h1)).2 ho)
    refine d4 _ _ (ravel_lt (Nd.valid_map fun k hk => ?_)) (hf' none (.inl rfl))
    exact hf' (some k) (.inr (List.mem_map.2 ⟨k, hk, rfl⟩))

end Heap
