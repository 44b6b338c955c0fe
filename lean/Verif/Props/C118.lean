import Verif.Lemmas.PoSolve
import Verif.Lemmas.DavidsonExact
import Verif.Props.C50

/-! C118: `init_state`, `solve` and `mu_mat` of the product DVR. -/

open Py
open scoped BigOperators

namespace PoDvr

/-- Specification: `E i` and `u i` are the lowest energy and a normalised eigenvector of coordinate number `i`, whose first entry is not negative. -/
def GroundStates (o : PoDvr) (E : ℕ → ℝ) (u : ℕ → ℕ → ℝ) : Prop :=
  ∀ (i : ℕ) (D : SineDVR), o.dvrs[i]? = some D → ∃ H, D.hMat = .ok H ∧ Mctdh.Eigen H D.n 1 [E i] (fun _ => u i) ∧ 0 ≤ u i 0

/-- **C118.** The vector of `init_state()` is the product of the normalised ground states of the coordinates, and has norm 1. -/
theorem C118_init (eigsh : Nd ℂ → ℕ → Res (List ℝ × Nd ℝ)) (o : PoDvr)
    (h : ∀ D ∈ o.dvrs, 0 < D.n ∧ ∃ H, D.hMat = .ok H ∧ Mctdh.EigshOk eigsh H D.n 1) :
    ∃ E u v, GroundStates o E u ∧ initVector eigsh o = .ok v ∧ v.length = (o.dvrs.map SineDVR.n).prod ∧
      (∀ idx, Valid (o.dvrs.map SineDVR.n) idx →
        v[ravel (o.dvrs.map SineDVR.n) idx]? = some (∏ i ∈ Finset.range o.dvrs.length, u i (idx.getD i 0))) ∧
      (∑ k ∈ Finset.range v.length, v.getD k 0 ^ 2) = 1 := by
  classical
  have hsol : ∀ D : SineDVR, ∃ (E : ℝ) (u : ℕ → ℝ), D ∈ o.dvrs → (∃ e w, Mctdh.solve eigsh D 1 = .ok (e, w) ∧ w.shape = [1, D.n] ∧
      ∀ x < D.n, w.get [0, x] = u x) ∧ ∃ H, D.hMat = .ok H ∧ Mctdh.Eigen H D.n 1 [E] (fun _ => u) ∧ 0 ≤ u 0 := by
    intro D
    by_cases hD : D ∈ o.dvrs
    · obtain ⟨hn, H, hH, he⟩ := h D hD
      obtain ⟨e, w, w1, w2, w3, w4, w5, w6⟩ := Mctdh.C95_solve eigsh D H D.n 1 hn hH he
      obtain ⟨E, rfl⟩ := List.length_eq_one_iff.1 w4.count
      refine ⟨E, fun x => w.get [0, x], fun _ => ⟨⟨_, w, w1, w3, fun x _ => rfl⟩, H, hH, ⟨rfl, ?_, ?_, ?_⟩, w5 0 (by decide)⟩⟩
      · intro j hj k hk
        obtain rfl : j = 0 := by omega
        obtain rfl : k = 0 := by omega
        exact w4.orthonormal 0 hj 0 hk
      · intro k hk
        obtain rfl : k = 0 := by omega
        exact w4.equation 0 hk
      · intro v hv
        refine w4.lowest v fun k hk => ?_
        obtain rfl : k = 0 := by omega
        exact hv 0 hk
    · exact ⟨0, fun _ => 0, fun h => absurd h hD⟩
  choose E u hEu using hsol
  obtain ⟨r, r1, r2, r3, r4⟩ := init_loop eigsh u o.dvrs ⟨[], [1]⟩ (by rfl) fun D hD => (hEu D hD).1
  have r3' : r.shape = o.dvrs.map SineDVR.n := by simpa using r3
  have hlen : r.data.length = (o.dvrs.map SineDVR.n).prod := by rw [r2, r3']
  have hget : ∀ idx, Valid (o.dvrs.map SineDVR.n) idx → r.get idx = prodAt (o.dvrs.map u) idx := by
    intro idx hidx
    have := r4 [] idx (valid_nil_iff.2 rfl) hidx
    rw [List.nil_append] at this
    rw [this]
    simp [Nd.get, ravel]
  have hgetD : ∀ idx, r.data.getD (ravel (o.dvrs.map SineDVR.n) idx) 0 = r.get idx := by
    intro idx
    unfold Nd.get
    rw [r3']
  refine ⟨fun i => (o.dvrs[i]?).elim 0 E, fun i => (o.dvrs[i]?).elim (fun _ => 0) u, r.data, ?_, ?_, hlen, ?_, ?_⟩
  · intro i D hD
    obtain ⟨-, H, hH, he, h0⟩ := hEu D (List.mem_of_getElem? hD)
    simp only [hD, Option.elim_some]
    exact ⟨H, hH, he, h0⟩
  · unfold initVector
    rw [r1, ok_bind]
    rfl
  · intro idx hidx
    have hlt : ravel (o.dvrs.map SineDVR.n) idx < r.data.length := by rw [hlen]; exact ravel_lt hidx
    rw [List.getElem?_eq_getElem hlt, ← List.getD_eq_getElem _ 0 hlt, hgetD, hget idx hidx, prodAt_range _ _ (by simpa using hidx.length_eq),
      List.length_map]
    congr 1
    refine Finset.prod_congr rfl fun i hi => ?_
    have hi := Finset.mem_range.1 hi
    rw [List.getD_eq_getElem _ _ (by simpa using hi), List.getElem_map]
    dsimp only
    rw [List.getElem?_eq_getElem hi]
    rfl
  · rw [hlen, sum_list, ← sumIdx_prodAt (o.dvrs.map u) (o.dvrs.map SineDVR.n) (by simp)]
    · exact sumIdx_congr fun idx hidx => by rw [hgetD, hget idx hidx]
    · intro i hi
      have hi : i < o.dvrs.length := by simpa using hi
      obtain ⟨-, H, hH, he, h0⟩ := hEu o.dvrs[i] (List.getElem_mem _)
      rw [List.getD_eq_getElem _ _ (by simpa using hi), List.getD_eq_getElem _ _ (by simpa using hi), List.getElem_map, List.getElem_map]
      have := he.orthonormal 0 (by decide) 0 (by decide)
      simp only [if_true] at this
      rw [← this]
      exact Finset.sum_congr rfl fun x _ => sq _

/-- A real potential makes the Hamiltonian of a coordinate real and symmetric. -/
theorem hMat_symm (c : ℝ × ℝ × ℕ) (hbar me : ℝ) (V : ℝ → ℝ) {H : Nd ℂ}
    (hH : (⟨c.1, c.2.1, c.2.2, hbar, me, some (pointwise fun x => (V x : ℂ)), none⟩ : SineDVR).hMat = .ok H) : RealSymm H c.2.2 := by
  obtain ⟨T, H', t1, h1, h2, h3⟩ := PoDvr.hMat_ok c hbar me fun x => (V x : ℂ)
  obtain rfl : H = H' := Except.ok.inj (hH.symm.trans h1)
  set D : SineDVR := ⟨c.1, c.2.1, c.2.2, hbar, me, none, none⟩ with hD
  obtain ⟨T', t1', _, _, t4⟩ := D.tMat_ok
  obtain rfl : T = T' := Except.ok.inj (t1.symm.trans t1')
  refine ⟨fun a ha b hb => ?_, fun a ha b hb => ?_⟩
  · refine (Complex.conj_eq_iff_re.1 ?_).symm
    rw [h3 a b ha hb, t4 a b ha hb]
    rw [map_add, map_mul, Complex.conj_ofReal, map_sum]
    congr 1
    · congr 1
      refine Finset.sum_congr rfl fun s hs => ?_
      have hs := Finset.mem_range.1 hs
      rw [map_mul, map_mul, Complex.conj_ofReal, D.uMat_real hs ha, D.uMat_real hs hb]
    · split
      · exact Complex.conj_ofReal _
      · exact map_zero _
  · rw [h3 a b ha hb, h3 b a hb ha, t4 a b ha hb, t4 b a hb ha]
    congr 1
    · congr 1
      exact Finset.sum_congr rfl fun s _ => by ring
    · by_cases h : a = b
      · rw [h]
      · rw [if_neg h, if_neg (Ne.symm h)]

/-- The object after `set_v_func` with real potentials of the single coordinates. -/
theorem set_real (conf : List (ℝ × ℝ × ℕ)) (hbar me : ℝ) (ops : List Op) (Vs : List (ℝ → ℝ)) (hV : Vs.length = conf.length)
    (hops : ∀ p ∈ ops, p.plain) :
    ∃ o hl, ((new conf hbar me).run ops).setVFunc (Vs.map fun V => pointwise fun x => (V x : ℂ)) none = (o, .ok ()) ∧ o.hList = some hl ∧
      o.diag = none ∧ o.dvrs.map SineDVR.n = conf.map (fun c => c.2.2) ∧ hl.length = conf.length ∧
      (∀ D ∈ o.dvrs, ∃ c V, c ∈ conf ∧ V ∈ Vs ∧ D = ⟨c.1, c.2.1, c.2.2, hbar, me, some (pointwise fun x => (V x : ℂ)), none⟩) ∧
      (∀ h ∈ hl, ∃ n, h.shape = [n, n]) ∧ hl.map (fun h => h.dim 0) = conf.map (fun c => c.2.2) ∧
      ∀ (i : ℕ) (D : SineDVR) (H : Nd ℂ), o.dvrs[i]? = some D → D.hMat = .ok H → hl.getD i ⟨[], []⟩ = H ∧ RealSymm H D.n := by
  choose T M h1 h2 h3 h4 using fun c V => hMat_ok c hbar me V
  have hfl : (Vs.map fun V => pointwise fun x => (V x : ℂ)).length = conf.length := by simpa using hV
  have hm : (Vs.map fun V => pointwise fun x => (V x : ℂ)) = (Vs.map fun V x => (V x : ℂ)).map pointwise := by simp
  have hlen : (List.zipWith M conf (Vs.map fun V x => (V x : ℂ))).length = conf.length := by simp [hV]
  refine ⟨⟨List.zipWith (fun (c : ℝ × ℝ × ℕ) f => (⟨c.1, c.2.1, c.2.2, hbar, me, some f, none⟩ : SineDVR)) conf
    (Vs.map fun V => pointwise fun x => (V x : ℂ)), some (List.zipWith M conf (Vs.map fun V x => (V x : ℂ))), none⟩, _, ?_, rfl, rfl,
    zip_n hbar me conf _ hfl, hlen, ?_, ?_, ?_, ?_⟩
  · have hpl := run_plain ops (new conf hbar me) hops rfl
    unfold setVFunc
    rw [setEach_conf conf hbar me ops _ hfl]
    dsimp only
    rw [hm, mapM_conf hbar me M h2 conf _]
    dsimp only
    rw [hpl]
  · intro D hD
    obtain ⟨i, hi, rfl⟩ := List.mem_iff_getElem.1 hD
    have hi' : i < conf.length := by simpa [hV] using hi
    dsimp only
    rw [List.getElem_zipWith, List.getElem_map]
    exact ⟨conf[i], Vs[i]'(hV ▸ hi'), List.getElem_mem _, List.getElem_mem _, rfl⟩
  · intro h hh
    obtain ⟨i, hi, rfl⟩ := List.mem_iff_getElem.1 hh
    rw [List.getElem_zipWith]
    exact ⟨_, h3 _ _⟩
  · refine List.ext_getElem (by simp [hV]) fun i a b => ?_
    simp only [List.getElem_map, List.getElem_zipWith]
    unfold Nd.dim
    rw [h3]
    rfl
  · intro i D H hD hH
    obtain ⟨hi, rfl⟩ := List.getElem?_eq_some_iff.1 hD
    have hi' : i < conf.length := by simpa [hV] using hi
    dsimp only at hH ⊢
    rw [List.getElem_zipWith, List.getElem_map] at hH ⊢
    refine ⟨?_, hMat_symm conf[i] hbar me (Vs[i]'(hV ▸ hi')) hH⟩
    rw [List.getD_eq_getElem _ _ (by rw [hlen]; exact hi'), List.getElem_zipWith, List.getElem_map]
    exact Except.ok.inj ((h2 _ _).symm.trans hH)

theorem apply_sum (conf : List (ℝ × ℝ × ℕ)) (o : PoDvr) (hl : List (Nd ℂ)) (ho : o.hList = some hl) (hd : o.diag = none)
    (hlen : hl.length = conf.length) (hn : ∀ c ∈ conf, 0 < c.2.2) (hsq : ∀ h ∈ hl, ∃ n, h.shape = [n, n])
    (hdim : hl.map (fun h => h.dim 0) = conf.map (fun c => c.2.2)) (hc : Dvr.TailConst 0 (conf.map fun c => c.2.2)) (w : List ℂ)
    (hw : w.length = (conf.map fun c => c.2.2).prod) :
    ∃ r, o.apply w = .ok r ∧ r.length = w.length ∧ ∀ idx, Valid (conf.map fun c => c.2.2) idx →
      r.getD (ravel (conf.map fun c => c.2.2) idx) 0 = ∑ i ∈ Finset.range conf.length, ∑ k ∈ Finset.range ((conf.map fun c => c.2.2).getD i 0),
        (hl.getD i ⟨[], []⟩).get [idx.getD i 0, k] * w.getD (ravel (conf.map fun c => c.2.2) (idx.set i k)) 0 := by
  have hsq' : ∀ h ∈ hl, ∃ n, 0 < n ∧ h.shape = [n, n] := by
    intro h hh
    obtain ⟨n, hs⟩ := hsq h hh
    refine ⟨n, ?_, hs⟩
    have : h.dim 0 ∈ hl.map fun h => h.dim 0 := List.mem_map_of_mem hh
    rw [hdim] at this
    obtain ⟨c, hc1, hc2⟩ := List.mem_map.1 this
    have hd0 : h.dim 0 = n := by unfold Nd.dim; rw [hs]; rfl
    rw [← hd0, ← hc2]
    exact hn c hc1
  obtain ⟨r, r1, r2, r3⟩ := Dvr.C38_hamiltonian_partial hl none w hsq' (by rw [hdim]; exact hw) (by simp) (by rw [hdim]; exact hc)
  refine ⟨r, ?_, r2, fun idx hidx => ?_⟩
  · unfold apply
    rw [ho, hd]
    exact r1
  · rw [hdim] at r3
    have := r3 idx hidx
    rw [List.getD_eq_getElem?_getD, this, Option.getD_some]
    unfold Dvr.applied
    rw [hdim, sum_zipIdx _ _ ⟨[], []⟩, hlen, add_zero]
    refine Finset.sum_congr rfl fun i hi => ?_
    have hi := Finset.mem_range.1 hi
    have e : (conf.map fun c => c.2.2).getD i 0 = (hl.getD i ⟨[], []⟩).dim 0 := by
      rw [← hdim, List.getD_eq_getElem _ _ (by simpa [hlen] using hi), List.getElem_map, List.getD_eq_getElem _ _ (hlen ▸ hi)]
    dsimp only
    rw [e]

/-- The product of eigenvectors is an eigenvector of the sum. -/
theorem product_eigen (s : List ℕ) (H : ℕ → Nd ℂ) (E : ℕ → ℝ) (u : ℕ → ℕ → ℝ) (idx : List ℕ) (hidx : Valid s idx)
    (he : ∀ i < s.length, Mctdh.Eigen (H i) (s.getD i 0) 1 [E i] fun _ => u i) :
    (∑ i ∈ Finset.range s.length, ∑ k ∈ Finset.range (s.getD i 0), (H i).get [idx.getD i 0, k] *
      ((∏ j ∈ Finset.range s.length, u j ((idx.set i k).getD j 0) : ℝ) : ℂ)) =
      (((∑ i ∈ Finset.range s.length, E i) * ∏ j ∈ Finset.range s.length, u j (idx.getD j 0) : ℝ) : ℂ) := by
  rw [Finset.sum_mul, Complex.ofReal_sum]
  refine Finset.sum_congr rfl fun i hi => ?_
  have hi' := Finset.mem_range.1 hi
  have hil : i < idx.length := by rw [hidx.length_eq]; exact hi'
  have e : ∀ k : ℕ, (∏ j ∈ Finset.range s.length, u j ((idx.set i k).getD j 0)) =
      u i k * ∏ j ∈ (Finset.range s.length).erase i, u j (idx.getD j 0) := by
    intro k
    rw [← Finset.mul_prod_erase _ _ hi]
    congr 1
    · rw [List.getD_eq_getElem _ _ (by simpa using hil), List.getElem_set_self]
    · refine Finset.prod_congr rfl fun j hj => ?_
      have hne : i ≠ j := fun h => (Finset.mem_erase.1 hj).1 h.symm
      rw [List.getD_eq_getElem?_getD, List.getElem?_set_ne hne, ← List.getD_eq_getElem?_getD]
  have e2 : ∀ k ∈ Finset.range (s.getD i 0), (H i).get [idx.getD i 0, k] *
      ((∏ j ∈ Finset.range s.length, u j ((idx.set i k).getD j 0) : ℝ) : ℂ) =
      (H i).get [idx.getD i 0, k] * (u i k : ℂ) * ((∏ j ∈ (Finset.range s.length).erase i, u j (idx.getD j 0) : ℝ) : ℂ) := by
    intro k _
    rw [e k, Complex.ofReal_mul, mul_assoc]
  rw [Finset.sum_congr rfl e2, ← Finset.sum_mul]
  have := (he i hi').equation 0 (by decide) (idx.getD i 0) (hidx.getD_lt hi' 0 0)
  simp only [List.getD_cons_zero] at this
  rw [this, ← Finset.mul_prod_erase (Finset.range s.length) (fun j => u j (idx.getD j 0)) hi]
  push_cast
  ring

/-- A call of `eigsh` that returns no vector ends in `IndexError`. -/
theorem C118_no_vector (eigsh : Nd ℂ → ℕ → Res (List ℝ × Nd ℝ)) (o : PoDvr) {D : SineDVR} {l : List SineDVR} (hl : o.dvrs = D :: l)
    {e : List ℝ} {w : Nd ℝ} (h : Mctdh.solve eigsh D 1 = .ok (e, w)) (hw : w.dim 0 = 0) : initVector eigsh o = .error .indexError := by
  unfold initVector
  rw [hl, List.foldlM_cons]
  unfold initStep
  rw [h, ok_bind]
  unfold firstRow
  dsimp only
  rw [if_pos hw, error_bind]
  rfl

/-- **C118.** For a separable real potential, after any history of calls without a residual potential, the vector of `init_state()` is the ground
state of the operator of `h_mat()`: an eigenvector whose energy is the sum of the lowest energies of the coordinates, and no vector has a
lower energy. One restriction, as in C38: the grids of all coordinates but the first have the same size. -/
theorem C118_ground_partial (conf : List (ℝ × ℝ × ℕ)) (hbar me : ℝ) (ops : List Op) (Vs : List (ℝ → ℝ)) (hV : Vs.length = conf.length)
    (hops : ∀ p ∈ ops, p.plain) (hn : ∀ c ∈ conf, 0 < c.2.2) (hc : Dvr.TailConst 0 (conf.map fun c => c.2.2)) :
    ∃ o, ((new conf hbar me).run ops).setVFunc (Vs.map fun V => pointwise fun x => (V x : ℂ)) none = (o, .ok ()) ∧
      ∀ eigsh : Nd ℂ → ℕ → Res (List ℝ × Nd ℝ), (∀ D ∈ o.dvrs, ∀ H, D.hMat = .ok H → Mctdh.EigshOk eigsh H D.n 1) →
      ∃ E u v, GroundStates o E u ∧ initVector eigsh o = .ok v ∧ v.length = (conf.map fun c => c.2.2).prod ∧
        (∑ k ∈ Finset.range v.length, v.getD k 0 ^ 2) = 1 ∧
        o.apply (v.map fun x : ℝ => (x : ℂ)) = .ok (v.map fun x : ℝ => (((∑ i ∈ Finset.range conf.length, E i) * x : ℝ) : ℂ)) ∧
        ∀ w : List ℂ, w.length = v.length → ∃ r, o.apply w = .ok r ∧ r.length = w.length ∧
          (∑ i ∈ Finset.range conf.length, E i) * (∑ k ∈ Finset.range w.length, ‖w.getD k 0‖ ^ 2) ≤
            (∑ k ∈ Finset.range w.length, starRingEnd ℂ (w.getD k 0) * r.getD k 0).re := by
  obtain ⟨o, hl, o1, o2, o3, o4, o5, o6, o7, o8, o9⟩ := set_real conf hbar me ops Vs hV hops
  refine ⟨o, o1, fun eigsh heig => ?_⟩
  obtain ⟨E, u, v, g1, g2, g3, g4, g5⟩ := C118_init eigsh o fun D hD => by
    obtain ⟨c, V, hc1, _, rfl⟩ := o6 D hD
    obtain ⟨T, H, _, hH, _⟩ := hMat_ok c hbar me fun x => (V x : ℂ)
    exact ⟨hn c hc1, H, hH, heig _ hD H hH⟩
  have hdl : o.dvrs.length = conf.length := by simpa using congrArg List.length o4
  set s := conf.map fun c => c.2.2 with hs
  have hsl : s.length = conf.length := by simp [hs]
  rw [o4] at g3 g4
  have hH : ∀ i < s.length, Mctdh.Eigen (hl.getD i ⟨[], []⟩) (s.getD i 0) 1 [E i] (fun _ => u i) ∧ RealSymm (hl.getD i ⟨[], []⟩) (s.getD i 0) := by
    intro i hi
    have hi' : i < o.dvrs.length := by rw [hdl, ← hsl]; exact hi
    obtain ⟨H, hH, he, _⟩ := g1 i o.dvrs[i] (List.getElem?_eq_getElem hi')
    obtain ⟨e1, e2⟩ := o9 i o.dvrs[i] H (List.getElem?_eq_getElem hi') hH
    have hni : s.getD i 0 = (o.dvrs[i]).n := by
      rw [← o4, List.getD_eq_getElem _ _ (by simpa using hi'), List.getElem_map]
    rw [e1, hni]
    exact ⟨he, e2⟩
  refine ⟨E, u, v, g1, g2, g3, g5, ?_, fun w hw => ?_⟩
  · obtain ⟨r, r1, r2, r3⟩ := apply_sum conf o hl o2 o3 o5 hn o7 o8 hc (v.map fun x : ℝ => (x : ℂ)) (by simpa using g3)
    rw [r1, ← hsl]
    congr 1
    rw [List.length_map] at r2
    refine List.ext_getElem (by simpa using r2) fun k hk1 hk2 => ?_
    have hk : k < s.prod := by rw [← g3, ← r2]; exact hk1
    have hidx := valid_unravel hk
    have h1 := r3 _ hidx
    have e : ∀ idx, Valid s idx → (v.map fun x : ℝ => (x : ℂ)).getD (ravel s idx) 0 = ((∏ i ∈ Finset.range s.length, u i (idx.getD i 0) : ℝ) : ℂ) := by
      intro idx hi
      rw [List.getD_eq_getElem?_getD, List.getElem?_map, g4 idx hi, hdl, hsl]
      rfl
    rw [← hsl] at h1
    have e3 : ∀ i ∈ Finset.range s.length, ∀ y ∈ Finset.range (s.getD i 0), (hl.getD i ⟨[], []⟩).get [(unravel s k).getD i 0, y] *
        (v.map fun x : ℝ => (x : ℂ)).getD (ravel s ((unravel s k).set i y)) 0 = (hl.getD i ⟨[], []⟩).get [(unravel s k).getD i 0, y] *
          ((∏ j ∈ Finset.range s.length, u j (((unravel s k).set i y).getD j 0) : ℝ) : ℂ) := by
      intro i hi y hy
      rw [e _ (Heom.valid_set hidx (Finset.mem_range.1 hy))]
    rw [Finset.sum_congr rfl fun i hi => Finset.sum_congr rfl (e3 i hi), product_eigen s _ E u _ hidx fun i hi => (hH i hi).1, ravel_unravel hk,
      List.getD_eq_getElem _ _ hk1] at h1
    rw [h1, List.getElem_map]
    have h2 := g4 _ hidx
    rw [ravel_unravel hk, List.getElem?_eq_getElem (by rw [g3]; exact hk), hdl, ← hsl] at h2
    rw [Option.some.inj h2]
  · obtain ⟨r, r1, r2, r3⟩ := apply_sum conf o hl o2 o3 o5 hn o7 o8 hc w (hw.trans g3)
    refine ⟨r, r1, r2, ?_⟩
    have hre : ∀ f : List ℕ → ℂ, (sumIdx s f).re = sumIdx s fun p => (f p).re := by
      intro f
      rw [sumIdx_eq_sum_range, sumIdx_eq_sum_range, Complex.re_sum]
    have e : sumIdx s (fun p => (starRingEnd ℂ (w.getD (ravel s p) 0) * r.getD (ravel s p) 0).re) =
        ∑ i ∈ Finset.range s.length, sumIdx s fun p => (starRingEnd ℂ (w.getD (ravel s p) 0) *
          ∑ y ∈ Finset.range (s.getD i 0), (hl.getD i ⟨[], []⟩).get [p.getD i 0, y] * w.getD (ravel s (p.set i y)) 0).re := by
      rw [← sumIdx_sum]
      refine sumIdx_congr fun p hp => ?_
      rw [r3 p hp, hsl, Finset.mul_sum, Complex.re_sum]
    rw [hw, g3, sum_list, sum_list, Finset.sum_mul, hre, e, ← hsl]
    exact Finset.sum_le_sum fun i hi => rayleigh_axis s i (Finset.mem_range.1 hi) (hH i (Finset.mem_range.1 hi)).2
      (hH i (Finset.mem_range.1 hi)).1 fun p => w.getD (ravel s p) 0

/-- The same without the restriction: if two grids other than the first differ in size, the operator raises a `ValueError` for every vector, so
that no state can be found. -/
theorem C118_ground_violated (conf : List (ℝ × ℝ × ℕ)) (hbar me : ℝ) (ops : List Op) (Vs : List (ℝ → ℝ)) (hV : Vs.length = conf.length)
    (hops : ∀ p ∈ ops, p.plain) (hn : ∀ c ∈ conf, 0 < c.2.2) (hc : ¬ Dvr.TailConst 0 (conf.map fun c => c.2.2)) :
    ∃ o, ((new conf hbar me).run ops).setVFunc (Vs.map fun V => pointwise fun x => (V x : ℂ)) none = (o, .ok ()) ∧
      ∀ w : List ℂ, w.length = (conf.map fun c => c.2.2).prod → o.apply w = .error .valueError := by
  obtain ⟨o, hl, o1, o2, o3, o4, o5, o6, o7, o8, o9⟩ := set_real conf hbar me ops Vs hV hops
  refine ⟨o, o1, fun w hw => ?_⟩
  unfold apply
  rw [o2]
  refine Dvr.C38_hamiltonian_violated hl o.diag w (fun h hh => ?_) (by rw [o8]; exact hw) (by rw [o8]; exact hc)
  obtain ⟨n, hs⟩ := o7 h hh
  refine ⟨n, ?_, hs⟩
  have : h.dim 0 ∈ hl.map fun h => h.dim 0 := List.mem_map_of_mem hh
  rw [o8] at this
  obtain ⟨c, hc1, hc2⟩ := List.mem_map.1 this
  have hd0 : h.dim 0 = n := by unfold Nd.dim; rw [hs]; rfl
  rw [← hd0, ← hc2]
  exact hn c hc1

/-- **C118.** `solve(1, davidson=True)` returns this state, up to its sign, and its energy, for all settings of the Davidson method with at
least one cycle, if the functions of `scipy.linalg` succeed. -/
theorem C118_davidson_partial (conf : List (ℝ × ℝ × ℕ)) (hbar me : ℝ) (ops : List Op) (Vs : List (ℝ → ℝ)) (hV : Vs.length = conf.length)
    (hops : ∀ p ∈ ops, p.plain) (hn : ∀ c ∈ conf, 0 < c.2.2) (hc : Dvr.TailConst 0 (conf.map fun c => c.2.2)) (N : ℕ)
    (hN : N = (conf.map fun c => c.2.2).prod) (cfg : Davidson.Config) (lib : Davidson.Lib N) (h1 : Davidson.OrthOk lib.orth)
    (h2 : Davidson.EighOk lib.eigh) (h3 : ∀ v : Vec N, Davidson.dot v v = 1 → lib.orth [v] ≠ []) (h4 : ∀ a, ∃ r, lib.eigh 1 a 1 = .ok r)
    (hl : 0 ≤ cfg.linDepLim) (hm : 0 < cfg.maxCycle) :
    ∃ o, ((new conf hbar me).run ops).setVFunc (Vs.map fun V => pointwise fun x => (V x : ℂ)) none = (o, .ok ()) ∧
      ∀ eigsh : Nd ℂ → ℕ → Res (List ℝ × Nd ℝ), (∀ D ∈ o.dvrs, ∀ H, D.hMat = .ok H → Mctdh.EigshOk eigsh H D.n 1) →
      ∃ E u v, ∃ c : ℝ, GroundStates o E u ∧ initVector eigsh o = .ok v ∧ v.length = N ∧ (c = 1 ∨ c = -1) ∧
        solveDavidson cfg N lib eigsh o 1 = .ok ([∑ i ∈ Finset.range conf.length, E i], [fun i : Fin N => c * v.getD i 0]) := by
  obtain ⟨o, hli, o1, o2, o3, o4, o5, o6, o7, o8, o9⟩ := set_real conf hbar me ops Vs hV hops
  obtain ⟨o', o1', hg⟩ := C118_ground_partial conf hbar me ops Vs hV hops hn hc
  obtain rfl : o = o' := (Prod.ext_iff.1 (o1.symm.trans o1')).1
  refine ⟨o, o1, fun eigsh heig => ?_⟩
  obtain ⟨E, u, v, g1, g2, g3, g4, g5, -⟩ := hg eigsh heig
  set s := conf.map fun c => c.2.2 with hs
  have hsl : s.length = conf.length := by simp [hs]
  have hdl : o.dvrs.length = conf.length := by rw [← hsl, ← o4, List.length_map]
  have hltN : ∀ idx, Valid s idx → ravel s idx < N := fun idx h => by rw [hN]; exact ravel_lt h
  have hsym : ∀ i < s.length, RealSymm (hli.getD i ⟨[], []⟩) (s.getD i 0) := by
    intro i hi
    have hi' : i < o.dvrs.length := by rw [hdl, ← hsl]; exact hi
    obtain ⟨H, hH, he, _⟩ := g1 i o.dvrs[i] (List.getElem?_eq_getElem hi')
    obtain ⟨e1, e2⟩ := o9 i o.dvrs[i] H (List.getElem?_eq_getElem hi') hH
    have hni : s.getD i 0 = (o.dvrs[i]).n := by
      rw [← o4, List.getD_eq_getElem _ _ (by simpa using hi'), List.getElem_map]
    rw [e1, hni]
    exact e2
  have hgl : ∀ (y : Vec N) (k : ℕ), (List.ofFn fun j => ((y j : ℝ) : ℂ)).getD k 0 = (((if h : k < N then y ⟨k, h⟩ else 0) : ℝ) : ℂ) := by
    intro y k
    by_cases hk : k < N
    · rw [dif_pos hk, List.getD_eq_getElem _ _ (by simpa using hk), List.getElem_ofFn]
    · rw [dif_neg hk, List.getD_eq_default _ _ (by simpa using hk)]
      rfl
  have hA : ∀ (y : Vec N) (idx : List ℕ) (hidx : Valid s idx), dotVec o N y ⟨ravel s idx, hltN idx hidx⟩ =
      ∑ i ∈ Finset.range s.length, ∑ k ∈ Finset.range (s.getD i 0), ((hli.getD i ⟨[], []⟩).get [idx.getD i 0, k]).re *
        (if h : ravel s (idx.set i k) < N then y ⟨_, h⟩ else 0) := by
    intro y idx hidx
    obtain ⟨r, r1, r2, r3⟩ := apply_sum conf o hli o2 o3 o5 hn o7 o8 hc (List.ofFn fun j => ((y j : ℝ) : ℂ)) (by simpa using hN)
    unfold dotVec
    rw [r1]
    dsimp only
    rw [r3 idx hidx, Complex.re_sum, hsl]
    refine Finset.sum_congr rfl fun i hi => ?_
    rw [Complex.re_sum]
    refine Finset.sum_congr rfl fun k hk => ?_
    rw [hgl, Complex.re_mul_ofReal]
  have hdot : ∀ x y : Vec N, Davidson.dot x y = sumIdx s fun p => (if h : ravel s p < N then x ⟨_, h⟩ else 0) * (if h : ravel s p < N then y ⟨_, h⟩ else 0) := by
    intro x y
    rw [← sum_list s fun k => (if h : k < N then x ⟨k, h⟩ else 0) * (if h : k < N then y ⟨k, h⟩ else 0), ← hN, ← Fin.sum_univ_eq_sum_range
      (fun k => (if h : k < N then x ⟨k, h⟩ else 0) * (if h : k < N then y ⟨k, h⟩ else 0))]
    unfold Davidson.dot
    refine Finset.sum_congr rfl fun i _ => ?_
    rw [dif_pos i.2, dif_pos i.2]
  have hsymm : Davidson.Symmetric (dotVec o N) := by
    intro x y
    rw [hdot, hdot]
    have e1 : ∀ z : Vec N, ∀ p, Valid s p → (if h : ravel s p < N then dotVec o N z ⟨_, h⟩ else 0) =
        ∑ i ∈ Finset.range s.length, ∑ k ∈ Finset.range (s.getD i 0), ((hli.getD i ⟨[], []⟩).get [p.getD i 0, k]).re *
        (if h : ravel s (p.set i k) < N then z ⟨_, h⟩ else 0) := by
      intro z p hp
      rw [dif_pos (hltN p hp), hA z p hp]
    rw [sumIdx_congr (g := fun p => ∑ i ∈ Finset.range s.length, (if h : ravel s p < N then x ⟨_, h⟩ else 0) * ∑ k ∈ Finset.range (s.getD i 0),
        ((hli.getD i ⟨[], []⟩).get [p.getD i 0, k]).re * (if h : ravel s (p.set i k) < N then y ⟨_, h⟩ else 0))
        fun p hp => by rw [e1 y p hp, Finset.mul_sum],
      sumIdx_congr (f := fun p => (if h : ravel s p < N then dotVec o N x ⟨_, h⟩ else 0) * (if h : ravel s p < N then y ⟨_, h⟩ else 0)) (g := fun p => ∑ i ∈ Finset.range s.length, (∑ k ∈ Finset.range (s.getD i 0),
        ((hli.getD i ⟨[], []⟩).get [p.getD i 0, k]).re * (if h : ravel s (p.set i k) < N then x ⟨_, h⟩ else 0)) *
          (if h : ravel s p < N then y ⟨_, h⟩ else 0))
        fun p hp => by rw [e1 x p hp, Finset.sum_mul], sumIdx_sum, sumIdx_sum]
    exact Finset.sum_congr rfl fun i hi => symm_axis s i (Finset.mem_range.1 hi) (hsym i (Finset.mem_range.1 hi))
      (fun p => if h : ravel s p < N then x ⟨_, h⟩ else 0) (fun p => if h : ravel s p < N then y ⟨_, h⟩ else 0)
  set w : Vec N := fun i => v.getD i 0 with hw
  have hvN : v.length = N := by rw [g3, hN]
  have hww : Davidson.dot w w = 1 := by
    rw [← g4, hvN, ← Fin.sum_univ_eq_sum_range (fun k => v.getD k 0 ^ 2)]
    exact Finset.sum_congr rfl fun i _ => (sq _).symm
  have hof : (List.ofFn fun j : Fin N => ((w j : ℝ) : ℂ)) = v.map fun x : ℝ => (x : ℂ) := by
    refine List.ext_getElem (by simp [hvN]) fun k a b => ?_
    rw [List.getElem_ofFn, List.getElem_map]
    congr 1
    exact List.getD_eq_getElem _ _ _
  have hw1 : ∀ p, Valid s p → (∑ i ∈ Finset.range s.length, ∑ k ∈ Finset.range (s.getD i 0), ((hli.getD i ⟨[], []⟩).get [p.getD i 0, k]).re *
      (if h : ravel s (p.set i k) < N then w ⟨_, h⟩ else 0)) = (∑ i ∈ Finset.range conf.length, E i) * v.getD (ravel s p) 0 := by
    intro p hp
    rw [← hA w p hp]
    unfold dotVec
    rw [hof, g5]
    dsimp only
    have hlt : ravel s p < v.length := by rw [g3]; exact ravel_lt hp
    rw [List.getD_eq_getElem _ _ (by simpa using hlt), List.getElem_map, Complex.ofReal_re, List.getD_eq_getElem _ _ hlt]
  have hAv : ∀ c, dotVec o N (Davidson.scale c w) = Davidson.scale (c * ∑ i ∈ Finset.range conf.length, E i) w := by
    intro c
    funext k
    have hk : (k : ℕ) < s.prod := by rw [← hN]; exact k.2
    have hidx := valid_unravel hk
    have e := hA (Davidson.scale c w) _ hidx
    have ek : (⟨ravel s (unravel s k), hltN _ hidx⟩ : Fin N) = k := Fin.ext (ravel_unravel hk)
    rw [ek] at e
    rw [e]
    have e2 : ∀ i ∈ Finset.range s.length, (∑ y ∈ Finset.range (s.getD i 0), ((hli.getD i ⟨[], []⟩).get [(unravel s k).getD i 0, y]).re *
        (if h : ravel s ((unravel s k).set i y) < N then Davidson.scale c w ⟨_, h⟩ else 0)) =
        c * ∑ y ∈ Finset.range (s.getD i 0), ((hli.getD i ⟨[], []⟩).get [(unravel s k).getD i 0, y]).re *
          (if h : ravel s ((unravel s k).set i y) < N then w ⟨_, h⟩ else 0) := by
      intro i _
      rw [Finset.mul_sum]
      refine Finset.sum_congr rfl fun y _ => ?_
      by_cases h : ravel s ((unravel s k).set i y) < N
      · rw [dif_pos h, dif_pos h, Davidson.scale]
        ring
      · rw [dif_neg h, dif_neg h]
        ring
    rw [Finset.sum_congr rfl e2, ← Finset.mul_sum, hw1 _ hidx, ravel_unravel hk, Davidson.scale, hw]
    ring
  obtain ⟨c, hcc, hk⟩ := Davidson.exact_kernel h1 h2 hsymm hl hm hww hAv (h3 w hww) h4
  refine ⟨E, u, v, c, g1, g2, hvN, ?_, ?_⟩
  · have : (c - 1) * (c + 1) = 0 := by linear_combination hcc
    rcases mul_eq_zero.1 this with h | h
    · exact Or.inl (by linarith)
    · exact Or.inr (by linarith)
  · unfold solveDavidson
    rw [o2]
    dsimp only
    rw [g2, ok_bind]
    exact hk

/-- Before `set_v_func` there is no operator: `solve` raises a `TypeError`. -/
theorem C118_before (conf : List (ℝ × ℝ × ℕ)) (hbar me : ℝ) (ops : List Op) (h : ∀ p ∈ ops, ∃ k, p = .initState k) (cfg : Davidson.Config) (N : ℕ)
    (lib : Davidson.Lib N) (eigsh : Nd ℂ → ℕ → Res (List ℝ × Nd ℝ)) (m : ℕ) :
    solveDavidson cfg N lib eigsh ((new conf hbar me).run ops) m = .error .typeError := by
  unfold solveDavidson
  rw [run_init ops (new conf hbar me) h rfl]

/-! ### `mu_mat` -/

/-- Specification: coordinate number `dim` of the grid point with multi-index `idx`. -/
noncomputable def coord (o : PoDvr) (dim : ℕ) (idx : List ℕ) : ℝ := ((o.dvrs.map SineDVR.gridPoints).getD dim []).getD (idx.getD dim 0) 0

theorem muDiag_ok (o : PoDvr) (dim : ℕ) (hd : dim < o.dvrs.length) :
    muDiag o dim = .ok ((List.range (o.dvrs.map SineDVR.n).prod).map fun i : ℕ => 1 - coord o dim (unravel (o.dvrs.map SineDVR.n) i)) := by
  unfold muDiag
  have key : ∀ l : List ℕ, (∀ i ∈ l, i < (o.dvrs.map SineDVR.n).prod) →
      (l.mapM fun i : ℕ => do
        let sub ← Dvr.subindex (o.dvrs.map SineDVR.n) i
        let x ← Mctdh.item (sub.zipIdx.map fun p => ((o.dvrs.map SineDVR.gridPoints).getD p.2 []).getD p.1 0) dim
        pure (1 - x)) = Except.ok (l.map fun i : ℕ => 1 - coord o dim (unravel (o.dvrs.map SineDVR.n) i)) := by
    intro l
    induction l with
    | nil => intro _; rfl
    | cons i l ih =>
      intro h
      have hi := h i List.mem_cons_self
      have hsub := Dvr.C38_subindex_pack (o.dvrs.map SineDVR.n) _ (valid_unravel hi)
      rw [ravel_unravel hi] at hsub
      have hl : dim < (unravel (o.dvrs.map SineDVR.n) i).length := by rw [(valid_unravel hi).length_eq, List.length_map]; exact hd
      have hx : Mctdh.item ((unravel (o.dvrs.map SineDVR.n) i).zipIdx.map fun p => ((o.dvrs.map SineDVR.gridPoints).getD p.2 []).getD p.1 0) dim =
          .ok (coord o dim (unravel (o.dvrs.map SineDVR.n) i)) := by
        unfold Mctdh.item coord
        rw [List.getElem?_eq_getElem (by simpa using hl), List.getElem_map, List.getElem_zipIdx, Nat.zero_add, List.getD_eq_getElem _ _ hl]
        rfl
      rw [List.mapM_cons, ih (fun j hj => h j (List.mem_cons_of_mem _ hj)), hsub, ok_bind, hx]
      rfl
  exact key _ fun i hi => by simpa using hi

/-- **C118.** The operator of `mu_mat(dim)` multiplies a vector at every grid point by one minus the coordinate `dim`. -/
theorem C118_mu (o : PoDvr) (dim : ℕ) (hd : dim < o.dvrs.length) (vec : List ℂ) (hv : vec.length = (o.dvrs.map SineDVR.n).prod) :
    ∃ r, muApply o dim vec = .ok r ∧ r.length = vec.length ∧ ∀ idx, Valid (o.dvrs.map SineDVR.n) idx →
      r.getD (ravel (o.dvrs.map SineDVR.n) idx) 0 = ((1 - coord o dim idx : ℝ) : ℂ) * vec.getD (ravel (o.dvrs.map SineDVR.n) idx) 0 := by
  have hm := muDiag_ok o dim hd
  refine ⟨_, by unfold muApply; rw [hm, ok_bind, if_pos (by simp [hv])]; rfl, by simp [hv], fun idx hidx => ?_⟩
  have hlt := ravel_lt hidx
  rw [List.getD_eq_getElem _ _ (by simpa [hv] using hlt), List.getElem_zipWith, List.getElem_map, List.getElem_range, unravel_ravel hidx,
    List.getD_eq_getElem _ _ (by rw [hv]; exact hlt)]

/-- Its errors: there is no such coordinate, or the vector has another length. -/
theorem C118_mu_errors (o : PoDvr) (dim : ℕ) (vec : List ℂ) :
    (o.dvrs.length ≤ dim → 0 < (o.dvrs.map SineDVR.n).prod → muApply o dim vec = .error .indexError) ∧
    (dim < o.dvrs.length → vec.length ≠ (o.dvrs.map SineDVR.n).prod → muApply o dim vec = .error .valueError) := by
  constructor
  · intro hd hp
    unfold muApply muDiag
    obtain ⟨m, hm⟩ : ∃ m, (o.dvrs.map SineDVR.n).prod = m + 1 := ⟨_, (Nat.succ_pred_eq_of_pos hp).symm⟩
    have hsub := Dvr.C38_subindex_pack (o.dvrs.map SineDVR.n) _ (valid_unravel hp)
    rw [ravel_unravel hp] at hsub
    have hx : Mctdh.item ((unravel (o.dvrs.map SineDVR.n) 0).zipIdx.map fun p => ((o.dvrs.map SineDVR.gridPoints).getD p.2 []).getD p.1 0) dim =
        .error .indexError := by
      unfold Mctdh.item
      rw [List.getElem?_eq_none (by simpa [(valid_unravel hp).length_eq] using hd)]
      rfl
    rw [hm, List.range_succ_eq_map, List.mapM_cons, hsub, ok_bind, hx]
    rfl
  · intro hd hv
    have hm := muDiag_ok o dim hd
    unfold muApply
    rw [hm, ok_bind, if_neg (by simpa using fun h => hv h.symm)]
    rfl

/-- It is not the dipole operator up to a constant factor, as its documentation says: as soon as the coordinate has two grid points, no multiple
of the coordinate agrees with it. -/
theorem C118_mu_violated (o : PoDvr) (dim : ℕ) (D : SineDVR) (hD : o.dvrs[dim]? = some D) (hn : ∀ D ∈ o.dvrs, 0 < D.n) (h2 : 2 ≤ D.n)
    (hL : D.a ≠ D.b) (c : ℝ) : ∃ idx, Valid (o.dvrs.map SineDVR.n) idx ∧ 1 - coord o dim idx ≠ c * coord o dim idx := by
  by_contra hcon
  push Not at hcon
  obtain ⟨hd, hDe⟩ := List.getElem?_eq_some_iff.1 hD
  have hz : Valid (o.dvrs.map SineDVR.n) (List.replicate o.dvrs.length 0) := by
    have : ∀ l : List SineDVR, (∀ D ∈ l, 0 < D.n) → Valid (l.map SineDVR.n) (List.replicate l.length 0) := by
      intro l
      induction l with
      | nil => intro _; exact valid_nil_iff.2 rfl
      | cons D l ih =>
        intro h
        exact valid_cons_iff.2 ⟨0, _, rfl, h D List.mem_cons_self, ih fun D' h' => h D' (List.mem_cons_of_mem _ h')⟩
    exact this _ hn
  have hx : ∀ k < D.n, Valid (o.dvrs.map SineDVR.n) ((List.replicate o.dvrs.length 0).set dim k) ∧
      coord o dim ((List.replicate o.dvrs.length 0).set dim k) = D.a + (D.b - D.a) / (D.n + 1) * (k + 1) := by
    intro k hk
    constructor
    · refine Heom.valid_set hz ?_
      rw [List.getD_eq_getElem _ _ (by simpa using hd), List.getElem_map, hDe]
      exact hk
    · unfold coord
      rw [List.getD_eq_getElem (o.dvrs.map SineDVR.gridPoints) _ (by simpa using hd), List.getElem_map, hDe,
        List.getD_eq_getElem ((List.replicate o.dvrs.length 0).set dim k) _ (by simpa using hd), List.getElem_set_self]
      unfold SineDVR.gridPoints SineDVR.length
      rw [List.getD_eq_getElem _ _ (by simpa using hk), List.getElem_map, List.getElem_range]
  have a0 := hcon _ (hx 0 (by omega)).1
  have a1 := hcon _ (hx 1 (by omega)).1
  rw [(hx 0 (by omega)).2] at a0
  rw [(hx 1 (by omega)).2] at a1
  set q := (D.b - D.a) / ((D.n : ℝ) + 1) with hq
  have hq0 : q ≠ 0 := by
    rw [hq]
    exact div_ne_zero (sub_ne_zero.2 (Ne.symm hL)) (by positivity)
  push_cast at a0 a1
  have hc1 : (c + 1) * q = 0 := by linear_combination a0 - a1
  have hc2 : c = -1 := by
    rcases mul_eq_zero.1 hc1 with h | h
    · linarith
    · exact absurd h hq0
  rw [hc2] at a0
  linarith

/-- But its matrix elements between orthogonal states are those of minus the coordinate. -/
theorem C118_mu_transition (o : PoDvr) (dim : ℕ) (hd : dim < o.dvrs.length) (a b : List ℂ) (ha : a.length = (o.dvrs.map SineDVR.n).prod)
    (hb : b.length = a.length) (hab : (∑ k ∈ Finset.range a.length, starRingEnd ℂ (a.getD k 0) * b.getD k 0) = 0) :
    ∃ r, muApply o dim b = .ok r ∧ (∑ k ∈ Finset.range a.length, starRingEnd ℂ (a.getD k 0) * r.getD k 0) =
      -sumIdx (o.dvrs.map SineDVR.n) fun idx => starRingEnd ℂ (a.getD (ravel (o.dvrs.map SineDVR.n) idx) 0) *
        ((coord o dim idx : ℝ) * b.getD (ravel (o.dvrs.map SineDVR.n) idx) 0) := by
  obtain ⟨r, r1, r2, r3⟩ := C118_mu o dim hd b (hb.trans ha)
  refine ⟨r, r1, ?_⟩
  rw [ha, sum_list] at hab ⊢
  rw [eq_neg_iff_add_eq_zero, ← sumIdx_add]
  refine Eq.trans ?_ hab
  refine sumIdx_congr fun idx hidx => ?_
  rw [r3 idx hidx]
  push_cast
  ring

/-- The hypotheses of these theorems are met for every box: all real potentials, and an eigensolver without rounding errors. -/
example (conf : List (ℝ × ℝ × ℕ)) (hbar me : ℝ) (Vs : List (ℝ → ℝ)) (hV : Vs.length = conf.length) (hn : ∀ c ∈ conf, 0 < c.2.2) (o : PoDvr)
    (ho : (new conf hbar me).setVFunc (Vs.map fun V => pointwise fun x => (V x : ℂ)) none = (o, .ok ())) :
    ∀ D ∈ o.dvrs, 0 < D.n ∧ ∀ H, D.hMat = .ok H → Mctdh.EigshOk Mctdh.exactEigsh H D.n 1 := by
  obtain ⟨o', hl, o1, -, -, -, -, o6, -⟩ := set_real conf hbar me [] Vs hV (fun p hp => (List.not_mem_nil hp).elim)
  obtain rfl : o = o' := (Prod.ext_iff.1 (ho.symm.trans o1)).1
  intro D hD
  obtain ⟨c, V, hc, _, rfl⟩ := o6 D hD
  refine ⟨hn c hc, fun H hH => ?_⟩
  obtain ⟨H', h1, _, h2⟩ := Mctdh.C95_exact c hbar me V 1 (hn c hc)
  obtain rfl : H = H' := Except.ok.inj (hH.symm.trans h1)
  exact h2

/-- Three coordinates, for which the restriction on the sizes is met, and three for which it is not. -/
example : Dvr.TailConst 0 (([(0, 1, 4), (0, 2, 3), (-1, 1, 3)] : List (ℝ × ℝ × ℕ)).map fun c => c.2.2) ∧
    ¬ Dvr.TailConst 0 (([(0, 1, 4), (0, 2, 3), (-1, 1, 5)] : List (ℝ × ℝ × ℕ)).map fun c => c.2.2) := by
  constructor
  · intro x hx y hy
    simp at hx hy
    omega
  · intro h
    have := h 3 (by simp) 5 (by simp)
    omega

/-- Functions of `scipy.linalg` that meet the assumptions of `C118_davidson_partial`: Gram-Schmidt, and the eigensolver for `1 × 1` matrices. -/
example (N : ℕ) : ∃ lib : Davidson.Lib N, Davidson.OrthOk lib.orth ∧ Davidson.EighOk lib.eigh ∧
    (∀ v : Vec N, Davidson.dot v v = 1 → lib.orth [v] ≠ []) ∧ ∀ a, ∃ r, lib.eigh 1 a 1 = .ok r := by
  refine ⟨⟨fun L => L.foldl Davidson.keep [], Davidson.eigh1⟩, Davidson.gramSchmidt_orthOk, Davidson.eigh1_ok, fun v hv => ?_, fun a => ?_⟩
  · have ho : Davidson.Orthonormal ([] ++ [v]) := ⟨fun u hu => by rw [List.mem_singleton.1 hu]; exact hv, List.pairwise_singleton _ _⟩
    have := Davidson.keepAll_self [v] [] ho
    dsimp only
    rw [this]
    simp
  · dsimp only [Davidson.eigh1]
    rw [if_pos ⟨rfl, rfl⟩]
    exact ⟨_, rfl⟩

end PoDvr
