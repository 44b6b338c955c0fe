import Verif.Model.PoDvr
import Verif.Props.C38
import Verif.Lemmas.Sine

/-! C89: the Hamiltonian of `PO_DVR` after any history of calls. -/

open Py
open scoped BigOperators

namespace PoDvr

/-- A potential given by a function of a real variable. -/
def pointwise (V : ℝ → ℂ) : VFunc := fun xs => .ok (xs.map V)

/-- Specification: grid point number `k` of a coordinate with bounds and number of points `c`. -/
noncomputable def gridPoint (c : ℝ × ℝ × ℕ) (k : ℕ) : ℝ := c.1 + (c.2.1 - c.1) / (c.2.2 + 1) * (k + 1)

/-- Specification: the coordinates of a multi-index. -/
noncomputable def point (conf : List (ℝ × ℝ × ℕ)) (idx : List ℕ) : List ℝ := List.zipWith gridPoint conf idx

/-- Specification: entry `idx` of `(∑ᵢ Tᵢ + ∑ᵢ Vᵢ + W) vec`, where `Tᵢ` are the kinetic energies of the coordinates. -/
noncomputable def hamiltonian (conf : List (ℝ × ℝ × ℕ)) (T : ℕ → Nd ℂ) (Vs : List (ℝ → ℂ)) (W : List ℝ → ℂ) (vec : List ℂ) (idx : List ℕ) : ℂ :=
  (∑ i ∈ Finset.range conf.length, ∑ k ∈ Finset.range (conf.getD i (0, 0, 0)).2.2,
    (T i).get [idx.getD i 0, k] * vec.getD (ravel (conf.map fun c => c.2.2) (idx.set i k)) 0) +
  ((List.zipWith (fun V x => V x) Vs (point conf idx)).sum + W (point conf idx)) * vec.getD (ravel (conf.map fun c => c.2.2) idx) 0

/-- The call does not give a `v_rst`. -/
def Op.plain : Op → Prop
  | .set _ w => w = none
  | .initState _ => True

/-! ### The parameters of the one-dimensional objects never change -/

def core (D : SineDVR) : SineDVR := { D with vFunc := none, hCache := none }

private theorem core_solve (D : SineDVR) : core D.solve = core D := by
  unfold SineDVR.solve
  cases D.hMat <;> rfl

private theorem setEach_core : ∀ (fs : List VFunc) (ds : List SineDVR) (i : ℕ), (setEach ds i fs).1.map core = ds.map core
  | [], _, _ => rfl
  | f :: fs, ds, i => by
    rw [setEach]
    match e : ds[i]? with
    | none => rfl
    | some D =>
      dsimp only
      rw [setEach_core fs, List.map_set]
      obtain ⟨hi, hD⟩ := List.getElem?_eq_some_iff.1 e
      refine List.ext_getElem (by simp) fun j h1 h2 => ?_
      rw [List.getElem_set]
      split
      · rename_i hij
        subst hij
        rw [List.getElem_map, hD]
        rfl
      · rfl

private theorem set_core (o : PoDvr) (vs : List VFunc) (w : Option (List ℝ → ℂ)) : (o.setVFunc vs w).1.dvrs.map core = o.dvrs.map core := by
  have key := setEach_core vs o.dvrs 0
  unfold setVFunc
  generalize setEach o.dvrs 0 vs = p at key ⊢
  obtain ⟨ds, r⟩ := p
  cases r with
  | error e => exact key
  | ok _ =>
    dsimp only
    cases ds.mapM SineDVR.hMat with
    | error e => exact key
    | ok hl =>
      dsimp only
      cases w with
      | none => exact key
      | some w =>
        dsimp only
        cases calcDiag ds w <;> exact key

theorem run_core : ∀ (ops : List Op) (o : PoDvr), (o.run ops).dvrs.map core = o.dvrs.map core
  | [], _ => rfl
  | .set vs w :: ops, o => by rw [run, run_core ops, set_core]
  | .initState k :: ops, o => by
    rw [run, run_core ops, initState, List.map_append, List.map_map]
    have : core ∘ SineDVR.solve = core := funext core_solve
    rw [this, ← List.map_append, List.take_append_drop]

private theorem set_plain (o : PoDvr) (vs : List VFunc) (h : o.diag = none) : (o.setVFunc vs none).1.diag = none := by
  unfold setVFunc
  generalize setEach o.dvrs 0 vs = p
  obtain ⟨ds, r⟩ := p
  cases r with
  | error e => exact h
  | ok _ =>
    dsimp only
    cases ds.mapM SineDVR.hMat <;> exact h

theorem run_plain : ∀ (ops : List Op) (o : PoDvr), (∀ p ∈ ops, p.plain) → o.diag = none → (o.run ops).diag = none
  | [], _, _, h => h
  | .set vs w :: ops, o, hp, h => by
    have hw : w = none := hp (.set vs w) (by simp)
    rw [run]
    exact run_plain ops _ (fun p hm => hp p (by simp [hm])) (by rw [hw]; exact set_plain o vs h)
  | .initState k :: ops, o, hp, h => by
    rw [run]
    exact run_plain ops _ (fun p hm => hp p (by simp [hm])) h

private theorem setEach_all : ∀ (fs : List VFunc) (pre ds : List SineDVR), fs.length = ds.length →
    setEach (pre ++ ds) pre.length fs = (pre ++ List.zipWith (fun D f => SineDVR.setVFunc (core D) f) ds fs, .ok ())
  | [], pre, ds, h => by
    cases ds with
    | nil => rfl
    | cons _ _ => simp at h
  | f :: fs, pre, [], h => by simp at h
  | f :: fs, pre, D :: ds, h => by
    rw [setEach]
    have e : (pre ++ D :: ds)[pre.length]? = some D := by simp
    rw [e]
    dsimp only
    have e2 : (pre ++ D :: ds).set pre.length (D.setVFunc f) = (pre ++ [D.setVFunc f]) ++ ds := by simp
    have ih := setEach_all fs (pre ++ [D.setVFunc f]) ds (by simpa using h)
    rw [List.length_append, List.length_singleton] at ih
    rw [e2, ih]
    simp [SineDVR.setVFunc, core]

/-- The objects after `set_v_func`. -/
theorem setEach_conf (conf : List (ℝ × ℝ × ℕ)) (hbar me : ℝ) (ops : List Op) (fs : List VFunc) (h : fs.length = conf.length) :
    setEach ((new conf hbar me).run ops).dvrs 0 fs =
      (List.zipWith (fun (c : ℝ × ℝ × ℕ) f => (⟨c.1, c.2.1, c.2.2, hbar, me, some f, none⟩ : SineDVR)) conf fs, .ok ()) := by
  have hc := run_core ops (new conf hbar me)
  generalize ((new conf hbar me).run ops).dvrs = ds at hc
  have hl : ds.length = conf.length := by
    have := congrArg List.length hc
    simpa [new] using this
  have key := setEach_all fs [] ds (h.trans hl.symm)
  rw [List.nil_append, List.length_nil, List.nil_append] at key
  rw [key]
  refine Prod.ext ?_ rfl
  dsimp only
  refine (?_ : _ = List.zipWith (fun D f => SineDVR.setVFunc D f) (ds.map core) fs).trans ?_
  · rw [List.zipWith_map_left]
  · rw [hc, new, List.map_map, List.zipWith_map_left]
    rfl

theorem hMat_ok (c : ℝ × ℝ × ℕ) (hbar me : ℝ) (V : ℝ → ℂ) :
    ∃ T M, (⟨c.1, c.2.1, c.2.2, hbar, me, none, none⟩ : SineDVR).tMat = .ok T ∧
      (⟨c.1, c.2.1, c.2.2, hbar, me, some (pointwise V), none⟩ : SineDVR).hMat = .ok M ∧ M.shape = [c.2.2, c.2.2] ∧
      ∀ a b, a < c.2.2 → b < c.2.2 → M.get [a, b] = T.get [a, b] + if b = a then V (gridPoint c a) else 0 := by
  obtain ⟨T, t1, t2, t3, _⟩ := SineDVR.tMat_ok (⟨c.1, c.2.1, c.2.2, hbar, me, none, none⟩ : SineDVR)
  set v : List ℂ := ((⟨c.1, c.2.1, c.2.2, hbar, me, none, none⟩ : SineDVR).gridPoints).map V with hv
  have hvl : v.length = c.2.2 := by simp [hv, SineDVR.gridPoints]
  have vw : (npDiagK v 0).Wf := Nd.ofFn_wf _ _
  have vs : (npDiagK v 0).shape = [c.2.2, c.2.2] := by simp [npDiagK, Nd.ofFn, hvl]
  dsimp only at t3
  obtain ⟨M, m1, m2, m3, m4⟩ := Nd.add_ok t2 vw (t3.trans vs.symm)
  refine ⟨T, M, t1, ?_, m3.trans t3, fun a b ha hb => ?_⟩
  · unfold SineDVR.hMat
    have e1 : (⟨c.1, c.2.1, c.2.2, hbar, me, some (pointwise V), none⟩ : SineDVR).tMat = .ok T := t1
    have e2 : (⟨c.1, c.2.1, c.2.2, hbar, me, some (pointwise V), none⟩ : SineDVR).vMat = .ok (npDiagK v 0) := rfl
    dsimp only
    rw [e1, ok_bind, e2, ok_bind]
    exact m1
  · rw [m4 [a, b] (by rw [t3]; simp [Valid, ha, hb])]
    congr 1
    unfold npDiagK
    rw [Nd.get_ofFn _ (by simp [Valid, hvl, ha, hb])]
    simp only [List.getD_cons_zero, List.getD_cons_succ, add_zero, Nat.cast_inj]
    by_cases hab : b = a
    · subst hab
      rw [if_pos rfl, if_pos rfl, min_self, List.getD_eq_getElem _ _ (hvl ▸ hb)]
      simp [hv, SineDVR.gridPoints, gridPoint, SineDVR.length]
    · rw [if_neg hab, if_neg hab]

theorem mapM_conf (hbar me : ℝ) (M : ℝ × ℝ × ℕ → (ℝ → ℂ) → Nd ℂ)
    (hM : ∀ c V, (⟨c.1, c.2.1, c.2.2, hbar, me, some (pointwise V), none⟩ : SineDVR).hMat = .ok (M c V)) :
    ∀ (conf : List (ℝ × ℝ × ℕ)) (Vs : List (ℝ → ℂ)),
    (List.zipWith (fun (c : ℝ × ℝ × ℕ) f => (⟨c.1, c.2.1, c.2.2, hbar, me, some f, none⟩ : SineDVR)) conf (Vs.map pointwise)).mapM
      SineDVR.hMat = .ok (List.zipWith M conf Vs)
  | [], _ => by simp [pure, Except.pure]
  | _ :: _, [] => by simp [pure, Except.pure]
  | c :: conf, V :: Vs => by
    rw [List.map_cons, List.zipWith_cons_cons, List.mapM_cons, hM, mapM_conf hbar me M hM conf Vs]
    rfl

theorem sum_zipIdx (l : List (Nd ℂ)) (f : Nd ℂ × ℕ → ℂ) (d : Nd ℂ) :
    (l.zipIdx.map f).sum = ∑ i ∈ Finset.range l.length, f (l.getD i d, i) := by
  rw [← Heom.sum_range_list]
  congr 1
  refine List.ext_getElem (by simp) fun i h1 h2 => ?_
  have hi : i < l.length := by simpa using h1
  rw [List.getElem_map, List.getElem_zipIdx, List.getElem_map, List.getElem_range, List.getD_eq_getElem _ _ hi, Nat.zero_add]

private theorem sum_point (conf : List (ℝ × ℝ × ℕ)) (Vs : List (ℝ → ℂ)) (idx : List ℕ) (hV : Vs.length = conf.length)
    (hi : idx.length = conf.length) :
    (List.zipWith (fun V x => V x) Vs (point conf idx)).sum =
      ∑ i ∈ Finset.range conf.length, Vs.getD i (fun _ => 0) (gridPoint (conf.getD i (0, 0, 0)) (idx.getD i 0)) := by
  rw [← Heom.sum_range_list]
  congr 1
  refine List.ext_getElem (by simp [point, hV, hi]) fun i h1 h2 => ?_
  have h : i < conf.length := by simpa using h2
  rw [List.getElem_zipWith, List.getElem_map, List.getElem_range, List.getD_eq_getElem _ _ (hV ▸ h), List.getD_eq_getElem _ _ h,
    List.getD_eq_getElem _ _ (hi ▸ h)]
  simp only [point, List.getElem_zipWith]

theorem zip_n (hbar me : ℝ) : ∀ (conf : List (ℝ × ℝ × ℕ)) (fs : List VFunc), fs.length = conf.length →
    (List.zipWith (fun (c : ℝ × ℝ × ℕ) f => (⟨c.1, c.2.1, c.2.2, hbar, me, some f, none⟩ : SineDVR)) conf fs).map SineDVR.n =
      conf.map fun c => c.2.2
  | [], _, _ => by simp
  | c :: conf, [], h => by simp at h
  | c :: conf, f :: fs, h => by
    rw [List.zipWith_cons_cons, List.map_cons, zip_n hbar me conf fs (by simpa using h), List.map_cons]

theorem zip_grid (hbar me : ℝ) : ∀ (conf : List (ℝ × ℝ × ℕ)) (fs : List VFunc), fs.length = conf.length →
    (List.zipWith (fun (c : ℝ × ℝ × ℕ) f => (⟨c.1, c.2.1, c.2.2, hbar, me, some f, none⟩ : SineDVR)) conf fs).map SineDVR.gridPoints =
      conf.map fun c => (List.range c.2.2).map (gridPoint c)
  | [], _, _ => by simp
  | c :: conf, [], h => by simp at h
  | c :: conf, f :: fs, h => by
    rw [List.zipWith_cons_cons, List.map_cons, zip_grid hbar me conf fs (by simpa using h), List.map_cons]
    rfl

theorem zipIdx_point (conf : List (ℝ × ℝ × ℕ)) (idx : List ℕ) (h : Valid (conf.map fun c => c.2.2) idx) :
    (idx.zipIdx.map fun p => ((conf.map fun c => (List.range c.2.2).map (gridPoint c)).getD p.2 []).getD p.1 0) = point conf idx := by
  have hl : idx.length = conf.length := by simpa using h.length_eq
  refine List.ext_getElem (by simp [point, hl]) fun i h1 h2 => ?_
  have hi : i < idx.length := by simpa using h1
  have hc : i < conf.length := hl ▸ hi
  have hlt := h.getD_lt (k := i) (by simpa using hc) 0 0
  rw [List.getElem_map, List.getElem_zipIdx, Nat.zero_add]
  dsimp only
  rw [List.getD_eq_getElem (conf.map fun c => (List.range c.2.2).map (gridPoint c)) _ (by simpa using hc), List.getElem_map]
  simp only [point, List.getElem_zipWith]
  have hlt' : idx[i] < conf[i].2.2 := by
    rw [List.getD_eq_getElem _ _ hi, List.getD_eq_getElem (conf.map fun c => c.2.2) _ (by simpa using hc), List.getElem_map] at hlt
    exact hlt
  rw [List.getD_eq_getElem _ _ (by simpa using hlt'), List.getElem_map, List.getElem_range]

private theorem applied_eq (conf : List (ℝ × ℝ × ℕ)) (T : ℝ × ℝ × ℕ → (ℝ → ℂ) → Nd ℂ) (M : ℝ × ℝ × ℕ → (ℝ → ℂ) → Nd ℂ) (Vs : List (ℝ → ℂ))
    (hV : Vs.length = conf.length) (hs : ∀ c V, (M c V).shape = [c.2.2, c.2.2])
    (hM : ∀ c V a b, a < c.2.2 → b < c.2.2 → (M c V).get [a, b] = (T c V).get [a, b] + if b = a then V (gridPoint c a) else 0)
    (vec : List ℂ) (idx : List ℕ) (h : Valid (conf.map fun c => c.2.2) idx) (d : Option (List ℂ)) (w : ℂ)
    (hd : (match d with | none => 0 | some d => d.getD (ravel (conf.map fun c => c.2.2) idx) 0) = w) 
    (hdim : ((List.zipWith M conf Vs).map fun h => h.dim 0) = conf.map fun c => c.2.2) :
    Dvr.applied (List.zipWith M conf Vs) d vec idx =
      (∑ i ∈ Finset.range conf.length, ∑ k ∈ Finset.range (conf.getD i (0, 0, 0)).2.2,
        (T (conf.getD i (0, 0, 0)) (Vs.getD i fun _ => 0)).get [idx.getD i 0, k] *
          vec.getD (ravel (conf.map fun c => c.2.2) (idx.set i k)) 0) +
      ((List.zipWith (fun V x => V x) Vs (point conf idx)).sum + w) * vec.getD (ravel (conf.map fun c => c.2.2) idx) 0 := by
  have hil : idx.length = conf.length := by simpa using h.length_eq
  unfold Dvr.applied
  rw [hdim, sum_zipIdx _ _ ⟨[], []⟩, sum_point conf Vs idx hV hil, add_mul, ← add_assoc, Finset.sum_mul, ← Finset.sum_add_distrib]
  congr 1
  · have hlen : (List.zipWith M conf Vs).length = conf.length := by simp [hV]
    rw [hlen]
    refine Finset.sum_congr rfl fun i hi => ?_
    have hi := Finset.mem_range.1 hi
    have e : (List.zipWith M conf Vs).getD i ⟨[], []⟩ = M (conf.getD i (0, 0, 0)) (Vs.getD i fun _ => 0) := by
      rw [List.getD_eq_getElem _ _ (hlen ▸ hi), List.getElem_zipWith, List.getD_eq_getElem _ _ hi, List.getD_eq_getElem _ _ (hV ▸ hi)]
    have hlt : idx.getD i 0 < (conf.getD i (0, 0, 0)).2.2 := by
      have := h.getD_lt (k := i) (by simpa using hi) 0 0
      rw [List.getD_eq_getElem _ _ hi]
      rw [List.getD_eq_getElem (conf.map fun c => c.2.2) _ (by simpa using hi), List.getElem_map] at this
      exact this
    dsimp only
    rw [e]
    generalize conf.getD i (0, 0, 0) = c at hlt ⊢
    generalize Vs.getD i (fun _ => 0) = V
    have hd0 : (M c V).dim 0 = c.2.2 := by unfold Nd.dim; rw [hs]; rfl
    rw [hd0]
    have e2 : ∀ k ∈ Finset.range c.2.2, (M c V).get [idx.getD i 0, k] * vec.getD (ravel (conf.map fun c => c.2.2) (idx.set i k)) 0 =
        (T c V).get [idx.getD i 0, k] * vec.getD (ravel (conf.map fun c => c.2.2) (idx.set i k)) 0 +
          if k = idx.getD i 0 then V (gridPoint c (idx.getD i 0)) * vec.getD (ravel (conf.map fun c => c.2.2) (idx.set i k)) 0 else 0 := by
      intro k hk
      rw [hM c V _ _ hlt (Finset.mem_range.1 hk), add_mul]
      congr 1
      split <;> simp
    rw [Finset.sum_congr rfl e2, Finset.sum_add_distrib, Finset.sum_ite_eq' (Finset.range c.2.2), if_pos (Finset.mem_range.2 hlt),
      Heom.set_self (hil ▸ hi)]
  · cases d with
    | none =>
      dsimp only at hd ⊢
      rw [← hd, zero_mul]
    | some d =>
      dsimp only at hd ⊢
      rw [hd]

/-- **C89.** After any history of calls, with or without exceptions, `set_v_func(v_list, v_rst)` makes `h_mat()` the operator
`∑ᵢ (Tᵢ + vᵢ) + v_rst`: its action on a vector is this sum at every point of the grid. Two restrictions: the grids of all coordinates but
the first have the same size (as in C38), and a call without `v_rst` is not preceded by one with it. -/
theorem C89_history_partial (conf : List (ℝ × ℝ × ℕ)) (hbar me : ℝ) (ops : List Op) (Vs : List (ℝ → ℂ)) (W : Option (List ℝ → ℂ))
    (hV : Vs.length = conf.length) (hn : ∀ c ∈ conf, 0 < c.2.2) (hc : Dvr.TailConst 0 (conf.map fun c => c.2.2))
    (hW : W = none → ∀ p ∈ ops, p.plain) :
    ∃ o T, ((new conf hbar me).run ops).setVFunc (Vs.map pointwise) W = (o, .ok ()) ∧
      (∀ (i : ℕ) (D : SineDVR), (new conf hbar me).dvrs[i]? = some D → D.tMat = .ok (T i)) ∧
      ∀ vec : List ℂ, vec.length = (conf.map fun c => c.2.2).prod → ∃ res, o.apply vec = .ok res ∧ res.length = vec.length ∧
        ∀ idx, Valid (conf.map fun c => c.2.2) idx →
          res[ravel (conf.map fun c => c.2.2) idx]? = some (hamiltonian conf T Vs (W.getD fun _ => 0) vec idx) := by
  choose T M h1 h2 h3 h4 using fun c V => hMat_ok c hbar me V
  have hfl : (Vs.map pointwise).length = conf.length := by simpa using hV
  have hdim : ((List.zipWith M conf Vs).map fun h => h.dim 0) = conf.map fun c => c.2.2 := by
    refine List.ext_getElem (by simp [hV]) fun i a b => ?_
    simp only [List.getElem_map, List.getElem_zipWith]
    unfold Nd.dim
    rw [h3]
    rfl
  have hsq : ∀ h ∈ List.zipWith M conf Vs, ∃ n, 0 < n ∧ h.shape = [n, n] := by
    intro h hh
    obtain ⟨i, hi, rfl⟩ := List.mem_iff_getElem.1 hh
    rw [List.getElem_zipWith]
    exact ⟨_, hn _ (List.getElem_mem _), h3 _ _⟩
  have hT : ∀ (i : ℕ) (D : SineDVR), (new conf hbar me).dvrs[i]? = some D → D.tMat = .ok (T (conf.getD i (0, 0, 0)) (Vs.getD i fun _ => 0)) := by
    intro i D hD
    rw [new, List.getElem?_map] at hD
    obtain ⟨c, hc1, hc2⟩ := Option.map_eq_some_iff.1 hD
    rw [← hc2, List.getD_eq_getElem?_getD, hc1]
    exact h1 _ _
  unfold setVFunc
  rw [setEach_conf conf hbar me ops _ hfl]
  dsimp only
  rw [mapM_conf hbar me M h2 conf Vs]
  dsimp only
  cases W with
  | none =>
    dsimp only
    refine ⟨_, fun i => T (conf.getD i (0, 0, 0)) (Vs.getD i fun _ => 0), rfl, hT, fun vec hvec => ?_⟩
    have hpl := run_plain ops (new conf hbar me) (hW rfl) rfl
    obtain ⟨res, r1, r2, r3⟩ := Dvr.C38_hamiltonian_partial (List.zipWith M conf Vs) none vec hsq (by rw [hdim]; exact hvec) (by simp)
      (by rw [hdim]; exact hc)
    refine ⟨res, ?_, r2, fun idx hidx => ?_⟩
    · unfold apply
      dsimp only
      rw [hpl]
      exact r1
    · rw [hdim] at r3
      rw [r3 idx hidx, applied_eq conf T M Vs hV h3 h4 vec idx hidx none 0 rfl hdim]
      rfl
  | some w =>
    obtain ⟨d, d1, d2, d3⟩ := Dvr.C38_potential (conf.map fun c => c.2.2)
      (fun j k => ((conf.map fun c => (List.range c.2.2).map (gridPoint c)).getD j []).getD k 0) w
    have hcd : calcDiag (List.zipWith (fun (c : ℝ × ℝ × ℕ) f => (⟨c.1, c.2.1, c.2.2, hbar, me, some f, none⟩ : SineDVR)) conf
        (Vs.map pointwise)) w = .ok d := by
      unfold calcDiag
      rw [zip_n hbar me conf _ hfl, zip_grid hbar me conf _ hfl]
      exact d1
    dsimp only
    rw [hcd]
    dsimp only
    refine ⟨_, fun i => T (conf.getD i (0, 0, 0)) (Vs.getD i fun _ => 0), rfl, hT, fun vec hvec => ?_⟩
    obtain ⟨res, r1, r2, r3⟩ := Dvr.C38_hamiltonian_partial (List.zipWith M conf Vs) (some d) vec hsq (by rw [hdim]; exact hvec)
      (fun d' e => by cases e; rw [d2, hvec]) (by rw [hdim]; exact hc)
    refine ⟨res, r1, r2, fun idx hidx => ?_⟩
    rw [hdim] at r3
    rw [r3 idx hidx, applied_eq conf T M Vs hV h3 h4 vec idx hidx (some d) (w (point conf idx)) ?_ hdim]
    · rfl
    · dsimp only
      rw [List.getD_eq_getElem?_getD, d3 idx hidx, Option.getD_some, zipIdx_point conf idx hidx]

/-- A call without `v_rst` does not take the old one away: after `set_v_func(v, w)` and `set_v_func(v')` the operator is the one of
`set_v_func(v', w)`, not that of `set_v_func(v')`. -/
theorem C89_stale_violated (conf : List (ℝ × ℝ × ℕ)) (hbar me : ℝ) (Vs Vs' : List (ℝ → ℂ)) (w : List ℝ → ℂ)
    (hV : Vs.length = conf.length) (hV' : Vs'.length = conf.length) (vec : List ℂ) :
    (((new conf hbar me).run [.set (Vs.map pointwise) (some w)]).setVFunc (Vs'.map pointwise) none).1.apply vec =
      ((new conf hbar me).setVFunc (Vs'.map pointwise) (some w)).1.apply vec := by
  choose T M h1 h2 h3 h4 using fun c V => hMat_ok c hbar me V
  obtain ⟨d, d1, _, _⟩ := Dvr.C38_potential (conf.map fun c => c.2.2)
    (fun j k => ((conf.map fun c => (List.range c.2.2).map (gridPoint c)).getD j []).getD k 0) w
  have hcd : ∀ Us : List (ℝ → ℂ), Us.length = conf.length →
      calcDiag (List.zipWith (fun (c : ℝ × ℝ × ℕ) f => (⟨c.1, c.2.1, c.2.2, hbar, me, some f, none⟩ : SineDVR)) conf
      (Us.map pointwise)) w = .ok d := by
    intro Us hU
    unfold calcDiag
    rw [zip_n hbar me conf _ (by simpa using hU), zip_grid hbar me conf _ (by simpa using hU)]
    exact d1
  have hset : ∀ Us : List (ℝ → ℂ), Us.length = conf.length → (new conf hbar me).setVFunc (Us.map pointwise) (some w) =
      (⟨List.zipWith (fun (c : ℝ × ℝ × ℕ) f => (⟨c.1, c.2.1, c.2.2, hbar, me, some f, none⟩ : SineDVR)) conf (Us.map pointwise),
        some (List.zipWith M conf Us), some d⟩, .ok ()) := by
    intro Us hU
    unfold setVFunc
    have := setEach_conf conf hbar me [] (Us.map pointwise) (by simpa using hU)
    rw [run] at this
    rw [this]
    dsimp only
    rw [mapM_conf hbar me M h2 conf Us]
    dsimp only
    rw [hcd Us hU]
  have hrun : ((new conf hbar me).run [.set (Vs.map pointwise) (some w)]).diag = some d := by
    rw [run, run, hset Vs hV]
  have hlast : (((new conf hbar me).run [.set (Vs.map pointwise) (some w)]).setVFunc (Vs'.map pointwise) none).1.hList =
      some (List.zipWith M conf Vs') ∧
      (((new conf hbar me).run [.set (Vs.map pointwise) (some w)]).setVFunc (Vs'.map pointwise) none).1.diag = some d := by
    unfold setVFunc
    rw [setEach_conf conf hbar me _ _ (by simpa using hV')]
    dsimp only
    rw [mapM_conf hbar me M h2 conf Vs']
    exact ⟨rfl, hrun⟩
  unfold apply
  rw [hlast.1, hlast.2, hset Vs' hV']

/-- So it is wrong for every vector that is not zero at a point where `w` is not zero. -/
theorem C89_wrong_violated (conf : List (ℝ × ℝ × ℕ)) (hbar me : ℝ) (Vs Vs' : List (ℝ → ℂ)) (w : List ℝ → ℂ)
    (hV : Vs.length = conf.length) (hV' : Vs'.length = conf.length) (hn : ∀ c ∈ conf, 0 < c.2.2)
    (hc : Dvr.TailConst 0 (conf.map fun c => c.2.2)) (vec : List ℂ) (hvec : vec.length = (conf.map fun c => c.2.2).prod) (idx : List ℕ)
    (hidx : Valid (conf.map fun c => c.2.2) idx) (hw : w (point conf idx) ≠ 0)
    (hv : vec.getD (ravel (conf.map fun c => c.2.2) idx) 0 ≠ 0) :
    (((new conf hbar me).run [.set (Vs.map pointwise) (some w)]).setVFunc (Vs'.map pointwise) none).1.apply vec ≠
      ((new conf hbar me).setVFunc (Vs'.map pointwise) none).1.apply vec := by
  rw [C89_stale_violated conf hbar me Vs Vs' w hV hV' vec]
  obtain ⟨o1, T1, a1, b1, c1⟩ := C89_history_partial conf hbar me [] Vs' (some w) hV' hn hc (fun h => by cases h)
  obtain ⟨o2, T2, a2, b2, c2⟩ := C89_history_partial conf hbar me [] Vs' none hV' hn hc (fun _ p hp => by simp at hp)
  rw [run] at a1 a2
  rw [a1, a2]
  obtain ⟨r1, x1, _, y1⟩ := c1 vec hvec
  obtain ⟨r2, x2, _, y2⟩ := c2 vec hvec
  dsimp only
  rw [x1, x2]
  intro e
  have e := Except.ok.inj e
  subst e
  have h := Option.some.inj ((y1 idx hidx).symm.trans (y2 idx hidx))
  unfold hamiltonian at h
  have hT : ∀ i ∈ Finset.range conf.length, T1 i = T2 i := by
    intro i hi
    have hi := Finset.mem_range.1 hi
    have hD : (new conf hbar me).dvrs[i]? = some ⟨conf[i].1, conf[i].2.1, conf[i].2.2, hbar, me, none, none⟩ := by
      rw [new, List.getElem?_map, List.getElem?_eq_getElem hi]
      rfl
    exact Except.ok.inj ((b1 i _ hD).symm.trans (b2 i _ hD))
  rw [Finset.sum_congr rfl fun i hi => by rw [hT i hi]] at h
  have h := add_left_cancel h
  rw [Option.getD_some, Option.getD_none, add_zero, add_mul] at h
  have h0 : w (point conf idx) * vec.getD (ravel (conf.map fun c => c.2.2) idx) 0 = 0 := by
    simpa using h
  exact (mul_ne_zero hw hv) h0

theorem run_init : ∀ (ops : List Op) (o : PoDvr), (∀ p ∈ ops, ∃ k, p = .initState k) → o.hList = none → (o.run ops).hList = none
  | [], _, _, h => h
  | p :: ops, o, hp, h => by
    obtain ⟨k, rfl⟩ := hp p (List.mem_cons_self ..)
    exact run_init ops (o.initState k) (fun q hq => hp q (List.mem_cons_of_mem _ hq)) h

/-- Before the first `set_v_func` there is no Hamiltonian: `h_mat` fails, whatever else has been called. -/
theorem C89_before (conf : List (ℝ × ℝ × ℕ)) (hbar me : ℝ) (ops : List Op) (h : ∀ p ∈ ops, ∃ k, p = .initState k) (vec : List ℂ) :
    ((new conf hbar me).run ops).apply vec = .error .typeError := by
  unfold apply
  rw [run_init ops (new conf hbar me) h rfl]

private theorem setEach_many : ∀ (fs : List VFunc) (ds : List SineDVR) (i : ℕ), ds.length < i + fs.length → i ≤ ds.length →
    (setEach ds i fs).2 = .error .indexError
  | [], ds, i, h, h' => by simp at h; omega
  | f :: fs, ds, i, h, h' => by
    unfold setEach
    by_cases hi : i < ds.length
    · rw [List.getElem?_eq_getElem hi]
      exact setEach_many fs _ (i + 1) (by simp at h ⊢; omega) (by simp; omega)
    · rw [List.getElem?_eq_none (by omega)]

/-- More potentials than coordinates raise IndexError, after any history, and leave the Hamiltonian as it was. -/
theorem C89_too_many (conf : List (ℝ × ℝ × ℕ)) (hbar me : ℝ) (ops : List Op) (vs : List VFunc) (w : Option (List ℝ → ℂ))
    (h : conf.length < vs.length) :
    (((new conf hbar me).run ops).setVFunc vs w).2 = .error .indexError ∧
    ∀ vec, (((new conf hbar me).run ops).setVFunc vs w).1.apply vec = ((new conf hbar me).run ops).apply vec := by
  have hl : ((new conf hbar me).run ops).dvrs.length = conf.length := by
    have := congrArg List.length (run_core ops (new conf hbar me))
    simpa [new] using this
  have := setEach_many vs ((new conf hbar me).run ops).dvrs 0 (by omega) (Nat.zero_le _)
  unfold setVFunc
  generalize setEach ((new conf hbar me).run ops).dvrs 0 vs = r at this
  obtain ⟨ds, r⟩ := r
  dsimp only at this
  subst this
  exact ⟨rfl, fun vec => rfl⟩

example : (((new [(0, 1, 2)] 1 1).run [.initState 1]).setVFunc [pointwise fun _ => 1, pointwise fun _ => 2] none).2 = .error .indexError :=
  (C89_too_many [(0, 1, 2)] 1 1 [.initState 1] _ none (by simp)).1

/-- Two coordinates with two points each: the hypotheses are met, also by a call with `v_rst` after other calls. -/
example : ∃ o T, ((new [(0, 1, 2), (0, 2, 2)] 1 1).run [.set [] none, .initState 1, .set [pointwise fun _ => 1] none]).setVFunc
      ([fun x : ℝ => (x : ℂ), fun _ => 3].map pointwise) (some fun _ => 5) = (o, .ok ()) ∧
    ∀ vec : List ℂ, vec.length = 4 → ∃ res, o.apply vec = .ok res ∧ res.length = vec.length ∧
      ∀ idx, Valid [2, 2] idx → res[ravel [2, 2] idx]? =
        some (hamiltonian [(0, 1, 2), (0, 2, 2)] T [fun x : ℝ => (x : ℂ), fun _ => 3] (fun _ => 5) vec idx) := by
  obtain ⟨o, T, h1, _, h3⟩ := C89_history_partial [(0, 1, 2), (0, 2, 2)] 1 1
    [.set [] none, .initState 1, .set [pointwise fun _ => 1] none] [fun x : ℝ => (x : ℂ), fun _ => 3] (some fun _ => 5) rfl
    (by simp) (by intro x hx y hy; simp at hx hy; rw [hx, hy]) (fun h => by cases h)
  exact ⟨o, T, h1, h3⟩

end PoDvr
