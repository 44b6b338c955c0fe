import Verif.Model.PoFast
import Verif.Model.PoProp
import Verif.Props.C39
import Verif.Props.C89

/-!
C137: `PO_DVR(..., fast=True)` and `PO_DVR(..., fast=False)` cannot be told apart by the Hamiltonian they give.

The same history of calls is made on two objects that differ only in `fast`. Exceptions are compared too.
-/

open Py
open scoped BigOperators

namespace PoFast

/-- A potential is a function of the array of grid points: it gives one value for each point, or raises. -/
def Pointwise (f : PoDvr.VFunc) : Prop := ∀ xs v, f xs = .ok v → v.length = xs.length

/-- Every potential in the call is such a function. -/
def Proper : PoDvr.Op → Prop
  | .set vs _ => ∀ f ∈ vs, Pointwise f
  | .initState _ => True

/-- An operator and a matrix of the same size give the same result for every vector of this size. -/
private def Agree (o : LinOp) (M : Nd ℂ) : Prop :=
  M.shape = [o.dim, o.dim] ∧ ∀ x : List ℂ, x.length = o.dim → o.matvec x = matVec M x

private def AgreeR : Res LinOp → Res (Nd ℂ) → Prop
  | .ok o, .ok M => Agree o M
  | .error e, .error e' => e = e'
  | _, _ => False

private def AgreeO : Option LinOp → Option (Nd ℂ) → Prop
  | some o, some M => Agree o M
  | none, none => True
  | _, _ => False

private structure Rel (d : FastDVR) (D : SineDVR) : Prop where
  par : D = { d.par with hCache := D.hCache }
  cache : AgreeO d.cache D.hCache
  len : D.length ≠ 0
  me : D.me ≠ 0
  fn : ∀ f, D.vFunc = some f → Pointwise f

private theorem rel_hMat {d : FastDVR} {D : SineDVR} (h : Rel d D) : AgreeR d.hMat D.hMat := by
  obtain ⟨par, cache, len, me, fn⟩ := h
  unfold FastDVR.hMat
  cases hc : D.hCache with
  | some M =>
    rw [hc] at cache
    cases hd : d.cache with
    | none => rw [hd] at cache; exact cache.elim
    | some o =>
      rw [hd] at cache
      have : D.hMat = .ok M := by unfold SineDVR.hMat; rw [hc]
      rw [this]
      exact cache
  | none =>
    rw [hc] at cache par
    cases hd : d.cache with
    | some o => rw [hd] at cache; exact cache.elim
    | none =>
      have hf : d.par.fastHMat = D.fastHMat := by rw [par]; rfl
      dsimp only
      rw [hf]
      cases hp : D.potential with
      | error e =>
        obtain ⟨T, t1, _⟩ := D.tMat_ok
        have h1 : D.fastHMat = .error e := by unfold SineDVR.fastHMat; rw [hp]; rfl
        have h2 : D.hMat = .error e := by unfold SineDVR.hMat SineDVR.vMat; rw [hc, t1, hp]; rfl
        rw [h1, h2]
        rfl
      | ok v =>
        have hv : v.length = D.n := by
          unfold SineDVR.potential at hp
          cases hvf : D.vFunc with
          | none => rw [hvf] at hp; cases hp
          | some f =>
            rw [hvf] at hp
            rw [fn f hvf _ _ hp]
            simp [SineDVR.gridPoints]
        have hz : ((List.range D.n).map fun _ => (0 : ℂ)).length = D.n := by simp
        obtain ⟨o, M, h1, h2, _⟩ := SineDVR.C40_fast_is_dense D len me hp hv hc hz
        have hod : o.dim = D.n := by
          have h1' := h1
          unfold SineDVR.fastHMat at h1'
          rw [hp] at h1'
          cases h1'
          exact hv
        have hMs : M.shape = [D.n, D.n] := by
          obtain ⟨T, t1, t2, t3, _⟩ := D.tMat_ok
          have vw : (npDiagK v 0).Wf := Nd.ofFn_wf _ _
          have vs : (npDiagK v 0).shape = [D.n, D.n] := by simp [npDiagK, Nd.ofFn, hv]
          obtain ⟨M', m1, m2, m3, _⟩ := Nd.add_ok t2 vw (t3.trans vs.symm)
          have h2' : D.hMat = .ok M' := by
            unfold SineDVR.hMat SineDVR.vMat
            rw [hc, t1, hp]
            exact m1
          rw [h2] at h2'
          cases h2'
          exact m3.trans t3
        rw [h1, h2]
        refine ⟨by rw [hod]; exact hMs, fun x hx => ?_⟩
        obtain ⟨o', M', g1, g2, g3, _⟩ := SineDVR.C40_fast_is_dense D len me hp hv hc (hx.trans hod)
        rw [h1] at g1
        rw [h2] at g2
        cases g1
        cases g2
        exact g3

private theorem rel_set {d : FastDVR} {D : SineDVR} (h : Rel d D) {f : PoDvr.VFunc} (hf : Pointwise f) :
    Rel (d.setVFunc f) (D.setVFunc f) := by
  obtain ⟨par, cache, len, me, fn⟩ := h
  refine ⟨?_, trivial, len, me, fun g hg => ?_⟩
  · rw [par]; rfl
  · have : g = f := by
      have : some f = some g := hg
      exact (Option.some.inj this).symm
    rw [this]
    exact hf

private theorem rel_solve {d : FastDVR} {D : SineDVR} (h : Rel d D) : Rel d.solve D.solve := by
  have hr := rel_hMat h
  unfold FastDVR.solve SineDVR.solve
  cases h1 : d.hMat with
  | error e =>
    cases h2 : D.hMat with
    | error e' => exact h
    | ok M => rw [h1, h2] at hr; exact hr.elim
  | ok o =>
    cases h2 : D.hMat with
    | error e' => rw [h1, h2] at hr; exact hr.elim
    | ok M =>
      rw [h1, h2] at hr
      obtain ⟨par, cache, len, me, fn⟩ := h
      refine ⟨?_, hr, len, me, fn⟩
      dsimp only
      rw [par]

private theorem rel_setEach : ∀ (fs : List PoDvr.VFunc) (ds : List FastDVR) (Ds : List SineDVR) (i : ℕ), List.Forall₂ Rel ds Ds →
    (∀ f ∈ fs, Pointwise f) → List.Forall₂ Rel (setEach ds i fs).1 (PoDvr.setEach Ds i fs).1 ∧
      (setEach ds i fs).2 = (PoDvr.setEach Ds i fs).2
  | [], ds, Ds, i, h, _ => ⟨h, rfl⟩
  | f :: fs, ds, Ds, i, h, hf => by
    unfold setEach PoDvr.setEach
    have hl := h.length_eq
    by_cases hi : i < ds.length
    · have hi' : i < Ds.length := hl ▸ hi
      rw [List.getElem?_eq_getElem hi, List.getElem?_eq_getElem hi']
      dsimp only
      refine rel_setEach fs _ _ (i + 1) ?_ fun g hg => hf g (List.mem_cons_of_mem _ hg)
      rw [List.forall₂_iff_get] at h ⊢
      refine ⟨by simpa using hl, fun j a b => ?_⟩
      have hj : j < ds.length := by simpa using a
      simp only [List.get_eq_getElem, List.getElem_set]
      split
      · exact rel_set (h.2 i hi hi') (hf f List.mem_cons_self)
      · exact h.2 j hj (hl ▸ hj)
    · rw [List.getElem?_eq_none (by omega), List.getElem?_eq_none (by omega)]
      exact ⟨h, rfl⟩

private theorem rel_mapM {ds : List FastDVR} {Ds : List SineDVR} (h : List.Forall₂ Rel ds Ds) :
    (∃ hl Hl, ds.mapM FastDVR.hMat = .ok hl ∧ Ds.mapM SineDVR.hMat = .ok Hl ∧ List.Forall₂ Agree hl Hl) ∨
    (∃ e, ds.mapM FastDVR.hMat = .error e ∧ Ds.mapM SineDVR.hMat = .error e) := by
  induction h with
  | nil => exact .inl ⟨[], [], rfl, rfl, .nil⟩
  | @cons d D ds Ds hd _ ih =>
    have hr := rel_hMat hd
    rw [List.mapM_cons, List.mapM_cons]
    cases h1 : d.hMat with
    | error e =>
      cases h2 : D.hMat with
      | error e' =>
        rw [h1, h2] at hr
        have hr : e = e' := hr
        exact .inr ⟨e, rfl, by rw [hr]; rfl⟩
      | ok M => rw [h1, h2] at hr; exact hr.elim
    | ok o =>
      cases h2 : D.hMat with
      | error e' => rw [h1, h2] at hr; exact hr.elim
      | ok M =>
        rw [h1, h2] at hr
        obtain ⟨hl, Hl, a, b, c⟩ | ⟨e, a, b⟩ := ih
        · exact .inl ⟨o :: hl, M :: Hl, by rw [a]; rfl, by rw [b]; rfl, .cons hr c⟩
        · exact .inr ⟨e, by rw [a]; rfl, by rw [b]; rfl⟩

private structure RelO (o : PoFast) (O : PoDvr) : Prop where
  dvrs : List.Forall₂ Rel o.dvrs O.dvrs
  hl : (o.hList = none ∧ O.hList = none) ∨ ∃ l L, o.hList = some l ∧ O.hList = some L ∧ List.Forall₂ Agree l L
  diag : o.diag = O.diag

private theorem rel_calcDiag {ds : List FastDVR} {Ds : List SineDVR} (h : List.Forall₂ Rel ds Ds) (w : List ℝ → ℂ) :
    calcDiag ds w = PoDvr.calcDiag Ds w := by
  have h1 : (ds.map fun d => d.par.n) = Ds.map SineDVR.n := by
    induction h with
    | nil => rfl
    | cons hd _ ih => rw [List.map_cons, List.map_cons, ih, hd.par]
  have h2 : (ds.map fun d => d.par.gridPoints) = Ds.map SineDVR.gridPoints := by
    clear h1
    induction h with
    | nil => rfl
    | cons hd _ ih => rw [List.map_cons, List.map_cons, ih, hd.par]; rfl
  unfold calcDiag PoDvr.calcDiag
  rw [h1, h2]

private theorem rel_setVFunc {o : PoFast} {O : PoDvr} (h : RelO o O) (vs : List PoDvr.VFunc) (w : Option (List ℝ → ℂ))
    (hf : ∀ f ∈ vs, Pointwise f) : RelO (o.setVFunc vs w).1 (O.setVFunc vs w).1 ∧ (o.setVFunc vs w).2 = (O.setVFunc vs w).2 := by
  obtain ⟨s1, s2⟩ := rel_setEach vs o.dvrs O.dvrs 0 h.dvrs hf
  unfold setVFunc PoDvr.setVFunc
  generalize setEach o.dvrs 0 vs = p at s1 s2
  generalize PoDvr.setEach O.dvrs 0 vs = P at s1 s2
  obtain ⟨ds, r⟩ := p
  obtain ⟨Ds, r'⟩ := P
  dsimp only at s1 s2
  subst s2
  cases r with
  | error e => exact ⟨⟨s1, h.hl, h.diag⟩, rfl⟩
  | ok u =>
    dsimp only
    obtain ⟨l, L, a, b, c⟩ | ⟨e, a, b⟩ := rel_mapM s1
    · rw [a, b]
      dsimp only
      cases w with
      | none => exact ⟨⟨s1, .inr ⟨l, L, rfl, rfl, c⟩, h.diag⟩, rfl⟩
      | some w =>
        dsimp only
        rw [rel_calcDiag s1 w]
        cases PoDvr.calcDiag Ds w with
        | error e => exact ⟨⟨s1, .inr ⟨l, L, rfl, rfl, c⟩, h.diag⟩, rfl⟩
        | ok d => exact ⟨⟨s1, .inr ⟨l, L, rfl, rfl, c⟩, rfl⟩, rfl⟩
    · rw [a, b]
      exact ⟨⟨s1, h.hl, h.diag⟩, rfl⟩

private theorem rel_init {o : PoFast} {O : PoDvr} (h : RelO o O) (k : ℕ) : RelO (o.initState k) (O.initState k) := by
  refine ⟨?_, h.hl, h.diag⟩
  have ht := List.forall₂_take k h.dvrs
  have hd := List.forall₂_drop k h.dvrs
  refine List.rel_append ?_ hd
  rw [List.forall₂_map_left_iff, List.forall₂_map_right_iff]
  exact ht.imp fun _ _ r => rel_solve r

private theorem rel_run : ∀ (ops : List PoDvr.Op) (o : PoFast) (O : PoDvr), RelO o O → (∀ p ∈ ops, Proper p) → RelO (o.run ops) (O.run ops)
  | [], _, _, h, _ => h
  | .set vs w :: ops, o, O, h, hp =>
    rel_run ops _ _ (rel_setVFunc h vs w (hp _ List.mem_cons_self)).1 fun p hp' => hp p (List.mem_cons_of_mem _ hp')
  | .initState k :: ops, o, O, h, hp => rel_run ops _ _ (rel_init h k) fun p hp' => hp p (List.mem_cons_of_mem _ hp')

private theorem rel_new (conf : List (ℝ × ℝ × ℕ)) (hbar me : ℝ) (hl : ∀ c ∈ conf, c.1 ≠ c.2.1) (hm : me ≠ 0) :
    RelO (new conf hbar me) (PoDvr.new conf hbar me) := by
  refine ⟨?_, .inl ⟨rfl, rfl⟩, rfl⟩
  unfold new PoDvr.new
  rw [List.forall₂_map_left_iff, List.forall₂_map_right_iff, List.forall₂_same]
  intro c hc
  exact ⟨rfl, trivial, sub_ne_zero.2 (hl c hc).symm, hm, fun f hf => by cases hf⟩

private theorem mapM_ok {α β : Type} {f : α → Res β} {g : α → β} {l : List α} (h : ∀ x ∈ l, f x = .ok (g x)) :
    l.mapM f = .ok (l.map g) := by
  induction l with
  | nil => rfl
  | cons a l ih => rw [List.mapM_cons, h a (by simp), ok_bind, ih fun x hx => h x (by simp [hx]), ok_bind]; rfl

private theorem transform_eq {o : LinOp} {M : Nd ℂ} (h : Agree o M) (i : ℕ) (t : Nd ℂ) :
    Dvr.opTransform i t o = Dvr.partialTransform i t M := by
  obtain ⟨hs, hx⟩ := h
  have d0 : M.dim 0 = o.dim := by unfold Nd.dim; rw [hs]; rfl
  have d1 : M.dim 1 = o.dim := by unfold Nd.dim; rw [hs]; rfl
  unfold Dvr.opTransform Dvr.partialTransform
  rw [d0, d1]
  dsimp only
  refine bind_congr fun v => bind_congr fun v => ?_
  have key : ((List.range (v.dim 0)).mapM fun r => o.matvec ((List.range o.dim).map fun k => v.get [r, k])) =
      .ok ((List.range (v.dim 0)).map fun r => (List.range o.dim).map fun a => ∑ b ∈ Finset.range o.dim, M.get [a, b] * v.get [r, b]) := by
    refine mapM_ok fun r _ => ?_
    rw [hx _ (by simp), Phonon.matVec_ok hs (by simp)]
    refine congrArg Except.ok (List.map_congr_left fun a _ => Finset.sum_congr rfl fun b hb => ?_)
    have hb := Finset.mem_range.1 hb
    rw [List.getD_eq_getElem _ _ (by simpa using hb), List.getElem_map, List.getElem_range]
  rw [key, ok_bind]
  have e : (Nd.ofFn [v.dim 0, o.dim] fun idx => (((List.range (v.dim 0)).map fun r => (List.range o.dim).map fun a =>
      ∑ b ∈ Finset.range o.dim, M.get [a, b] * v.get [r, b]).getD (idx.getD 0 0) []).getD (idx.getD 1 0) 0) = Dvr.mapDot M v := by
    unfold Dvr.mapDot
    rw [d0, d1]
    refine Nd.ofFn_congr fun idx hidx => ?_
    have h0 : idx.getD 0 0 < v.dim 0 := hidx.getD_lt (k := 0) (by simp) 0 0
    have h1 : idx.getD 1 0 < o.dim := hidx.getD_lt (k := 1) (by simp) 0 0
    rw [List.getD_eq_getElem (List.map _ _) _ (by simpa using h0), List.getElem_map, List.getElem_range,
      List.getD_eq_getElem (List.map _ _) _ (by simpa using h1), List.getElem_map, List.getElem_range]
  rw [e]

private theorem fold_eq {l : List LinOp} {L : List (Nd ℂ)} (h : List.Forall₂ Agree l L) (v : Nd ℂ) : ∀ (k : ℕ) (a : Nd ℂ),
    ((l.zipIdx k).foldlM (fun (ans : Nd ℂ) p => do
      let w ← Dvr.opTransform p.2 v p.1
      ans.add w) a : Res (Nd ℂ)) = (L.zipIdx k).foldlM (fun (ans : Nd ℂ) p => do
      let w ← Dvr.partialTransform p.2 v p.1
      ans.add w) a := by
  induction h with
  | nil => intro k a; rfl
  | cons hd _ ih =>
    intro k a
    rw [List.zipIdx_cons, List.zipIdx_cons, List.foldlM_cons, List.foldlM_cons, transform_eq hd]
    exact bind_congr fun b => ih (k + 1) b

private theorem matvec_eq {l : List LinOp} {L : List (Nd ℂ)} (h : List.Forall₂ Agree l L) (d : Option (List ℂ)) (vec : List ℂ) :
    Dvr.opMatvec l d vec = Dvr.matvec L d vec := by
  have e : l.map LinOp.dim = L.map fun M => M.dim 0 := by
    induction h with
    | nil => rfl
    | cons hd _ ih =>
      rw [List.map_cons, List.map_cons, ih]
      congr 1
      unfold Nd.dim
      rw [hd.1]
      rfl
  unfold Dvr.opMatvec Dvr.matvec
  rw [e]
  dsimp only
  refine bind_congr fun v => ?_
  rw [fold_eq h v 0]
  cases d <;> rfl

/-- **C137.** After any history of calls of `set_v_func` and `init_state`, with or without exceptions, `h_mat()` of a product grid made with
`fast=True` gives for every vector exactly what it gives with `fast=False`: the same result or the same exception. -/
theorem C137_history (conf : List (ℝ × ℝ × ℕ)) (hbar me : ℝ) (ops : List PoDvr.Op) (hl : ∀ c ∈ conf, c.1 ≠ c.2.1) (hm : me ≠ 0)
    (hp : ∀ p ∈ ops, Proper p) (vec : List ℂ) :
    ((new conf hbar me).run ops).apply vec = ((PoDvr.new conf hbar me).run ops).apply vec := by
  have h := rel_run ops _ _ (rel_new conf hbar me hl hm) hp
  unfold apply PoDvr.apply
  obtain ⟨a, b⟩ | ⟨l, L, a, b, c⟩ := h.hl
  · rw [a, b]
  · rw [a, b, h.diag]
    exact matvec_eq c _ vec

/-- A call of `set_v_func` after such a history ends in the same way for both: it returns, or it raises the same exception. -/
theorem C137_exceptions (conf : List (ℝ × ℝ × ℕ)) (hbar me : ℝ) (ops : List PoDvr.Op) (hl : ∀ c ∈ conf, c.1 ≠ c.2.1) (hm : me ≠ 0)
    (hp : ∀ p ∈ ops, Proper p) (vs : List PoDvr.VFunc) (w : Option (List ℝ → ℂ)) (hf : ∀ f ∈ vs, Pointwise f) :
    (((new conf hbar me).run ops).setVFunc vs w).2 = (((PoDvr.new conf hbar me).run ops).setVFunc vs w).2 :=
  (rel_setVFunc (rel_run ops _ _ (rel_new conf hbar me hl hm) hp) vs w hf).2

/-- The function that `propagation` gives to the solver is the same for both, so that they give the same trajectory with any solver. -/
theorem C137_propagation (conf : List (ℝ × ℝ × ℕ)) (hbar me : ℝ) (ops : List PoDvr.Op) (hl : ∀ c ∈ conf, c.1 ≠ c.2.1) (hm : me ≠ 0)
    (hp : ∀ p ∈ ops, Proper p) (y : List ℂ) :
    PoProp.derivative hbar ((new conf hbar me).run ops).apply y = PoProp.derivative hbar ((PoDvr.new conf hbar me).run ops).apply y := by
  rw [funext fun vec => C137_history conf hbar me ops hl hm hp vec]

/-- So with `fast=True`, too, `set_v_func(v_list, v_rst)` makes `h_mat()` the operator `∑ᵢ (Tᵢ + vᵢ) + v_rst` after any history, with the
restrictions of C89: grids of equal size for all coordinates but the first, and no residual potential left from an earlier call. -/
theorem C137_hamiltonian_partial (conf : List (ℝ × ℝ × ℕ)) (hbar me : ℝ) (ops : List PoDvr.Op) (hl : ∀ c ∈ conf, c.1 ≠ c.2.1)
    (hm : me ≠ 0) (hp : ∀ p ∈ ops, Proper p) (Vs : List (ℝ → ℂ)) (W : Option (List ℝ → ℂ)) (hV : Vs.length = conf.length)
    (hn : ∀ c ∈ conf, 0 < c.2.2) (hc : Dvr.TailConst 0 (conf.map fun c => c.2.2)) (hW : W = none → ∀ p ∈ ops, p.plain) :
    ∃ o T, ((new conf hbar me).run ops).setVFunc (Vs.map PoDvr.pointwise) W = (o, .ok ()) ∧
      (∀ (i : ℕ) (D : SineDVR), (PoDvr.new conf hbar me).dvrs[i]? = some D → D.tMat = .ok (T i)) ∧
      ∀ vec : List ℂ, vec.length = (conf.map fun c => c.2.2).prod → ∃ res, o.apply vec = .ok res ∧ res.length = vec.length ∧
        ∀ idx, Valid (conf.map fun c => c.2.2) idx →
          res[ravel (conf.map fun c => c.2.2) idx]? = some (PoDvr.hamiltonian conf T Vs (W.getD fun _ => 0) vec idx) := by
  have hf : ∀ f ∈ Vs.map PoDvr.pointwise, Pointwise f := by
    intro f hf
    obtain ⟨V, _, rfl⟩ := List.mem_map.1 hf
    intro xs v h
    unfold PoDvr.pointwise at h
    cases h
    simp
  obtain ⟨O, T, a, b, c⟩ := PoDvr.C89_history_partial conf hbar me ops Vs W hV hn hc hW
  have hr := rel_setVFunc (rel_run ops _ _ (rel_new conf hbar me hl hm) hp) (Vs.map PoDvr.pointwise) W hf
  rw [a] at hr
  refine ⟨_, T, Prod.ext rfl hr.2, b, fun vec hvec => ?_⟩
  obtain ⟨res, r1, r2⟩ := c vec hvec
  refine ⟨res, ?_, r2⟩
  rw [← r1]
  unfold apply PoDvr.apply
  obtain ⟨a', b'⟩ | ⟨l, L, a', b', c'⟩ := hr.1.hl
  · rw [a', b']
  · rw [a', b', hr.1.diag]
    exact matvec_eq c' _ vec

/-- Two coordinates with 2 and 3 points; the potentials are set, the grids solved, and a potential that raises is set for the second. -/
example (vec : List ℂ) : ((new [(-1, 1, 2), (0, 2, 3)] 1 1).run [.set [fun xs => .ok (xs.map fun x => ((x ^ 2 : ℝ) : ℂ)),
      fun xs => .ok (xs.map fun x => ((x : ℝ) : ℂ))] (some fun _ => 1), .initState 2,
      .set [fun xs => .ok (xs.map fun x => ((x ^ 4 : ℝ) : ℂ)), fun _ => .error .zeroDivisionError] none]).apply vec =
    ((PoDvr.new [(-1, 1, 2), (0, 2, 3)] 1 1).run [.set [fun xs => .ok (xs.map fun x => ((x ^ 2 : ℝ) : ℂ)),
      fun xs => .ok (xs.map fun x => ((x : ℝ) : ℂ))] (some fun _ => 1), .initState 2,
      .set [fun xs => .ok (xs.map fun x => ((x ^ 4 : ℝ) : ℂ)), fun _ => .error .zeroDivisionError] none]).apply vec := by
  refine C137_history _ _ _ _ ?_ one_ne_zero ?_ vec
  · intro c hc
    fin_cases hc <;> norm_num
  · intro p hp
    fin_cases hp
    · intro f hf
      fin_cases hf <;> (intro xs v h; cases h; simp)
    · trivial
    · intro f hf
      fin_cases hf <;> (intro xs v h; cases h)
      simp

end PoFast
