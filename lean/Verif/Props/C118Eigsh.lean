import Verif.Props.C118
import Verif.Lemmas.Heom

/-! C118: `solve` of the product DVR without the Davidson method, which is the default. -/

open Py
open scoped BigOperators

namespace PoDvr

/-! ### Specification -/

/-- The complex vector with the entries `u 0`, `u 1`, ... -/
noncomputable def vec (N : ℕ) (u : ℕ → ℝ) : List ℂ := (List.range N).map fun x => ((u x : ℝ) : ℂ)

/-- `e` and `u 0`, `u 1`, ... (`m` vectors of length `N`) are eigenvalues and orthonormal eigenvectors of the operator `f`, and no vector
orthogonal to them has a lower energy. -/
structure OpEigen (f : List ℂ → Res (List ℂ)) (N m : ℕ) (e : List ℝ) (u : ℕ → ℕ → ℝ) : Prop where
  count : e.length = m
  orthonormal : ∀ j < m, ∀ k < m, (∑ x ∈ Finset.range N, u j x * u k x) = if j = k then 1 else 0
  equation : ∀ k < m, f (vec N (u k)) = .ok (vec N fun x => e.getD k 0 * u k x)
  lowest : ∀ v : ℕ → ℝ, (∀ k < m, (∑ x ∈ Finset.range N, u k x * v x) = 0) → ∀ r, f (vec N v) = .ok r → ∀ k < m,
    e.getD k 0 * (∑ x ∈ Finset.range N, v x ^ 2) ≤ (∑ x ∈ Finset.range N, (v x : ℂ) * r.getD x 0).re

/-- `eigsh(h_op, k=m, v0=v0)` succeeds with eigenvectors in the columns of a matrix. -/
def OpEigshOk (eigshOp : (List ℂ → Res (List ℂ)) → ℕ → List ℝ → Res (List ℝ × Nd ℝ)) (f : List ℂ → Res (List ℂ)) (N m : ℕ) (v0 : List ℝ) : Prop :=
  ∃ e w, eigshOp f m v0 = .ok (e, w) ∧ w.shape = [N, m] ∧ OpEigen f N m e fun k x => w.get [x, k]

/-! ### Lemmas -/

theorem OpEigen.congr {f : List ℂ → Res (List ℂ)} {N m : ℕ} {e : List ℝ} {u u' : ℕ → ℕ → ℝ} (h : OpEigen f N m e u)
    (hu : ∀ k < m, ∀ x < N, u' k x = u k x) : OpEigen f N m e u' := by
  have hv : ∀ k < m, vec N (u' k) = vec N (u k) := fun k hk => List.map_congr_left fun x hx => by rw [hu k hk x (List.mem_range.1 hx)]
  refine ⟨h.count, fun j hj k hk => ?_, fun k hk => ?_, fun v hv' => h.lowest v fun k hk => ?_⟩
  · rw [← h.orthonormal j hj k hk]
    exact Finset.sum_congr rfl fun x hx => by rw [hu j hj x (Finset.mem_range.1 hx), hu k hk x (Finset.mem_range.1 hx)]
  · rw [hv k hk, h.equation k hk]
    congr 1
    exact List.map_congr_left fun x hx => by dsimp only; rw [hu k hk x (List.mem_range.1 hx)]
  · rw [← hv' k hk]
    exact Finset.sum_congr rfl fun x hx => by rw [hu k hk x (Finset.mem_range.1 hx)]

theorem vec_length (N : ℕ) (u : ℕ → ℝ) : (vec N u).length = N := by simp [vec]

theorem vec_getD (N : ℕ) (u : ℕ → ℝ) {x : ℕ} (hx : x < N) : (vec N u).getD x 0 = ((u x : ℝ) : ℂ) := by
  rw [List.getD_eq_getElem _ _ (by rw [vec_length]; exact hx)]
  simp [vec]

/-- `f` is the real symmetric matrix `M`. -/
def ActsBy (f : List ℂ → Res (List ℂ)) (N : ℕ) (M : ℕ → ℕ → ℝ) : Prop :=
  (∀ x < N, ∀ y < N, M x y = M y x) ∧ ∀ w : List ℂ, w.length = N → ∃ r, f w = .ok r ∧ r.length = N ∧
    ∀ x < N, r.getD x 0 = ∑ y ∈ Finset.range N, (M x y : ℂ) * w.getD y 0

theorem set_comm {s X Y : List ℕ} (hX : Valid s X) (hY : Valid s Y) {i : ℕ} (hi : i < s.length) :
    X.set i (Y.getD i 0) = Y → Y.set i (X.getD i 0) = X := by
  intro h
  have hiX : i < X.length := by rw [hX.length_eq]; exact hi
  rw [← h, List.set_set, List.getD_eq_getElem _ _ hiX, List.set_getElem_self]

theorem acts (conf : List (ℝ × ℝ × ℕ)) (o : PoDvr) (hl : List (Nd ℂ)) (ho : o.hList = some hl) (hd : o.diag = none)
    (hlen : hl.length = conf.length) (hn : ∀ c ∈ conf, 0 < c.2.2) (hsq : ∀ h ∈ hl, ∃ n, h.shape = [n, n])
    (hdim : hl.map (fun h => h.dim 0) = conf.map (fun c => c.2.2)) (hc : Dvr.TailConst 0 (conf.map fun c => c.2.2))
    (hsym : ∀ i < conf.length, RealSymm (hl.getD i ⟨[], []⟩) ((conf.map fun c => c.2.2).getD i 0)) :
    ∃ M, ActsBy o.apply (conf.map fun c => c.2.2).prod M := by
  set s := conf.map fun c => c.2.2 with hs
  have hsl : s.length = conf.length := by simp [hs]
  refine ⟨fun x y => ∑ i ∈ Finset.range conf.length, ∑ k ∈ Finset.range (s.getD i 0),
    if ravel s ((unravel s x).set i k) = y then ((hl.getD i ⟨[], []⟩).get [(unravel s x).getD i 0, k]).re else 0, fun x hx y hy => ?_, fun w hw => ?_⟩
  · refine Finset.sum_congr rfl fun i hi => ?_
    have hi := Finset.mem_range.1 hi
    have key : ∀ x < s.prod, ∀ y < s.prod, (∑ k ∈ Finset.range (s.getD i 0),
        if ravel s ((unravel s x).set i k) = y then ((hl.getD i ⟨[], []⟩).get [(unravel s x).getD i 0, k]).re else 0) =
        if (unravel s x).set i ((unravel s y).getD i 0) = unravel s y then
          ((hl.getD i ⟨[], []⟩).get [(unravel s x).getD i 0, (unravel s y).getD i 0]).re else 0 := by
      intro x hx y hy
      have vx := valid_unravel hx
      have vy := valid_unravel hy
      have ly : (unravel s y).getD i 0 < s.getD i 0 := vy.getD_lt (by rw [hsl]; exact hi) 0 0
      rw [Finset.sum_eq_single ((unravel s y).getD i 0)]
      · congr 1
        refine propext ⟨fun h => ?_, fun h => by rw [h, ravel_unravel hy]⟩
        have q := unravel_ravel (Heom.valid_set vx ly)
        rw [h] at q
        exact q.symm
      · intro k hk hne
        rw [if_neg]
        intro h
        have := unravel_ravel (Heom.valid_set vx (Finset.mem_range.1 hk))
        rw [h] at this
        apply hne
        rw [this, List.getD_eq_getElem _ _ (by rw [List.length_set, vx.length_eq, hsl]; exact hi), List.getElem_set_self]
      · intro h
        exact absurd (Finset.mem_range.2 ly) h
    rw [key x hx y hy, key y hy x hx]
    have vx := valid_unravel hx
    have vy := valid_unravel hy
    have hi' : i < s.length := by rw [hsl]; exact hi
    by_cases h : (unravel s x).set i ((unravel s y).getD i 0) = unravel s y
    · rw [if_pos h, if_pos (set_comm vx vy hi' h), (hsym i hi).2 _ (vx.getD_lt hi' 0 0) _ (vy.getD_lt hi' 0 0)]
    · rw [if_neg h, if_neg fun h' => h (set_comm vy vx hi' h')]
  · obtain ⟨r, r1, r2, r3⟩ := apply_sum conf o hl ho hd hlen hn hsq hdim hc w hw
    refine ⟨r, r1, by rw [r2, hw], fun x hx => ?_⟩
    have vx := valid_unravel hx
    have := r3 _ vx
    rw [ravel_unravel hx] at this
    rw [this]
    have e : ∀ y ∈ Finset.range s.prod, ((∑ i ∈ Finset.range conf.length, ∑ k ∈ Finset.range (s.getD i 0),
        if ravel s ((unravel s x).set i k) = y then ((hl.getD i ⟨[], []⟩).get [(unravel s x).getD i 0, k]).re else 0 : ℝ) : ℂ) * w.getD y 0 =
        ∑ i ∈ Finset.range conf.length, ∑ k ∈ Finset.range (s.getD i 0),
          if ravel s ((unravel s x).set i k) = y then (hl.getD i ⟨[], []⟩).get [(unravel s x).getD i 0, k] * w.getD y 0 else 0 := by
      intro y _
      push_cast
      rw [Finset.sum_mul]
      refine Finset.sum_congr rfl fun i hi => ?_
      rw [Finset.sum_mul]
      refine Finset.sum_congr rfl fun k hk => ?_
      split
      · rw [← (hsym i (Finset.mem_range.1 hi)).1 _ (vx.getD_lt (by rw [hsl]; exact Finset.mem_range.1 hi) 0 0) k (Finset.mem_range.1 hk)]
      · simp
    rw [Finset.sum_congr rfl e, Finset.sum_comm]
    refine Finset.sum_congr rfl fun i hi => ?_
    rw [Finset.sum_comm]
    refine Finset.sum_congr rfl fun k hk => ?_
    rw [Finset.sum_ite_eq, if_pos (Finset.mem_range.2 (ravel_lt (Heom.valid_set vx (Finset.mem_range.1 hk))))]

/-- The matrix element of a real symmetric operator can be taken from both sides. -/
theorem ActsBy.symm {f : List ℂ → Res (List ℂ)} {N : ℕ} {M : ℕ → ℕ → ℝ} (h : ActsBy f N M) {a b fa fb : ℕ → ℝ}
    (ha : f (vec N a) = .ok (vec N fa)) (hb : f (vec N b) = .ok (vec N fb)) :
    ∑ x ∈ Finset.range N, a x * fb x = ∑ x ∈ Finset.range N, fa x * b x := by
  have get : ∀ {c fc : ℕ → ℝ}, f (vec N c) = .ok (vec N fc) → ∀ x < N, fc x = ∑ y ∈ Finset.range N, M x y * c y := by
    intro c fc hc x hx
    obtain ⟨r, r1, -, r3⟩ := h.2 (vec N c) (vec_length N c)
    rw [hc] at r1
    cases Except.ok.inj r1
    have := r3 x hx
    rw [vec_getD N _ hx, Finset.sum_congr rfl fun y hy => by rw [vec_getD N c (Finset.mem_range.1 hy), ← Complex.ofReal_mul]] at this
    exact_mod_cast this
  rw [Finset.sum_congr (f := fun x => a x * fb x) rfl fun x hx => by rw [get hb x (Finset.mem_range.1 hx), Finset.mul_sum],
    Finset.sum_congr (f := fun x => fa x * b x) (g := fun x => ∑ y ∈ Finset.range N, M x y * a y * b x) rfl fun x hx => by
      rw [get ha x (Finset.mem_range.1 hx), Finset.sum_mul],
    Finset.sum_comm]
  refine Finset.sum_congr rfl fun x hx => Finset.sum_congr rfl fun y hy => ?_
  rw [h.1 x (Finset.mem_range.1 hx) y (Finset.mem_range.1 hy)]
  ring

/-! ### The property -/

/-- **C118.** For all potentials: `solve(m)` returns the energies of `eigsh` and rows that are the orthonormal eigenvectors of the operator of `h_mat()`
with these energies, below all others. -/
theorem C118_eigsh {eigshOp : (List ℂ → Res (List ℂ)) → ℕ → List ℝ → Res (List ℝ × Nd ℝ)} {eigsh : Nd ℂ → ℕ → Res (List ℝ × Nd ℝ)} {o : PoDvr}
    {hl : List (Nd ℂ)} (ho : o.hList = some hl) {v : List ℝ} (hv : initVector eigsh o = .ok v) {m : ℕ}
    (he : OpEigshOk eigshOp o.apply v.length m v) :
    ∃ e w, solveEigsh eigshOp eigsh o m = .ok (e, w) ∧ w.Wf ∧ w.shape = [m, v.length] ∧ OpEigen o.apply v.length m e fun k x => w.get [k, x] := by
  obtain ⟨e, w, h1, h2, h3⟩ := he
  have hd0 : w.dim 0 = v.length := by unfold Nd.dim; rw [h2]; rfl
  have hd1 : w.dim 1 = m := by unfold Nd.dim; rw [h2]; rfl
  refine ⟨e, Nd.ofFn [m, v.length] fun p => w.get [p.getD 1 0, p.getD 0 0], ?_, Nd.ofFn_wf _ _, rfl, h3.congr fun k hk x hx => ?_⟩
  · unfold solveEigsh
    rw [ho]
    dsimp only
    rw [hv, ok_bind, h1, ok_bind]
    dsimp only
    rw [hd0, hd1]
    rfl
  · rw [Nd.get_ofFn _ (List.Forall₂.cons hk (List.Forall₂.cons hx List.Forall₂.nil))]
    rfl

/-- **C118.** For a separable real potential, after any history of calls without a residual potential, the lowest of the energies that `solve(m)` returns
is the sum of the lowest energies of the coordinates; it comes first if `eigsh` sorts the energies. One restriction, as in C38: the grids of
all coordinates but the first have the same size. -/
theorem C118_eigsh_ground_partial (conf : List (ℝ × ℝ × ℕ)) (hbar me : ℝ) (ops : List Op) (Vs : List (ℝ → ℝ)) (hV : Vs.length = conf.length)
    (hops : ∀ p ∈ ops, p.plain) (hn : ∀ c ∈ conf, 0 < c.2.2) (hc : Dvr.TailConst 0 (conf.map fun c => c.2.2)) {m : ℕ} (hm : 0 < m) :
    ∃ o, ((new conf hbar me).run ops).setVFunc (Vs.map fun V => pointwise fun x => (V x : ℂ)) none = (o, .ok ()) ∧
      ∀ (eigsh : Nd ℂ → ℕ → Res (List ℝ × Nd ℝ)) (eigshOp : (List ℂ → Res (List ℂ)) → ℕ → List ℝ → Res (List ℝ × Nd ℝ)),
      (∀ D ∈ o.dvrs, ∀ H, D.hMat = .ok H → Mctdh.EigshOk eigsh H D.n 1) →
      (∀ v, v.length = (conf.map fun c => c.2.2).prod → OpEigshOk eigshOp o.apply (conf.map fun c => c.2.2).prod m v) →
      ∃ E u e w, GroundStates o E u ∧ solveEigsh eigshOp eigsh o m = .ok (e, w) ∧ w.shape = [m, (conf.map fun c => c.2.2).prod] ∧
        OpEigen o.apply (conf.map fun c => c.2.2).prod m e (fun k x => w.get [k, x]) ∧
        (∀ k < m, (∑ i ∈ Finset.range conf.length, E i) ≤ e.getD k 0) ∧ (∃ k < m, e.getD k 0 = ∑ i ∈ Finset.range conf.length, E i) ∧
        (e.Pairwise (· ≤ ·) → e.getD 0 0 = ∑ i ∈ Finset.range conf.length, E i) := by
  obtain ⟨o, hl, o1, o2, o3, o4, o5, o6, o7, o8, o9⟩ := set_real conf hbar me ops Vs hV hops
  obtain ⟨o', o1', hg⟩ := C118_ground_partial conf hbar me ops Vs hV hops hn hc
  obtain rfl : o = o' := (Prod.ext_iff.1 (o1.symm.trans o1')).1
  refine ⟨o, o1, fun eigsh eigshOp heig hop => ?_⟩
  obtain ⟨E, u, v, g1, g2, g3, g4, g5, g6⟩ := hg eigsh heig
  obtain ⟨E0, hE0⟩ : ∃ E0, E0 = ∑ i ∈ Finset.range conf.length, E i := ⟨_, rfl⟩
  rw [← hE0] at g5 g6
  obtain ⟨e, w, s1, s2, s3, s4⟩ := C118_eigsh o2 g2 (g3 ▸ hop v g3)
  rw [g3] at s3 s4 g4 g6
  obtain ⟨N, hN⟩ : ∃ N, N = (conf.map fun c => c.2.2).prod := ⟨_, rfl⟩
  rw [← hN] at g3 g4 g6 s3 s4 ⊢
  have hsym : ∀ i < conf.length, RealSymm (hl.getD i ⟨[], []⟩) ((conf.map fun c => c.2.2).getD i 0) := by
    intro i hi
    have hdl : o.dvrs.length = conf.length := by simpa using congrArg List.length o4
    have hi' : i < o.dvrs.length := by rw [hdl]; exact hi
    obtain ⟨H, hH, -, -⟩ := g1 i o.dvrs[i] (List.getElem?_eq_getElem hi')
    obtain ⟨e1, e2⟩ := o9 i o.dvrs[i] H (List.getElem?_eq_getElem hi') hH
    have hni : (conf.map fun c => c.2.2).getD i 0 = (o.dvrs[i]).n := by
      rw [← o4, List.getD_eq_getElem _ _ (by simpa using hi'), List.getElem_map]
    rw [e1, hni]
    exact e2
  obtain ⟨M, hM⟩ := acts conf o hl o2 o3 o5 hn o7 o8 hc hsym
  rw [← hN] at hM
  have hvv : (v.map fun x : ℝ => (x : ℂ)) = vec N fun x => v.getD x 0 := by
    refine List.ext_getElem (by simp [vec, g3]) fun k a b => ?_
    have : k < v.length := by simpa using a
    simp [vec, List.getElem?_eq_getElem this]
  have hvE : (v.map fun x : ℝ => ((E0 * x : ℝ) : ℂ)) = vec N fun x => E0 * v.getD x 0 := by
    refine List.ext_getElem (by simp [vec, g3]) fun k a b => ?_
    have : k < v.length := by simpa using a
    simp [vec, List.getElem?_eq_getElem this]
  rw [hvv, hvE] at g5
  have low : ∀ k < m, E0 ≤ e.getD k 0 := by
    intro k hk
    obtain ⟨r, r1, -, r3⟩ := g6 (vec N fun x => w.get [k, x]) (vec_length _ _)
    rw [s4.equation k hk] at r1
    cases Except.ok.inj r1
    rw [vec_length] at r3
    have nrm := s4.orthonormal k hk k hk
    rw [if_pos rfl] at nrm
    rw [Finset.sum_congr rfl fun x hx => by rw [vec_getD N _ (Finset.mem_range.1 hx), Complex.norm_real, Real.norm_eq_abs, sq_abs, sq],
      Finset.sum_congr (s₁ := Finset.range N) (f := fun x => starRingEnd ℂ _ * _) rfl fun x hx => by
        rw [vec_getD N _ (Finset.mem_range.1 hx), vec_getD N _ (Finset.mem_range.1 hx), Complex.conj_ofReal, ← Complex.ofReal_mul],
      nrm, ← Complex.ofReal_sum, Complex.ofReal_re,
      Finset.sum_congr (s₁ := Finset.range N) (g := fun x => e.getD k 0 * (w.get [k, x] * w.get [k, x])) rfl fun x _ => by ring,
      ← Finset.mul_sum, nrm] at r3
    linarith
  have hit : ∃ k < m, e.getD k 0 = E0 := by
    by_contra hno
    have hno : ∀ k < m, e.getD k 0 ≠ E0 := fun k hk h => hno ⟨k, hk, h⟩
    have orth : ∀ k < m, ∑ x ∈ Finset.range N, w.get [k, x] * v.getD x 0 = 0 := by
      intro k hk
      have := hM.symm (s4.equation k hk) g5
      rw [Finset.sum_congr (g := fun x => E0 * (w.get [k, x] * v.getD x 0)) rfl fun x _ => by ring,
        Finset.sum_congr (f := fun x => e.getD k 0 * w.get [k, x] * v.getD x 0) (g := fun x => e.getD k 0 * (w.get [k, x] * v.getD x 0)) rfl fun x _ => by ring,
        ← Finset.mul_sum, ← Finset.mul_sum] at this
      have h0 : (E0 - e.getD k 0) * ∑ x ∈ Finset.range N, w.get [k, x] * v.getD x 0 = 0 := by rw [sub_mul, this, sub_self]
      exact (mul_eq_zero.1 h0).resolve_left (sub_ne_zero.2 (hno k hk).symm)
    have := s4.lowest (fun x => v.getD x 0) orth _ g5 0 hm
    rw [g4, Finset.sum_congr (s₁ := Finset.range N) (f := fun x => ((v.getD x 0 : ℝ) : ℂ) * _) rfl fun x hx => by
        rw [vec_getD N _ (Finset.mem_range.1 hx), ← Complex.ofReal_mul], ← Complex.ofReal_sum, Complex.ofReal_re,
      Finset.sum_congr (s₁ := Finset.range N) (g := fun x => E0 * v.getD x 0 ^ 2) rfl fun x _ => by ring, ← Finset.mul_sum, g4] at this
    exact hno 0 hm (le_antisymm (by linarith) (low 0 hm))
  refine ⟨E, u, e, w, g1, s1, s3, s4, fun k hk => hE0 ▸ low k hk, ?_, fun hs => ?_⟩
  · obtain ⟨k, hk, h⟩ := hit
    exact ⟨k, hk, h.trans hE0⟩
  · obtain ⟨k, hk, h⟩ := hit
    rw [← hE0]
    refine le_antisymm ?_ (low 0 hm)
    rw [← h, List.getD_eq_getElem _ _ (by rw [s4.count]; exact hm), List.getD_eq_getElem _ _ (by rw [s4.count]; exact hk)]
    rcases Nat.eq_zero_or_pos k with rfl | hk0
    · exact le_rfl
    · exact List.pairwise_iff_getElem.1 hs 0 k _ _ hk0

/-- Before `set_v_func` there is no operator: `solve` raises a `TypeError`. -/
theorem C118_eigsh_before (conf : List (ℝ × ℝ × ℕ)) (hbar me : ℝ) (ops : List Op) (h : ∀ p ∈ ops, ∃ k, p = .initState k)
    (eigshOp : (List ℂ → Res (List ℂ)) → ℕ → List ℝ → Res (List ℝ × Nd ℝ)) (eigsh : Nd ℂ → ℕ → Res (List ℝ × Nd ℝ)) (m : ℕ) :
    solveEigsh eigshOp eigsh ((new conf hbar me).run ops) m = .error .typeError := by
  unfold solveEigsh
  rw [run_init ops (new conf hbar me) h rfl]

/-! ### Example: an eigensolver without rounding errors meets the assumption for every box and all real potentials -/

open Classical in
/-- The eigensolver. -/
noncomputable def exactOp (f : List ℂ → Res (List ℂ)) (m : ℕ) (v0 : List ℝ) : Res (List ℝ × Nd ℝ) :=
  if h : ∃ r : List ℝ × Nd ℝ, r.2.shape = [v0.length, m] ∧ OpEigen f v0.length m r.1 fun k x => r.2.get [x, k] then .ok h.choose else .error .valueError

theorem exactOp_ok {f : List ℂ → Res (List ℂ)} {N : ℕ} {M : ℕ → ℕ → ℝ} (h : ActsBy f N M) {m : ℕ} (hm : m ≤ N) (v0 : List ℝ) (hv : v0.length = N) :
    OpEigshOk exactOp f N m v0 := by
  have hH : ∀ x < N, ∀ y < N, (Nd.ofFn [N, N] fun p => ((M (p.getD 0 0) (p.getD 1 0) : ℝ) : ℂ)).get [x, y] = ((M x y : ℝ) : ℂ) := fun x hx y hy => by
    rw [Nd.get_ofFn _ (List.Forall₂.cons hx (List.Forall₂.cons hy List.Forall₂.nil))]
    rfl
  obtain ⟨e, v, k1, k2⟩ := Mctdh.exists_eigen _ N m hm M hH h.1
  have hex : ∃ r : List ℝ × Nd ℝ, r.2.shape = [v0.length, m] ∧ OpEigen f v0.length m r.1 fun k x => r.2.get [x, k] := by
    refine ⟨(e, v), by rw [hv]; exact k1, ?_⟩
    rw [hv]
    refine ⟨k2.count, k2.orthonormal, fun k hk => ?_, fun a ha r hr k hk => ?_⟩
    · obtain ⟨r, r1, r2, r3⟩ := h.2 (vec N fun x => v.get [x, k]) (vec_length _ _)
      rw [r1]
      congr 1
      refine List.ext_getElem (by rw [r2, vec_length]) fun x hx hx' => ?_
      have hxN : x < N := by rw [r2] at hx; exact hx
      have := r3 x hxN
      rw [List.getD_eq_getElem _ _ hx] at this
      rw [this, ← List.getD_eq_getElem _ 0 hx', vec_getD N _ hxN, Complex.ofReal_mul, ← k2.equation k hk x hxN]
      exact Finset.sum_congr rfl fun y hy => by rw [vec_getD N _ (Finset.mem_range.1 hy), hH x hxN y (Finset.mem_range.1 hy)]
    · obtain ⟨r', r1, r2, r3⟩ := h.2 (vec N a) (vec_length _ _)
      rw [hr] at r1
      cases Except.ok.inj r1
      refine (k2.lowest a ha k hk).trans (le_of_eq ?_)
      congr 1
      refine Finset.sum_congr rfl fun x hx => ?_
      rw [r3 x (Finset.mem_range.1 hx), Finset.mul_sum]
      refine Finset.sum_congr rfl fun y hy => ?_
      rw [vec_getD N _ (Finset.mem_range.1 hy), hH x (Finset.mem_range.1 hx) y (Finset.mem_range.1 hy)]
      ring
  refine ⟨hex.choose.1, hex.choose.2, ?_, ?_, ?_⟩
  · unfold exactOp
    rw [dif_pos hex]
  · rw [hex.choose_spec.1, hv]
  · have := hex.choose_spec.2
    generalize hex.choose = r at this ⊢
    rwa [hv] at this

example (conf : List (ℝ × ℝ × ℕ)) (hbar me : ℝ) (Vs : List (ℝ → ℝ)) (hV : Vs.length = conf.length) (hn : ∀ c ∈ conf, 0 < c.2.2)
    (hc : Dvr.TailConst 0 (conf.map fun c => c.2.2)) (m : ℕ) (hm : m ≤ (conf.map fun c => c.2.2).prod) (o : PoDvr)
    (ho : (new conf hbar me).setVFunc (Vs.map fun V => pointwise fun x => (V x : ℂ)) none = (o, .ok ())) :
    ∀ v, v.length = (conf.map fun c => c.2.2).prod → OpEigshOk exactOp o.apply (conf.map fun c => c.2.2).prod m v := by
  obtain ⟨o', hl, o1, o2, o3, o4, o5, o6, o7, o8, o9⟩ := set_real conf hbar me [] Vs hV (fun p hp => (List.not_mem_nil hp).elim)
  obtain rfl : o = o' := (Prod.ext_iff.1 (ho.symm.trans o1)).1
  have hdl : o.dvrs.length = conf.length := by simpa using congrArg List.length o4
  obtain ⟨M, hM⟩ := acts conf o hl o2 o3 o5 hn o7 o8 hc fun i hi => by
    have hi' : i < o.dvrs.length := by rw [hdl]; exact hi
    obtain ⟨c, V, hc1, _, hD⟩ := o6 o.dvrs[i] (List.getElem_mem hi')
    obtain ⟨T, H, _, hH, _⟩ := hMat_ok c hbar me fun x => (V x : ℂ)
    rw [← hD] at hH
    obtain ⟨e1, e2⟩ := o9 i o.dvrs[i] H (List.getElem?_eq_getElem hi') hH
    have hni : (conf.map fun c => c.2.2).getD i 0 = (o.dvrs[i]).n := by
      rw [← o4, List.getD_eq_getElem _ _ (by simpa using hi'), List.getElem_map]
    rw [e1, hni]
    exact e2
  exact fun v hv => exactOp_ok hM hm v hv

end PoDvr
