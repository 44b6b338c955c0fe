import Verif.Model.GridStatesProp
import Verif.Props.C116
import Verif.Props.C138

/-! C139: the propagation of several coupled states on a grid conserves the total probability and can be reversed. -/

open Py
open scoped BigOperators Matrix

namespace GridStates

/-- The total probability: the sum of `|ψ_i(x_k)|²` over all states and points. -/
noncomputable def total (n p : ℕ) (w : Nd ℂ) : ℝ := ∑ k ∈ Finset.range p, ∑ i, ‖states n w k i‖ ^ 2

/-- `a` is an array of `n` states at `p` points. -/
def Shaped (n p : ℕ) (a : Nd ℂ) : Prop := a.Wf ∧ a.shape = [n, p]

/-- The potentials at the points of the two grids are Hermitian `n × n` matrices at all times. -/
def Propagator.Hermitian (P : Propagator) (n : ℕ) : Prop :=
  ∀ c, P.basis.getConj = .ok c → ∀ t,
    ((P.func t P.basis.basis.xs).shape = [n, n, P.basis.basis.xs.length] ∧
      ∀ k < P.basis.basis.xs.length, (potential n (P.func t P.basis.basis.xs) k).IsHermitian) ∧
    ((P.conjFunc t c.basis.xs).shape = [n, n, c.basis.xs.length] ∧
      ∀ k < c.basis.xs.length, (potential n (P.conjFunc t c.basis.xs) k).IsHermitian)

variable {eigh : Nd ℂ → Res (List ℝ × Nd ℂ)} {n p : ℕ} {v f : Nd ℂ}

private theorem valid2 {a b i j : ℕ} (hi : i < a) (hj : j < b) : Valid [a, b] [i, j] := by simp [Valid, hi, hj]

private theorem valid2_inv {a b : ℕ} {q : List ℕ} (h : Valid [a, b] q) : ∃ i j, q = [i, j] ∧ i < a ∧ j < b := by
  unfold Valid at h
  rcases h with _ | ⟨h1, _ | ⟨h2, _ | _⟩⟩
  exact ⟨_, _, rfl, h1, h2⟩

private theorem shaped_ext {a b : Nd ℂ} (ha : Shaped n p a) (hb : Shaped n p b) (h : ∀ i < n, ∀ k < p, a.get [i, k] = b.get [i, k]) : a = b := by
  refine Nd.ext_get ha.1 hb.1 (ha.2.trans hb.2.symm) fun q hq => ?_
  rw [ha.2] at hq
  obtain ⟨i, j, rfl, hi, hj⟩ := valid2_inv hq
  exact h i hi j hj

private def row (p : ℕ) (a : Nd ℂ) (i : ℕ) : List ℂ := (List.range p).map fun k : ℕ => a.get [i, k]

private theorem sq_row (a : Nd ℂ) (i : ℕ) : Grids.sq (row p a i) = ∑ k ∈ Finset.range p, ‖a.get [i, k]‖ ^ 2 := by
  unfold Grids.sq row
  rw [List.map_map, Finset.sum_range, ← List.sum_ofFn]
  congr 1
  refine List.ext_getElem (by simp) fun k h1 h2 => ?_
  simp [Complex.normSq_eq_norm_sq]

private theorem total_rows (a : Nd ℂ) : total n p a = ∑ i ∈ Finset.range n, Grids.sq (row p a i) := by
  unfold total
  simp only [sq_row, states]
  rw [Finset.sum_comm, Finset.sum_range]

private theorem mapM_exists {P : ℕ → List ℂ → Prop} {g : List ℂ → Res (List ℂ)} {h : ℕ → List ℂ} : ∀ {l : List ℕ},
    (∀ k ∈ l, ∃ y, g (h k) = .ok y ∧ P k y) → ∃ r, (l.map h).mapM g = .ok r ∧ List.Forall₂ P l r
  | [], _ => ⟨[], rfl, .nil⟩
  | a :: l, hh => by
    obtain ⟨y, h1, h2⟩ := hh a List.mem_cons_self
    obtain ⟨r, h3, h4⟩ := mapM_exists (l := l) fun k hk => hh k (List.mem_cons_of_mem _ hk)
    refine ⟨y :: r, ?_, .cons h2 h4⟩
    rw [List.map_cons, List.mapM_cons, h1, ok_bind, h3, ok_bind]
    rfl

private theorem ft_ok {o : Grids.Obj} {κ : ℝ} {T : List ℂ → Res (List ℂ)} (hn : 0 < n)
    (d : ∀ v : List ℂ, v.length = p → ∃ f, o.ft v = .ok f ∧ f.length = p ∧ Grids.sq f = κ * Grids.sq v ∧ T f = .ok v)
    {a : Nd ℂ} (ha : Shaped n p a) : ∃ g, ft o a = .ok g ∧ Shaped n p g ∧ total n p g = κ * total n p a ∧
      ∀ i < n, o.ft (row p a i) = .ok (row p g i) ∧ T (row p g i) = .ok (row p a i) := by
  have d0 : a.dim 0 = n := by unfold Nd.dim; rw [ha.2]; rfl
  have d1 : a.dim 1 = p := by unfold Nd.dim; rw [ha.2]; rfl
  obtain ⟨rows, r1, r2⟩ := mapM_exists (l := List.range n) (g := o.ft) (h := row p a)
    (P := fun i y => o.ft (row p a i) = .ok y ∧ y.length = p ∧ Grids.sq y = κ * Grids.sq (row p a i) ∧ T y = .ok (row p a i)) (by
      intro i _
      obtain ⟨y, y1, y2, y3, y4⟩ := d (row p a i) (by simp [row])
      exact ⟨y, y1, y1, y2, y3, y4⟩)
  have hrl : rows.length = n := by simpa using r2.length_eq.symm
  rw [List.forall₂_iff_get] at r2
  have hrow : ∀ i < n, o.ft (row p a i) = .ok (rows.getD i []) ∧ (rows.getD i []).length = p ∧
      Grids.sq (rows.getD i []) = κ * Grids.sq (row p a i) ∧ T (rows.getD i []) = .ok (row p a i) := by
    intro i hi
    have := r2.2 i (by simpa using hi) (hrl ▸ hi)
    simp only [List.get_eq_getElem, List.getElem_range] at this
    rw [List.getD_eq_getElem rows _ (hrl ▸ hi)]
    exact this
  set g : Nd ℂ := Nd.ofFn [n, p] fun q => (rows.getD (q.getD 0 0) []).getD (q.getD 1 0) 0 with hg
  have hgr : ∀ i < n, row p g i = rows.getD i [] := by
    intro i hi
    refine List.ext_getElem (by rw [(hrow i hi).2.1]; simp [row]) fun k h1 h2 => ?_
    have hk : k < p := by simpa [row] using h1
    simp only [row, List.getElem_map, List.getElem_range]
    rw [hg, Nd.get_ofFn _ (valid2 hi hk)]
    exact List.getD_eq_getElem _ _ h2
  refine ⟨g, ?_, ⟨Nd.ofFn_wf _ _, rfl⟩, ?_, fun i hi => ?_⟩
  · unfold ft Grids.Obj.fts
    rw [d0, d1]
    change ((List.range n).map (row p a)).mapM o.ft >>= _ = _
    rw [r1, ok_bind, hrl, (hrow 0 hn).2.1]
    rfl
  · rw [total_rows, total_rows, Finset.mul_sum]
    refine Finset.sum_congr rfl fun i hi => ?_
    have hi := Finset.mem_range.1 hi
    rw [hgr i hi]
    exact (hrow i hi).2.2.1
  · rw [hgr i hi]
    exact ⟨(hrow i hi).1, (hrow i hi).2.2.2⟩

private theorem row_inj {a b : Nd ℂ} (ha : Shaped n p a) (hb : Shaped n p b) (h : ∀ i < n, row p a i = row p b i) : a = b := by
  refine shaped_ext ha hb fun i hi k hk => ?_
  have := congrArg (fun l => l.getD k 0) (h i hi)
  simpa [row, hk] using this

private theorem exp_ok (he : EighSpec eigh) (dt hbar : ℝ) (hp : 0 < p) (hv : v.shape = [n, n, p]) (hf : Shaped n p f)
    (hh : ∀ k < p, (potential n v k).IsHermitian) :
    ∃ g, exp eigh (-1 * Complex.I * dt / hbar) v f = .ok g ∧ Shaped n p g ∧ total n p g = total n p f ∧
      exp eigh (-(-1 * Complex.I * dt / hbar)) v g = .ok f := by
  obtain ⟨g, g1, g2, g3, _⟩ := C138_exponential he (-1 * Complex.I * dt / hbar) hp hv hf.2 hh
  obtain ⟨g', h, e1, e2, e3⟩ := C138_reverse he (-1 * Complex.I * dt / hbar) hp hv hf.2 hh
  rw [g1] at e1
  cases e1
  obtain ⟨h', h1, h2, h3, _⟩ := C138_exponential he (-(-1 * Complex.I * dt / hbar)) hp hv g3 hh
  rw [e2] at h1
  cases h1
  refine ⟨g, g1, ⟨g2, g3⟩, Finset.sum_congr rfl fun k hk => C138_norm he dt hbar hp hv hf.2 hh g1 k (Finset.mem_range.1 hk), ?_⟩
  rw [e2]
  refine congrArg Except.ok (shaped_ext ⟨h2, h3⟩ hf fun i hi k hk => ?_)
  exact congrFun (e3 k hk) ⟨i, hi⟩

/-- The wave function times a number. -/
def scaled (z : ℂ) (w : Nd ℂ) : Nd ℂ := ⟨w.shape, w.data.map (z * ·)⟩

private theorem scaled_get (w : Nd ℂ) (z : ℂ) (q : List ℕ) : (scaled z w).get q = z * w.get q := by
  unfold scaled Nd.get
  simp only [List.getD_eq_getElem?_getD, List.getElem?_map]
  cases w.data[ravel w.shape q]? <;> simp

private theorem scaled_shaped (z : ℂ) {w : Nd ℂ} (h : Shaped n p w) : Shaped n p (scaled z w) := by
  refine ⟨?_, h.2⟩
  have := h.1
  unfold Nd.Wf at this ⊢
  simpa [scaled] using this

private theorem exp_scaled (he : EighSpec eigh) (c z : ℂ) (hp : 0 < p) (hv : v.shape = [n, n, p]) (hf : Shaped n p f)
    (hh : ∀ k < p, (potential n v k).IsHermitian) {g : Nd ℂ} (hg : exp eigh c v f = .ok g) :
    exp eigh c v (scaled z f) = .ok (scaled z g) := by
  obtain ⟨g1, a1, a2, a3, a4⟩ := C138_exponential he c hp hv hf.2 hh
  rw [hg] at a1
  cases a1
  obtain ⟨h1, b1, b2, b3, b4⟩ := C138_exponential he c hp hv (scaled_shaped z hf).2 hh
  rw [b1]
  refine congrArg Except.ok (shaped_ext ⟨b2, b3⟩ (scaled_shaped z ⟨a2, a3⟩) fun i hi k hk => ?_)
  have e : states n (scaled z f) k = z • states n f k := by
    funext i
    exact scaled_get _ _ _
  have := congrFun (b4 k hk) ⟨i, hi⟩
  rw [e, Matrix.mulVec_smul, ← a4 k hk] at this
  rw [scaled_get]
  exact this

private theorem row_scaled (z : ℂ) (a : Nd ℂ) (i : ℕ) : row p (scaled z a) i = (row p a i).map (z * ·) := by
  unfold row
  rw [List.map_map]
  exact List.map_congr_left fun k _ => scaled_get _ _ _

private theorem ft_scaled {o : Grids.Obj} {κ : ℝ} {T : List ℂ → Res (List ℂ)} (hn : 0 < n) (z : ℂ)
    (d : ∀ v : List ℂ, v.length = p → ∃ f, o.ft v = .ok f ∧ f.length = p ∧ Grids.sq f = κ * Grids.sq v ∧ T f = .ok v)
    (d' : ∀ v f : List ℂ, v.length = p → o.ft v = .ok f → o.ft (v.map (z * ·)) = .ok (f.map (z * ·)))
    {a g : Nd ℂ} (ha : Shaped n p a) (hg : ft o a = .ok g) : ft o (scaled z a) = .ok (scaled z g) := by
  obtain ⟨g', a1, a2, -, a3⟩ := ft_ok hn d ha
  rw [hg] at a1
  cases a1
  obtain ⟨h, b1, b2, -, b3⟩ := ft_ok hn d (scaled_shaped z ha)
  rw [b1]
  refine congrArg Except.ok (row_inj b2 (scaled_shaped z a2) fun i hi => ?_)
  have h1 := (b3 i hi).1
  rw [row_scaled, d' _ _ (by simp [row]) (a3 i hi).1] at h1
  injection h1 with h1
  rw [row_scaled, h1]

private theorem step_ok (he : EighSpec eigh) {P : Propagator} {b : Grids.Basis} (hP : P.basis = .new b) (hb : b.Fine) (hn : 0 < n)
    (hH : P.Hermitian n) (dt time : ℝ) {w : Nd ℂ} (hw : Shaped n b.xs.length w) :
    ∃ w', P.step eigh dt time w = .ok w' ∧ Shaped n b.xs.length w' ∧ total n b.xs.length w' = total n b.xs.length w ∧
      (∀ time', P.func time' = P.func time → P.conjFunc time' = P.conjFunc time → P.step eigh (-dt) time' w' = .ok w) ∧
      ∀ z, P.step eigh dt time (scaled z w) = .ok (scaled z w') := by
  obtain ⟨ww, hv, h0⟩ := hb.width
  obtain ⟨c, c1, c2, c3, c4⟩ := Grids.dual_new b hv h0 hb.two hb.hbar
  obtain ⟨κ, hκ, d⟩ := c3.rescale
  obtain ⟨κ', hκ', d'⟩ := c4.rescale
  have hp : 0 < b.xs.length := by have := hb.two; omega
  obtain ⟨⟨s1, s2⟩, t1, t2⟩ := hH c (by rw [hP]; exact c1) time
  have hbas : P.basis.basis = b := by rw [hP]; rfl
  rw [hbas] at s1 s2
  rw [c2] at t1 t2
  have hhalf : ∀ dt : ℝ, (-1 * Complex.I * (dt : ℂ) / 2 / (b.hbar : ℂ)) = -1 * Complex.I * ((dt / 2 : ℝ) : ℂ) / (b.hbar : ℂ) := by
    intro dt; push_cast; ring
  have form : ∀ dt' time' w, P.step eigh dt' time' w = (do
      let x ← exp eigh (-1 * Complex.I * ((dt' / 2 : ℝ) : ℂ) / (b.hbar : ℂ)) (P.func time' b.xs) w
      let x ← ft (.new b) x
      let x ← exp eigh (-1 * Complex.I * dt' / (b.hbar : ℂ)) (P.conjFunc time' c.basis.xs) x
      let x ← ft c x
      exp eigh (-1 * Complex.I * ((dt' / 2 : ℝ) : ℂ) / (b.hbar : ℂ)) (P.func time' b.xs) x) := by
    intro dt' time' w
    unfold Propagator.step
    dsimp only
    rw [hP, c1, ok_bind, ← hhalf]
    rfl
  have D : ∀ v : List ℂ, v.length = b.xs.length → ∃ f, (Grids.Obj.new b).ft v = .ok f ∧ f.length = b.xs.length ∧
      Grids.sq f = κ * Grids.sq v ∧ c.ft f = .ok v := fun v hv => by
    obtain ⟨f, f1, f2, f3, f4, _⟩ := d v hv
    exact ⟨f, f1, f2, f3, f4⟩
  have D' : ∀ v : List ℂ, v.length = b.xs.length → ∃ f, c.ft v = .ok f ∧ f.length = b.xs.length ∧
      Grids.sq f = κ' * Grids.sq v ∧ (Grids.Obj.new b).ft f = .ok v := fun v hv => by
    obtain ⟨f, f1, f2, f3, f4, _⟩ := d' v hv
    exact ⟨f, f1, f2, f3, f4⟩
  have hκκ : κ' * κ = 1 := by
    obtain ⟨e, e1, e2, e3, e4⟩ := D (List.replicate b.xs.length 1) (by simp)
    obtain ⟨e', e5, -, e6, -⟩ := D' e e2
    rw [e4] at e5
    injection e5 with e5
    rw [← e5, e3] at e6
    have pos : Grids.sq (List.replicate b.xs.length 1) ≠ 0 := by
      unfold Grids.sq
      rw [List.map_replicate, List.sum_replicate, Complex.normSq_one, nsmul_eq_mul, mul_one]
      exact_mod_cast hp.ne'
    have h : κ' * κ * Grids.sq (List.replicate b.xs.length 1) = 1 * Grids.sq (List.replicate b.xs.length 1) := by linarith
    exact mul_right_cancel₀ pos h
  obtain ⟨x1, a1, a2, a3, a4⟩ := exp_ok he (dt / 2) b.hbar hp s1 hw s2
  obtain ⟨x2, b1, b2, b3, b4⟩ := ft_ok hn D a2
  obtain ⟨x3, e1, e2, e3, e4⟩ := exp_ok he dt b.hbar hp t1 b2 t2
  obtain ⟨x4, f1, f2, f3, f4⟩ := ft_ok hn D' e2
  obtain ⟨x5, g1, g2, g3, g4⟩ := exp_ok he (dt / 2) b.hbar hp s1 f2 s2
  refine ⟨x5, ?_, g2, ?_, fun time' h1 h2 => ?_, fun z => ?_⟩
  · rw [form, a1, ok_bind, b1, ok_bind, e1, ok_bind, f1, ok_bind, g1]
  · rw [g3, f3, e3, b3, a3, ← mul_assoc, hκκ, one_mul]
  · have n1 : -1 * Complex.I * ((-dt / 2 : ℝ) : ℂ) / (b.hbar : ℂ) = -(-1 * Complex.I * ((dt / 2 : ℝ) : ℂ) / (b.hbar : ℂ)) := by
      push_cast; ring
    have n2 : -1 * Complex.I * ((-dt : ℝ) : ℂ) / (b.hbar : ℂ) = -(-1 * Complex.I * (dt : ℂ) / (b.hbar : ℂ)) := by push_cast; ring
    have r1 : ft (.new b) x4 = .ok x3 := by
      obtain ⟨y, y1, y2, _, y4⟩ := ft_ok hn D f2
      rw [y1]
      refine congrArg Except.ok (row_inj y2 e2 fun i hi => ?_)
      have := (y4 i hi).1
      rw [(f4 i hi).2] at this
      exact (Except.ok.inj this).symm
    have r2 : ft c x2 = .ok x1 := by
      obtain ⟨y, y1, y2, _, y4⟩ := ft_ok hn D' b2
      rw [y1]
      refine congrArg Except.ok (row_inj y2 a2 fun i hi => ?_)
      have := (y4 i hi).1
      rw [(b4 i hi).2] at this
      exact (Except.ok.inj this).symm
    rw [form, n1, n2, h1, h2, g4, ok_bind, r1, ok_bind, e4, ok_bind, r2, ok_bind, a4]
  · have L : ∀ v f : List ℂ, v.length = b.xs.length → (Grids.Obj.new b).ft v = .ok f →
        (Grids.Obj.new b).ft (v.map (z * ·)) = .ok (f.map (z * ·)) := fun v f hv hf => by
      obtain ⟨f', y1, _, _, _, y5⟩ := d v hv
      rw [hf] at y1
      cases y1
      exact y5 z
    have L' : ∀ v f : List ℂ, v.length = b.xs.length → c.ft v = .ok f → c.ft (v.map (z * ·)) = .ok (f.map (z * ·)) := fun v f hv hf => by
      obtain ⟨f', y1, _, _, _, y5⟩ := d' v hv
      rw [hf] at y1
      cases y1
      exact y5 z
    rw [form, exp_scaled he _ z hp s1 hw s2 a1, ok_bind, ft_scaled hn z D L a2 b1, ok_bind, exp_scaled he _ z hp t1 b2 t2 e1, ok_bind,
      ft_scaled hn z D' L' e2 f1, ok_bind, exp_scaled he _ z hp s1 f2 s2 g1]

private theorem loop_ok (he : EighSpec eigh) {P : Propagator} {b : Grids.Basis} (hP : P.basis = .new b) (hb : b.Fine) (hn : 0 < n)
    (hH : P.Hermitian n) (t0 dt : ℝ) (k i : ℕ) {w : Nd ℂ} (hw : Shaped n b.xs.length w) :
    ∃ ys, P.loop eigh t0 dt k i w = .ok ys ∧ ys.length = k ∧ ∀ j (hj : j < ys.length), ys[j].1 = t0 + ((i + j : ℕ) : ℝ) * dt + dt ∧
      Shaped n b.xs.length ys[j].2 ∧ total n b.xs.length ys[j].2 = total n b.xs.length w := by
  induction k generalizing i w with
  | zero => exact ⟨[], rfl, rfl, fun j hj => by simp at hj⟩
  | succ k ih =>
    obtain ⟨w', a1, a2, a3, -⟩ := step_ok he hP hb hn hH dt (t0 + i * dt) hw
    obtain ⟨ys, y1, y2, y3⟩ := ih (i + 1) a2
    refine ⟨(t0 + i * dt + dt, w') :: ys, ?_, by simp [y2], ?_⟩
    · unfold Propagator.loop
      dsimp only
      rw [a1, ok_bind, y1]
      rfl
    · intro j hj
      cases j with
      | zero => exact ⟨by simp, a2, a3⟩
      | succ j =>
        obtain ⟨z1, z2, z3⟩ := y3 j (by simpa using hj)
        simp only [List.getElem_cons_succ]
        refine ⟨?_, z2, z3.trans a3⟩
        rw [z1, show i + 1 + j = i + (j + 1) by omega]

/-- **C139.** On every grid with at least two points and non-zero width, for any number of states and all potentials that are Hermitian matrices
at the points of the two grids (also if they depend on time): the propagation yields `max_iter + 1` wave functions, for the times `t0 + j dt`,
the first being the initial one, and all of them have the same total probability. -/
theorem C139_norm (he : EighSpec eigh) {P : Propagator} {b : Grids.Basis} (hP : P.basis = .new b) (hb : b.Fine) (hn : 0 < n)
    (hH : P.Hermitian n) (t0 dt : ℝ) (maxIter : ℕ) {init : Nd ℂ} (hw : Shaped n b.xs.length init) :
    ∃ ys, P.call eigh t0 dt maxIter init = .ok ys ∧ ys.length = maxIter + 1 ∧ ys.head? = some (t0, init) ∧
      ∀ j (hj : j < ys.length), ys[j].1 = t0 + j * dt ∧ Shaped n b.xs.length ys[j].2 ∧
        total n b.xs.length ys[j].2 = total n b.xs.length init := by
  obtain ⟨ys, y1, y2, y3⟩ := loop_ok he hP hb hn hH t0 dt maxIter 0 hw
  refine ⟨(t0, init) :: ys, ?_, by simp [y2], rfl, ?_⟩
  · unfold Propagator.call
    rw [y1]
    rfl
  · intro j hj
    cases j with
    | zero => exact ⟨by simp, hw, rfl⟩
    | succ j =>
      obtain ⟨z1, z2, z3⟩ := y3 j (by simpa using hj)
      simp only [List.getElem_cons_succ]
      refine ⟨?_, z2, z3⟩
      rw [z1]; push_cast; ring

/-- One step, and one step with `-dt` and the same potentials, give back the wave function. -/
theorem C139_reversible (he : EighSpec eigh) {P : Propagator} {b : Grids.Basis} (hP : P.basis = .new b) (hb : b.Fine) (hn : 0 < n)
    (hH : P.Hermitian n) (t0 t1 dt : ℝ) (hf : P.func t1 = P.func t0) (hc : P.conjFunc t1 = P.conjFunc t0) {init : Nd ℂ}
    (hw : Shaped n b.xs.length init) :
    ∃ w, P.call eigh t0 dt 1 init = .ok [(t0, init), (t0 + dt, w)] ∧ P.call eigh t1 (-dt) 1 w = .ok [(t1, w), (t1 - dt, init)] := by
  obtain ⟨w, a1, _, _, a4, _⟩ := step_ok he hP hb hn hH dt t0 hw
  refine ⟨w, ?_, ?_⟩
  · unfold Propagator.call Propagator.loop Propagator.loop
    simp only [Nat.cast_zero, zero_mul, add_zero]
    rw [a1]
    rfl
  · unfold Propagator.call Propagator.loop Propagator.loop
    simp only [Nat.cast_zero, zero_mul, add_zero]
    rw [a4 t1 hf hc, sub_eq_add_neg]
    rfl

private theorem chain_loop {P : Propagator} (t0 dt : ℝ) (k i : ℕ) (w : Nd ℂ) (L : List (Nd ℂ)) (hl : L.length = k)
    (h : (w :: L).IsChain fun a b => ∀ t, P.step eigh dt t a = .ok b) : ∃ ys, P.loop eigh t0 dt k i w = .ok ys ∧ ys.map (·.2) = L := by
  induction k generalizing i w L with
  | zero =>
    rw [List.length_eq_zero_iff.1 hl]
    exact ⟨[], rfl, rfl⟩
  | succ k ih =>
    cases L with
    | nil => simp at hl
    | cons a L =>
      rw [List.isChain_cons_cons] at h
      obtain ⟨ys, y1, y2⟩ := ih (i + 1) a L (by simpa using hl) h.2
      refine ⟨(t0 + i * dt + dt, a) :: ys, ?_, by simp [y2]⟩
      unfold Propagator.loop
      dsimp only
      rw [h.1, ok_bind, y1]
      rfl

private theorem loop_chain (he : EighSpec eigh) {P : Propagator} {b : Grids.Basis} (hP : P.basis = .new b) (hb : b.Fine) (hn : 0 < n)
    (hH : P.Hermitian n) (hf : ∀ t t', P.func t = P.func t') (hc : ∀ t t', P.conjFunc t = P.conjFunc t') (t0 dt : ℝ) (k i : ℕ) {w : Nd ℂ}
    (hw : Shaped n b.xs.length w) : ∃ ys, P.loop eigh t0 dt k i w = .ok ys ∧ ys.length = k ∧
      (w :: ys.map (·.2)).IsChain fun a c => ∀ t, P.step eigh (-dt) t c = .ok a := by
  induction k generalizing i w with
  | zero => exact ⟨[], rfl, rfl, by simp⟩
  | succ k ih =>
    obtain ⟨w', a1, a2, -, a4, -⟩ := step_ok he hP hb hn hH dt (t0 + i * dt) hw
    obtain ⟨ys, y1, y2, y3⟩ := ih (i + 1) a2
    refine ⟨(t0 + i * dt + dt, w') :: ys, ?_, by simp [y2], ?_⟩
    · unfold Propagator.loop
      dsimp only
      rw [a1, ok_bind, y1]
      rfl
    · rw [List.map_cons, List.isChain_cons_cons]
      exact ⟨fun t => a4 t (hf _ _) (hc _ _), y3⟩

/-- For potentials that do not depend on the time: propagating from the last wave function with the step `-dt` yields the same wave functions in
the opposite order, whatever the times. -/
theorem C139_trajectory (he : EighSpec eigh) {P : Propagator} {b : Grids.Basis} (hP : P.basis = .new b) (hb : b.Fine) (hn : 0 < n)
    (hH : P.Hermitian n) (hf : ∀ t t', P.func t = P.func t') (hc : ∀ t t', P.conjFunc t = P.conjFunc t') (t0 t1 dt : ℝ) (maxIter : ℕ)
    {init : Nd ℂ} (hw : Shaped n b.xs.length init) :
    ∃ ys last zs, P.call eigh t0 dt maxIter init = .ok ys ∧ ys.getLast? = some last ∧
      P.call eigh t1 (-dt) maxIter last.2 = .ok zs ∧ zs.map (·.2) = (ys.map (·.2)).reverse := by
  obtain ⟨ys, y1, y2, y3⟩ := loop_chain he hP hb hn hH hf hc t0 dt maxIter 0 hw
  have hcall : P.call eigh t0 dt maxIter init = .ok ((t0, init) :: ys) := by
    unfold Propagator.call
    rw [y1]; rfl
  obtain ⟨pre, last, hl⟩ : ∃ pre last, (t0, init) :: ys = pre ++ [last] :=
    ⟨_, _, (List.dropLast_append_getLast (List.cons_ne_nil _ _)).symm⟩
  have hmap : init :: ys.map (·.2) = pre.map (·.2) ++ [last.2] := by
    have := congrArg (List.map fun y : ℝ × Nd ℂ => y.2) hl
    simpa using this
  have hrev : (last.2 :: (pre.map (·.2)).reverse).IsChain fun a c => ∀ t, P.step eigh (-dt) t a = .ok c := by
    rw [hmap] at y3
    have := List.isChain_reverse.2 y3
    rw [List.reverse_append] at this
    simpa using this
  obtain ⟨zs, z1, z2⟩ := chain_loop t1 (-dt) maxIter 0 last.2 ((pre.map (·.2)).reverse) (by
    have := congrArg List.length hl
    simp at this
    simp [← this, y2]) hrev
  refine ⟨_, last, (t1, last.2) :: zs, hcall, by rw [hl, List.getLast?_concat], ?_, ?_⟩
  · unfold Propagator.call
    rw [z1]; rfl
  · rw [hl, List.map_append, List.reverse_append, List.map_cons, z2]
    rfl

/-- The integral of the probability: `Σ_k w_k Σ_i |ψ_i(x_k)|²`. -/
noncomputable def integral (n : ℕ) (ws : List ℝ) (w : Nd ℂ) : ℝ := ∑ k ∈ Finset.range ws.length, ws.getD k 0 * ∑ i, ‖states n w k i‖ ^ 2

private theorem norm_eq {simps : List ℂ → ℂ} {ws : List ℝ} (h : Grids.SimpsOk simps ws) {w : Nd ℂ} (hw : Shaped n ws.length w) :
    norm simps w = (Real.sqrt (integral n ws w) : ℝ) := by
  have d0 : w.dim 0 = n := by unfold Nd.dim; rw [hw.2]; rfl
  have d1 : w.dim 1 = ws.length := by unfold Nd.dim; rw [hw.2]; rfl
  have hpos : 0 ≤ integral n ws w := by
    refine Finset.sum_nonneg fun k hk => ?_
    have hk := Finset.mem_range.1 hk
    rw [List.getD_eq_getElem _ _ hk]
    have := h.1 _ (List.getElem_mem hk)
    positivity
  have e : ((List.range n).map fun i : ℕ => simps ((List.range ws.length).map fun k : ℕ => star (w.get [i, k]) * w.get [i, k])).sum =
      ((integral n ws w : ℝ) : ℂ) := by
    have e1 : ∀ i : ℕ, simps ((List.range ws.length).map fun k : ℕ => star (w.get [i, k]) * w.get [i, k]) =
        ∑ k ∈ Finset.range ws.length, ((ws.getD k 0 * ‖w.get [i, k]‖ ^ 2 : ℝ) : ℂ) := by
      intro i
      rw [h.2 _ (by simp), Finset.sum_range, ← List.sum_ofFn]
      congr 1
      refine List.ext_getElem (by simp) fun k a b => ?_
      have hk : k < ws.length := by simpa using a
      simp only [List.getElem_zipWith, List.getElem_map, List.getElem_range, List.getElem_ofFn]
      have hc : star (w.get [i, k]) * w.get [i, k] = ((‖w.get [i, k]‖ ^ 2 : ℝ) : ℂ) := by
        rw [Complex.star_def, ← Complex.normSq_eq_conj_mul_self, Complex.normSq_eq_norm_sq]
      rw [List.getD_eq_getElem _ _ hk]
      refine (congrArg _ hc).trans ?_
      push_cast
      rfl
    have e2 : ((List.range n).map fun i : ℕ => simps ((List.range ws.length).map fun k : ℕ => star (w.get [i, k]) * w.get [i, k])).sum =
        ∑ i ∈ Finset.range n, simps ((List.range ws.length).map fun k : ℕ => star (w.get [i, k]) * w.get [i, k]) := by
      rw [Finset.sum_range, ← List.sum_ofFn]
      congr 1
      exact List.ext_getElem (by simp) fun k a b => by simp
    rw [e2, Finset.sum_congr rfl fun i _ => e1 i, Finset.sum_comm]
    unfold integral
    push_cast
    refine Finset.sum_congr rfl fun k _ => ?_
    rw [← Finset.mul_sum, Finset.sum_range fun i => ((‖w.get [i, k]‖ : ℂ)) ^ 2]
    rfl
  unfold norm
  rw [d0, d1, e, Real.sqrt_eq_rpow, Complex.ofReal_cpow hpos]
  norm_num

private theorem integral_pos {ws : List ℝ} (h : ∀ a ∈ ws, 0 < a) {w : Nd ℂ} (hs : 0 < total n ws.length w) : 0 < integral n ws w := by
  unfold total at hs
  obtain ⟨k, hk, hk'⟩ := Finset.exists_lt_of_sum_lt (s := Finset.range ws.length) (f := fun _ => (0 : ℝ)) (by simpa using hs)
  refine Finset.sum_pos' (fun j hj => ?_) ⟨k, hk, ?_⟩
  · have hj := Finset.mem_range.1 hj
    rw [List.getD_eq_getElem _ _ hj]
    have := h _ (List.getElem_mem hj)
    positivity
  · have hk := Finset.mem_range.1 hk
    rw [List.getD_eq_getElem _ _ hk]
    exact mul_pos (h _ (List.getElem_mem hk)) hk'

private theorem divide_get (w : Nd ℂ) (z : ℂ) (q : List ℕ) : (divide w z).get q = w.get q / z := by
  unfold divide Nd.get
  simp only [List.getD_eq_getElem?_getD, List.getElem?_map]
  cases w.data[ravel w.shape q]? <;> simp

private theorem divide_states (w : Nd ℂ) (z : ℂ) (k : ℕ) : ∑ i, ‖states n (divide w z) k i‖ ^ 2 = (∑ i, ‖states n w k i‖ ^ 2) / ‖z‖ ^ 2 := by
  rw [Finset.sum_div]
  refine Finset.sum_congr rfl fun i _ => ?_
  unfold states
  rw [divide_get, norm_div, div_pow]

private theorem loopR_ok (he : EighSpec eigh) {P : Propagator} {b : Grids.Basis} (hP : P.basis = .new b) (hb : b.Fine) (hn : 0 < n)
    (hH : P.Hermitian n) {simps : List ℂ → ℂ} {ws : List ℝ} (hs : Grids.SimpsOk simps ws) (hl : ws.length = b.xs.length) (t0 dt : ℝ) (k i : ℕ)
    {w : Nd ℂ} (hw : Shaped n b.xs.length w) (h0 : 0 < total n b.xs.length w) {q : ℝ} (hq : 0 < q) :
    ∃ ys zs, P.loopR eigh simps t0 dt k i w q = .ok ys ∧ P.loop eigh t0 dt k i (scaled q w) = .ok zs ∧ ys.length = k ∧
      List.Forall₂ (fun y z => y.1 = z.1 ∧ integral n ws y.2.1 = 1 ∧ z.2 = scaled y.2.2 y.2.1 ∧
        y.2.2 = ((Real.sqrt (integral n ws z.2) : ℝ) : ℂ)) ys zs := by
  induction k generalizing i w q with
  | zero => exact ⟨[], [], rfl, rfl, rfl, .nil⟩
  | succ k ih =>
    obtain ⟨w', a1, a2, a3, -, a5⟩ := step_ok he hP hb hn hH dt (t0 + i * dt) hw
    have hI : 0 < integral n ws w' := integral_pos hs.1 (by rw [hl, a3]; exact h0)
    have hN := norm_eq hs (w := w') (by rw [hl]; exact a2)
    have hR : 0 < Real.sqrt (integral n ws w') := Real.sqrt_pos.2 hI
    have hR2 : ‖norm simps w'‖ ^ 2 = integral n ws w' := by
      rw [hN, Complex.norm_real, Real.norm_eq_abs, abs_of_pos hR, Real.sq_sqrt hI.le]
    have hone : integral n ws (divide w' (norm simps w')) = 1 := by
      have : integral n ws (divide w' (norm simps w')) = integral n ws w' / integral n ws w' := by
        conv_lhs => unfold integral
        conv_rhs => lhs; unfold integral
        rw [Finset.sum_div]
        refine Finset.sum_congr rfl fun k _ => ?_
        rw [divide_states, hR2, mul_div_assoc]
      rw [this, div_self hI.ne']
    have hte : total n b.xs.length (divide w' (norm simps w')) = total n b.xs.length w / integral n ws w' := by
      rw [← a3]
      unfold total
      rw [Finset.sum_div]
      exact Finset.sum_congr rfl fun k _ => by rw [divide_states, hR2]
    have htot : 0 < total n b.xs.length (divide w' (norm simps w')) := by
      rw [hte]
      exact div_pos h0 hI
    have hcq : (q : ℂ) * norm simps w' = ((q * Real.sqrt (integral n ws w') : ℝ) : ℂ) := by rw [hN]; push_cast; rfl
    have hback : scaled ((q * Real.sqrt (integral n ws w') : ℝ) : ℂ) (divide w' (norm simps w')) = scaled q w' := by
      unfold scaled divide
      rw [List.map_map]
      refine congrArg _ (List.map_congr_left fun x _ => ?_)
      have : ((Real.sqrt (integral n ws w') : ℝ) : ℂ) ≠ 0 := by exact_mod_cast hR.ne'
      simp only [Function.comp, hN]
      push_cast
      field_simp
    have hint : Real.sqrt (integral n ws (scaled q w')) = q * Real.sqrt (integral n ws w') := by
      have : integral n ws (scaled q w') = q ^ 2 * integral n ws w' := by
        unfold integral
        rw [Finset.mul_sum]
        refine Finset.sum_congr rfl fun k _ => ?_
        rw [mul_left_comm, Finset.mul_sum (a := q ^ 2)]
        refine congrArg _ (Finset.sum_congr rfl fun i _ => ?_)
        unfold states
        rw [scaled_get, norm_mul, mul_pow, Complex.norm_real, Real.norm_eq_abs, sq_abs]
      rw [this, Real.sqrt_mul (sq_nonneg q), Real.sqrt_sq hq.le]
    have hsh : Shaped n b.xs.length (divide w' (norm simps w')) := by
      refine ⟨?_, a2.2⟩
      have := a2.1
      unfold Nd.Wf at this ⊢
      simpa [divide] using this
    obtain ⟨ys, zs, y1, y2, y3, y4⟩ := ih (i + 1) hsh htot (mul_pos hq hR)
    rw [hback] at y2
    refine ⟨(t0 + i * dt + dt, divide w' (norm simps w'), q * norm simps w') :: ys, (t0 + i * dt + dt, scaled q w') :: zs, ?_, ?_, by simp [y3],
      .cons ⟨rfl, hone, ?_, ?_⟩ y4⟩
    · unfold Propagator.loopR
      dsimp only
      rw [a1, ok_bind, hcq, y1]
      rfl
    · unfold Propagator.loop
      dsimp only
      rw [a5, ok_bind, y2]
      rfl
    · dsimp only
      rw [hcq, hback]
    · dsimp only
      rw [hcq, hint]

/-- With renormalization, for an initial wave function that is not zero everywhere: every wave function after the first has the norm 1;
times `renormalization_coeff` it is the wave function of the propagation without renormalization, and `renormalization_coeff` is the norm of that
one. -/
theorem C139_renormalize (he : EighSpec eigh) {P : Propagator} {b : Grids.Basis} (hP : P.basis = .new b) (hb : b.Fine) (hn : 0 < n)
    (hH : P.Hermitian n) {simps : List ℂ → ℂ} {ws : List ℝ} (hs : Grids.SimpsOk simps ws) (hl : ws.length = b.xs.length) (t0 dt : ℝ)
    (maxIter : ℕ) {init : Nd ℂ} (hw : Shaped n b.xs.length init) (h0 : ∃ i < n, ∃ k < b.xs.length, init.get [i, k] ≠ 0) :
    ∃ ys zs, P.callR eigh simps t0 dt maxIter init = .ok ((t0, init, 1) :: ys) ∧ P.call eigh t0 dt maxIter init = .ok ((t0, init) :: zs) ∧
      ys.length = maxIter ∧ List.Forall₂ (fun y z => y.1 = z.1 ∧ integral n ws y.2.1 = 1 ∧ z.2 = scaled y.2.2 y.2.1 ∧
        y.2.2 = ((Real.sqrt (integral n ws z.2) : ℝ) : ℂ)) ys zs := by
  have htot : 0 < total n b.xs.length init := by
    obtain ⟨i, hi, k, hk, hne⟩ := h0
    refine Finset.sum_pos' (fun j _ => by positivity) ⟨k, Finset.mem_range.2 hk, ?_⟩
    refine Finset.sum_pos' (fun j _ => by positivity) ⟨⟨i, hi⟩, Finset.mem_univ _, ?_⟩
    have : 0 < ‖states n init k ⟨i, hi⟩‖ := norm_pos_iff.2 hne
    positivity
  obtain ⟨ys, zs, y1, y2, y3, y4⟩ := loopR_ok he hP hb hn hH hs hl t0 dt maxIter 0 hw htot one_pos
  have h1 : scaled ((1 : ℝ) : ℂ) init = init := by simp [scaled]
  rw [h1] at y2
  refine ⟨ys, zs, ?_, ?_, y3, y4⟩
  · unfold Propagator.callR
    rw [← Complex.ofReal_one, y1]
    rfl
  · unfold Propagator.call
    rw [y2]
    rfl

/-- Two oscillators on four points, coupled by `sin t` and by a magnetic term in the momentum; the states start in `(1, 0)` at the third point. -/
noncomputable def exProp : Propagator where
  basis := .new (.new .coordinate (-20) 20 4 1)
  func t xs := Nd.ofFn [2, 2, xs.length] fun q =>
    if q.getD 0 0 = q.getD 1 0 then (((xs.getD (q.getD 2 0) 0).re ^ 2 / 2 : ℝ) : ℂ) else ((Real.sin t : ℝ) : ℂ)
  conjFunc _ ps := Nd.ofFn [2, 2, ps.length] fun q =>
    if q.getD 0 0 = q.getD 1 0 then (((ps.getD (q.getD 2 0) 0).re ^ 2 / 2 : ℝ) : ℂ)
    else if q.getD 0 0 < q.getD 1 0 then Complex.I else -Complex.I

private theorem valid3 {a b c i j k : ℕ} (hi : i < a) (hj : j < b) (hk : k < c) : Valid [a, b, c] [i, j, k] := by
  simp [Valid, hi, hj, hk]

theorem exProp_hermitian : exProp.Hermitian 2 := by
  refine fun c _ t => ⟨⟨rfl, fun k hk => ?_⟩, rfl, fun k hk => ?_⟩
  · ext i j
    rw [Matrix.conjTranspose_apply]
    unfold exProp at hk
    unfold potential exProp
    dsimp only at hk ⊢
    rw [Nd.get_ofFn _ (valid3 j.2 i.2 hk), Nd.get_ofFn _ (valid3 i.2 j.2 hk)]
    fin_cases i <;> fin_cases j <;> simp [-Complex.ofReal_sin]
  · ext i j
    rw [Matrix.conjTranspose_apply]
    unfold potential exProp
    dsimp only
    rw [Nd.get_ofFn _ (valid3 j.2 i.2 hk), Nd.get_ofFn _ (valid3 i.2 j.2 hk)]
    fin_cases i <;> fin_cases j <;> simp

example : ∃ eigh ys, EighSpec eigh ∧ exProp.call eigh 0 1 10 ⟨[2, 4], [0, 0, 1, 0, 0, 0, 0, 0]⟩ = .ok ys ∧ ys.length = 11 ∧
    ∀ j (hj : j < ys.length), total 2 4 ys[j].2 = 1 := by
  obtain ⟨eigh, he⟩ := C138_eigh
  have hl : (Grids.Basis.new .coordinate (-20) 20 4 1).xs.length = 4 := by simp [Grids.Basis.new, Grids.linspace]
  obtain ⟨ys, y1, y2, _, y4⟩ := C139_norm he (P := exProp) rfl Grids.exProp_fine two_pos exProp_hermitian 0 1 10
    (init := ⟨[2, 4], [0, 0, 1, 0, 0, 0, 0, 0]⟩) (by rw [hl]; exact ⟨rfl, rfl⟩)
  refine ⟨eigh, ys, he, y1, y2, fun j hj => ?_⟩
  have := (y4 j hj).2.2
  rw [hl] at this
  rw [this]
  simp [total, states, Nd.get, ravel, Fin.sum_univ_two, Finset.sum_range_succ]

/-- The same states, integrated with the weights of the 3/8 rule. -/
example : ∃ eigh ys, EighSpec eigh ∧
    exProp.callR eigh (fun v => (List.zipWith (fun (a : ℝ) z => (a : ℂ) * z) [5, 15, 15, 5] v).sum) 0 1 10 ⟨[2, 4], [0, 0, 1, 0, 0, 0, 0, 0]⟩ =
      .ok ((0, ⟨[2, 4], [0, 0, 1, 0, 0, 0, 0, 0]⟩, 1) :: ys) ∧ ys.length = 10 ∧
    ∀ j (hj : j < ys.length), integral 2 [5, 15, 15, 5] ys[j].2.1 = 1 := by
  obtain ⟨eigh, he⟩ := C138_eigh
  have hl : (Grids.Basis.new .coordinate (-20) 20 4 1).xs.length = 4 := by simp [Grids.Basis.new, Grids.linspace]
  obtain ⟨ys, zs, y1, _, y2, y3⟩ := C139_renormalize he (P := exProp) rfl Grids.exProp_fine two_pos exProp_hermitian
    (simps := fun v => (List.zipWith (fun (a : ℝ) z => (a : ℂ) * z) [5, 15, 15, 5] v).sum) (ws := [5, 15, 15, 5])
    ⟨by simp, fun _ _ => rfl⟩ (by rw [hl]; rfl) 0 1 10
    (init := ⟨[2, 4], [0, 0, 1, 0, 0, 0, 0, 0]⟩) (by rw [hl]; exact ⟨rfl, rfl⟩) (by rw [hl]; exact ⟨0, by omega, 2, by omega, by simp [Nd.get, ravel]⟩)
  rw [List.forall₂_iff_get] at y3
  exact ⟨eigh, ys, he, y1, y2, fun j hj => (y3.2 j hj (y3.1 ▸ hj)).2.1⟩

end GridStates
