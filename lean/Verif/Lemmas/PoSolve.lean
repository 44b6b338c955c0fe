import Verif.Model.PoSolve
import Verif.Props.C95
import Verif.Lemmas.Mctdh5

/-! Lemmas about products of one-dimensional ground states. -/

open Py
open scoped BigOperators

namespace PoDvr

/-- Products over the coordinates. -/
def prodAt (us : List (ℕ → ℝ)) (idx : List ℕ) : ℝ := (List.zipWith (fun u x => u x) us idx).prod

theorem prodAt_range (us : List (ℕ → ℝ)) (idx : List ℕ) (h : idx.length = us.length) :
    prodAt us idx = ∏ i ∈ Finset.range us.length, us.getD i (fun _ => 0) (idx.getD i 0) := by
  induction us generalizing idx with
  | nil => simp [prodAt]
  | cons u us ih =>
    cases idx with
    | nil => simp at h
    | cons x idx =>
      rw [List.length_cons, Finset.prod_range_succ', prodAt, List.zipWith_cons_cons, List.prod_cons, mul_comm]
      simp only [List.getD_cons_succ, List.getD_cons_zero]
      rw [← ih idx (by simpa using h)]
      rfl

/-- The loop of `init_state`. -/
theorem init_loop (eigsh : Nd ℂ → ℕ → Res (List ℝ × Nd ℝ)) (u : SineDVR → ℕ → ℝ) : ∀ (ds : List SineDVR) (v : Nd ℝ), v.Wf →
    (∀ D ∈ ds, ∃ e w, Mctdh.solve eigsh D 1 = .ok (e, w) ∧ w.shape = [1, D.n] ∧ ∀ x < D.n, w.get [0, x] = u D x) →
    ∃ r, ds.foldlM (initStep eigsh) v = .ok r ∧ r.Wf ∧ r.shape = v.shape ++ ds.map SineDVR.n ∧
      ∀ p q, Valid v.shape p → Valid (ds.map SineDVR.n) q → r.get (p ++ q) = v.get p * prodAt (ds.map u) q
  | [], v, hv, _ => by
    refine ⟨v, rfl, hv, by simp, fun p q _ hq => ?_⟩
    obtain rfl : q = [] := by simpa using hq
    simp [prodAt]
  | D :: ds, v, hv, h => by
    obtain ⟨e, w, w1, w2, w3⟩ := h D List.mem_cons_self
    have d0 : w.dim 0 = 1 := by unfold Nd.dim; rw [w2]; rfl
    have d1 : w.dim 1 = D.n := by unfold Nd.dim; rw [w2]; rfl
    have hs : initStep eigsh v D = .ok (outer v ((List.range D.n).map fun x : ℕ => w.get [0, x])) := by
      unfold initStep firstRow
      rw [w1, ok_bind]
      dsimp only
      rw [d0, d1, if_neg (by decide), ok_bind]
      rfl
    set v' := outer v ((List.range D.n).map fun x : ℕ => w.get [0, x]) with hv'
    have hsh : v'.shape = v.shape ++ [D.n] := by rw [hv']; unfold outer Nd.ofFn; simp
    obtain ⟨r, r1, r2, r3, r4⟩ := init_loop eigsh u ds v' (Nd.ofFn_wf _ _) fun D' hD' => h D' (List.mem_cons_of_mem _ hD')
    refine ⟨r, ?_, r2, by rw [r3, hsh]; simp, fun p q hp hq => ?_⟩
    · rw [List.foldlM_cons, hs, ok_bind, r1]
    · obtain ⟨x, q', rfl, hx, hq'⟩ := valid_cons_iff.1 hq
      have hpx : Valid (v.shape ++ [D.n]) (p ++ [x]) := valid_append hp (valid_cons_iff.2 ⟨x, [], rfl, hx, valid_nil_iff.2 rfl⟩)
      have := r4 (p ++ [x]) q' (by rw [hsh]; exact hpx) hq'
      rw [List.append_assoc, List.singleton_append] at this
      rw [this, hv', outer, Nd.get_ofFn _ (by simpa using hpx)]
      simp only [List.dropLast_concat, List.getLastD_concat]
      rw [List.getD_eq_getElem _ _ (by simpa using hx), List.getElem_map, List.getElem_range, w3 x hx, mul_assoc]
      congr 1

/-! ### Sums over a grid -/

theorem sumIdx_le {s : List ℕ} {f g : List ℕ → ℝ} (h : ∀ idx, Valid s idx → f idx ≤ g idx) : sumIdx s f ≤ sumIdx s g := by
  induction s generalizing f g with
  | nil => exact h [] (valid_nil_iff.2 rfl)
  | cons d ds ih =>
    rw [sumIdx_cons, sumIdx_cons]
    exact Finset.sum_le_sum fun k hk => ih fun idx hidx => h _ (valid_cons_iff.2 ⟨k, idx, rfl, Finset.mem_range.1 hk, hidx⟩)

theorem sumIdx_prodAt : ∀ (us : List (ℕ → ℝ)) (ns : List ℕ), ns.length = us.length →
    (∀ i < us.length, (∑ x ∈ Finset.range (ns.getD i 0), us.getD i (fun _ => 0) x ^ 2) = 1) → sumIdx ns (fun p => prodAt us p ^ 2) = 1
  | [], [], _, _ => by simp [prodAt]
  | u :: us, n :: ns, hl, h => by
    have h0 := h 0 (by simp)
    simp only [List.getD_cons_zero] at h0
    have ih := sumIdx_prodAt us ns (by simpa using hl) fun i hi => by
      have := h (i + 1) (by simpa using hi)
      simpa using this
    rw [sumIdx_cons]
    have e : ∀ k : ℕ, sumIdx ns (fun is => prodAt (u :: us) (k :: is) ^ 2) = u k ^ 2 := by
      intro k
      have : (fun is => prodAt (u :: us) (k :: is) ^ 2) = fun is => u k ^ 2 * prodAt us is ^ 2 := by
        funext is
        rw [prodAt, List.zipWith_cons_cons, List.prod_cons, mul_pow]
        rfl
      rw [this, sumIdx_mul_left, ih, mul_one]
    simp only [e]
    exact h0
  | [], _ :: _, h, _ => by simp at h
  | _ :: _, [], h, _ => by simp at h

theorem sum_list {α : Type} [AddCommMonoid α] (s : List ℕ) (f : ℕ → α) : (∑ k ∈ Finset.range s.prod, f k) = sumIdx s fun p => f (ravel s p) := by
  rw [sumIdx_eq_sum_range]
  exact Finset.sum_congr rfl fun k hk => by rw [ravel_unravel (Finset.mem_range.1 hk)]

/-! ### The variational principle in one coordinate -/

/-- A real symmetric matrix. -/
def RealSymm (H : Nd ℂ) (n : ℕ) : Prop :=
  (∀ a < n, ∀ b < n, H.get [a, b] = (((H.get [a, b]).re : ℝ) : ℂ)) ∧ ∀ a < n, ∀ b < n, H.get [a, b] = H.get [b, a]

theorem quad_real {H : Nd ℂ} {n : ℕ} (hs : RealSymm H n) (v w : ℕ → ℝ) :
    (∑ x ∈ Finset.range n, ∑ y ∈ Finset.range n, (v x : ℂ) * H.get [x, y] * (w y : ℂ)).re =
      ∑ x ∈ Finset.range n, ∑ y ∈ Finset.range n, v x * (H.get [x, y]).re * w y := by
  rw [Complex.re_sum]
  refine Finset.sum_congr rfl fun x hx => ?_
  rw [Complex.re_sum]
  refine Finset.sum_congr rfl fun y hy => ?_
  rw [hs.1 x (Finset.mem_range.1 hx) y (Finset.mem_range.1 hy), ← Complex.ofReal_mul, ← Complex.ofReal_mul, Complex.ofReal_re, Complex.ofReal_re]

theorem rayleigh_real {H : Nd ℂ} {n : ℕ} {E : ℝ} {u : ℕ → ℝ} (hs : RealSymm H n) (he : Mctdh.Eigen H n 1 [E] fun _ => u) (v : ℕ → ℝ) :
    E * (∑ x ∈ Finset.range n, v x ^ 2) ≤ ∑ x ∈ Finset.range n, ∑ y ∈ Finset.range n, v x * (H.get [x, y]).re * v y := by
  set c := ∑ x ∈ Finset.range n, u x * v x with hc
  have hu : (∑ x ∈ Finset.range n, u x * u x) = 1 := by simpa using he.orthonormal 0 (by decide) 0 (by decide)
  have heq : ∀ x < n, (∑ y ∈ Finset.range n, (H.get [x, y]).re * u y) = E * u x := by
    intro x hx
    have h := congrArg Complex.re (he.equation 0 (by decide) x hx)
    simp only [List.getD_cons_zero] at h
    rw [Complex.re_sum, ← Complex.ofReal_mul, Complex.ofReal_re] at h
    rw [← h]
    refine Finset.sum_congr rfl fun y hy => ?_
    rw [hs.1 x hx y (Finset.mem_range.1 hy), ← Complex.ofReal_mul, Complex.ofReal_re, Complex.ofReal_re]
  have heq' : ∀ y < n, (∑ x ∈ Finset.range n, u x * (H.get [x, y]).re) = E * u y := by
    intro y hy
    rw [← heq y hy]
    exact Finset.sum_congr rfl fun x hx => by rw [hs.2 x (Finset.mem_range.1 hx) y hy, mul_comm]
  have horth : (∑ x ∈ Finset.range n, u x * (v x - c * u x)) = 0 := by
    have : ∀ x ∈ Finset.range n, u x * (v x - c * u x) = u x * v x - c * (u x * u x) := fun x _ => by ring
    rw [Finset.sum_congr rfl this, Finset.sum_sub_distrib, ← Finset.mul_sum, hu, ← hc]
    ring
  have h := he.lowest (fun x => v x - c * u x) (fun k _ => horth) 0 (by decide)
  have hq := quad_real hs (fun x => v x - c * u x) (fun x => v x - c * u x)
  rw [hq] at h
  simp only [List.getD_cons_zero] at h
  have e1 : (∑ x ∈ Finset.range n, (v x - c * u x) ^ 2) = (∑ x ∈ Finset.range n, v x ^ 2) - c ^ 2 := by
    have : ∀ x ∈ Finset.range n, (v x - c * u x) ^ 2 = v x ^ 2 - 2 * c * (u x * v x) + c ^ 2 * (u x * u x) := fun x _ => by ring
    rw [Finset.sum_congr rfl this, Finset.sum_add_distrib, Finset.sum_sub_distrib, ← Finset.mul_sum, ← Finset.mul_sum, hu, ← hc]
    ring
  have e2 : (∑ x ∈ Finset.range n, ∑ y ∈ Finset.range n, (v x - c * u x) * (H.get [x, y]).re * (v y - c * u y)) =
      (∑ x ∈ Finset.range n, ∑ y ∈ Finset.range n, v x * (H.get [x, y]).re * v y) - c ^ 2 * E := by
    have hx : ∀ x ∈ Finset.range n, (∑ y ∈ Finset.range n, (v x - c * u x) * (H.get [x, y]).re * (v y - c * u y)) =
        (∑ y ∈ Finset.range n, v x * (H.get [x, y]).re * v y) - c * (v x * (E * u x)) - (∑ y ∈ Finset.range n, c * (u x * (H.get [x, y]).re * v y)) +
          c ^ 2 * (u x * (E * u x)) := by
      intro x hx
      rw [← heq x (Finset.mem_range.1 hx), Finset.mul_sum, Finset.mul_sum, Finset.mul_sum, Finset.mul_sum, ← Finset.sum_sub_distrib,
        ← Finset.sum_sub_distrib, ← Finset.sum_add_distrib]
      exact Finset.sum_congr rfl fun y _ => by ring
    rw [Finset.sum_congr rfl hx, Finset.sum_add_distrib, Finset.sum_sub_distrib, Finset.sum_sub_distrib]
    have t1 : (∑ x ∈ Finset.range n, c * (v x * (E * u x))) = c ^ 2 * E := by
      have : ∀ x ∈ Finset.range n, c * (v x * (E * u x)) = c * E * (u x * v x) := fun x _ => by ring
      rw [Finset.sum_congr rfl this, ← Finset.mul_sum, ← hc]; ring
    have t2 : (∑ x ∈ Finset.range n, c ^ 2 * (u x * (E * u x))) = c ^ 2 * E := by
      have : ∀ x ∈ Finset.range n, c ^ 2 * (u x * (E * u x)) = c ^ 2 * E * (u x * u x) := fun x _ => by ring
      rw [Finset.sum_congr rfl this, ← Finset.mul_sum, hu]; ring
    have t3 : (∑ x ∈ Finset.range n, ∑ y ∈ Finset.range n, c * (u x * (H.get [x, y]).re * v y)) = c ^ 2 * E := by
      rw [Finset.sum_comm]
      have : ∀ y ∈ Finset.range n, (∑ x ∈ Finset.range n, c * (u x * (H.get [x, y]).re * v y)) = c * E * (u y * v y) := by
        intro y hy
        have : ∀ x ∈ Finset.range n, c * (u x * (H.get [x, y]).re * v y) = c * v y * (u x * (H.get [x, y]).re) := fun x _ => by ring
        rw [Finset.sum_congr rfl this, ← Finset.mul_sum, heq' y (Finset.mem_range.1 hy)]
        ring
      rw [Finset.sum_congr rfl this, ← Finset.mul_sum, ← hc]; ring
    rw [t1, t2, t3]; ring
  rw [e1, e2] at h
  linarith

/-- The lowest eigenvalue is a lower bound of the energy, for complex vectors. -/
theorem rayleigh {H : Nd ℂ} {n : ℕ} {E : ℝ} {u : ℕ → ℝ} (hs : RealSymm H n) (he : Mctdh.Eigen H n 1 [E] fun _ => u) (f : ℕ → ℂ) :
    E * (∑ x ∈ Finset.range n, ‖f x‖ ^ 2) ≤
      ∑ x ∈ Finset.range n, (starRingEnd ℂ (f x) * ∑ y ∈ Finset.range n, H.get [x, y] * f y).re := by
  have h1 := rayleigh_real hs he fun x => (f x).re
  have h2 := rayleigh_real hs he fun x => (f x).im
  have e : ∀ x ∈ Finset.range n, (starRingEnd ℂ (f x) * ∑ y ∈ Finset.range n, H.get [x, y] * f y).re =
      (∑ y ∈ Finset.range n, (f x).re * (H.get [x, y]).re * (f y).re) + ∑ y ∈ Finset.range n, (f x).im * (H.get [x, y]).re * (f y).im := by
    intro x hx
    rw [Finset.mul_sum, Complex.re_sum, ← Finset.sum_add_distrib]
    refine Finset.sum_congr rfl fun y hy => ?_
    have hi : (H.get [x, y]).im = 0 := by rw [hs.1 x (Finset.mem_range.1 hx) y (Finset.mem_range.1 hy)]; exact Complex.ofReal_im _
    simp only [Complex.mul_re, Complex.mul_im, Complex.conj_re, Complex.conj_im, hi]
    ring
  rw [Finset.sum_congr rfl e, Finset.sum_add_distrib]
  have en : ∀ x ∈ Finset.range n, ‖f x‖ ^ 2 = (f x).re ^ 2 + (f x).im ^ 2 := by
    intro x _
    rw [← Complex.normSq_eq_norm_sq, Complex.normSq_apply]
    ring
  rw [Finset.sum_congr rfl en, Finset.sum_add_distrib, mul_add]
  linarith

/-- The lowest eigenvalue of a matrix that acts on one axis is a lower bound of the energy. -/
theorem rayleigh_axis {H : Nd ℂ} {E : ℝ} {u : ℕ → ℝ} (s : List ℕ) (i : ℕ) (hi : i < s.length) (hs : RealSymm H (s.getD i 0))
    (he : Mctdh.Eigen H (s.getD i 0) 1 [E] fun _ => u) (f : List ℕ → ℂ) :
    E * sumIdx s (fun p => ‖f p‖ ^ 2) ≤
      sumIdx s fun p => (starRingEnd ℂ (f p) * ∑ y ∈ Finset.range (s.getD i 0), H.get [p.getD i 0, y] * f (p.set i y)).re := by
  have hle : i ≤ (s.eraseIdx i).length := by rw [List.length_eraseIdx_of_lt hi]; omega
  have e := insertIdx_eraseIdx_getD hi 0
  have key : ∀ g : List ℕ → ℝ, sumIdx s g = sumIdx (s.eraseIdx i) fun p => ∑ x ∈ Finset.range (s.getD i 0), g (p.insertIdx i x) := by
    intro g
    rw [sumIdx_sum]
    conv_lhs => rw [← e]
    rw [sumIdx_insertIdx _ _ _ hle]
  rw [key, key, ← sumIdx_mul_left]
  refine sumIdx_le fun p hp => ?_
  have hp' : i ≤ p.length := by rw [hp.length_eq]; exact hle
  have := rayleigh hs he fun x => f (p.insertIdx i x)
  refine this.trans (le_of_eq (Finset.sum_congr rfl fun x _ => ?_))
  rw [getD_insertIdx_self hp']
  congr 2
  refine Finset.sum_congr rfl fun y _ => ?_
  congr 2
  have hl : i < (p.insertIdx i x).length := by rw [List.length_insertIdx_of_le_length hp']; omega
  rw [Mctdh.set_eq_insertIdx _ _ _ hl, eraseIdx_insertIdx_self]

/-- A symmetric matrix that acts on one axis is a symmetric operator. -/
theorem symm_axis {H : Nd ℂ} (s : List ℕ) (i : ℕ) (hi : i < s.length) (hs : RealSymm H (s.getD i 0)) (f g : List ℕ → ℝ) :
    (sumIdx s fun p => f p * ∑ y ∈ Finset.range (s.getD i 0), (H.get [p.getD i 0, y]).re * g (p.set i y)) =
      sumIdx s fun p => (∑ y ∈ Finset.range (s.getD i 0), (H.get [p.getD i 0, y]).re * f (p.set i y)) * g p := by
  have hle : i ≤ (s.eraseIdx i).length := by rw [List.length_eraseIdx_of_lt hi]; omega
  have e := insertIdx_eraseIdx_getD hi 0
  have key : ∀ g : List ℕ → ℝ, sumIdx s g = sumIdx (s.eraseIdx i) fun p => ∑ x ∈ Finset.range (s.getD i 0), g (p.insertIdx i x) := by
    intro g
    rw [sumIdx_sum]
    conv_lhs => rw [← e]
    rw [sumIdx_insertIdx _ _ _ hle]
  rw [key, key]
  refine sumIdx_congr fun p hp => ?_
  have hp' : i ≤ p.length := by rw [hp.length_eq]; exact hle
  have hset : ∀ x y, (p.insertIdx i x).set i y = p.insertIdx i y := by
    intro x y
    have hl : i < (p.insertIdx i x).length := by rw [List.length_insertIdx_of_le_length hp']; omega
    rw [Mctdh.set_eq_insertIdx _ _ _ hl, eraseIdx_insertIdx_self]
  simp only [getD_insertIdx_self hp', hset, Finset.mul_sum, Finset.sum_mul]
  rw [Finset.sum_comm]
  refine Finset.sum_congr rfl fun x hx => Finset.sum_congr rfl fun y hy => ?_
  rw [hs.2 y (Finset.mem_range.1 hy) x (Finset.mem_range.1 hx)]
  ring

end PoDvr
