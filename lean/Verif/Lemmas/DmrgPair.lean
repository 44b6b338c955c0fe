import Verif.Lemmas.DmrgForm

/-!
The matrix element and the norm by one site or a pair of sites.
-/

open scoped BigOperators
open Py

namespace Dmrg

variable {R : Type} [CommRing R]

theorem sum_pair (a b : ℕ) (f : ℕ → R) :
    ∑ z ∈ Finset.range (a * b), f z = ∑ x ∈ Finset.range a, ∑ y ∈ Finset.range b, f (x * b + y) := by
  induction a with
  | zero => simp
  | succ a ih => rw [Finset.sum_range_succ, ← ih, Nat.succ_mul, Finset.sum_range_add]

private theorem perm7 (X1 X2 X3 X4 X5 X6 X7 : Finset ℕ) (f : ℕ → ℕ → ℕ → ℕ → ℕ → ℕ → ℕ → R) :
    ∑ s ∈ X1, ∑ t ∈ X2, ∑ s' ∈ X3, ∑ t' ∈ X4, ∑ j ∈ X5, ∑ c ∈ X6, ∑ j' ∈ X7, f s t s' t' j c j' =
      ∑ c ∈ X6, ∑ j ∈ X5, ∑ j' ∈ X7, ∑ s ∈ X1, ∑ s' ∈ X3, ∑ t ∈ X2, ∑ t' ∈ X4, f s t s' t' j c j' := by
  simp only [← Finset.sum_product']
  refine Finset.sum_nbij' (fun (s, t, s', t', j, c, j') => (c, j, j', s, s', t, t')) (fun (c, j, j', s, s', t, t') => (s, t, s', t', j, c, j'))
    ?_ ?_ ?_ ?_ ?_
  · rintro ⟨t, j, l, b, k, a, s⟩ h
    simp only [Finset.mem_product] at h ⊢
    tauto
  · rintro ⟨t, j, l, b, k, a, s⟩ h
    simp only [Finset.mem_product] at h ⊢
    tauto
  · intro x _; rfl
  · intro x _; rfl
  · intro x _; rfl

/-- Two neighbouring sites are the coarse-grained site. -/
theorem site_pair {A B A' B' W X C C' Y : Nd R} {d1 d2 i j k i' j' k' a b c : ℕ} (hA : A.shape = [d1, i, j]) (hB : B.shape = [d2, j, k])
    (hA' : A'.shape = [d1, i', j']) (hB' : B'.shape = [d2, j', k']) (hW : W.shape = [a, b, d1, d1]) (hX : X.shape = [b, c, d2, d2])
    (eC : coarseGrainMps A B = .ok C) (eC' : coarseGrainMps A' B' = .ok C') (eY : coarseGrainMpo W X = .ok Y) {p q : List ℕ}
    (hp : Valid [a, i, i'] p) (hq : Valid [c, k, k'] q) :
    (sumIdx [b, j, j'] fun r => site d1 d1 A W A' p r * site d2 d2 B X B' r q) = site (d1 * d2) (d1 * d2) C Y C' p q := by
  obtain ⟨_, e, -, -, gC⟩ := coarseGrainMps_ok hA hB
  rw [eC] at e; cases e
  obtain ⟨_, e, -, -, gC'⟩ := coarseGrainMps_ok hA' hB'
  rw [eC'] at e; cases e
  obtain ⟨_, e, -, -, gY⟩ := coarseGrainMpo_ok hW hX
  rw [eY] at e; cases e
  obtain ⟨p0, p, rfl, hp0, hp⟩ := valid_cons_iff.1 hp
  obtain ⟨p1, p, rfl, hp1, hp⟩ := valid_cons_iff.1 hp
  obtain ⟨p2, p, rfl, hp2, hp⟩ := valid_cons_iff.1 hp
  obtain rfl := valid_nil_iff.1 hp
  obtain ⟨q0, q, rfl, hq0, hq⟩ := valid_cons_iff.1 hq
  obtain ⟨q1, q, rfl, hq1, hq⟩ := valid_cons_iff.1 hq
  obtain ⟨q2, q, rfl, hq2, hq⟩ := valid_cons_iff.1 hq
  obtain rfl := valid_nil_iff.1 hq
  unfold site
  simp only [sumIdx_cons, sumIdx_nil, List.getD_cons_zero, List.getD_cons_succ]
  rw [sum_pair]
  simp only [sum_pair d1 d2 (fun y => _ * _ * C'.get [y, p2, q2])]
  have h : ∀ s ∈ Finset.range d1, ∀ t ∈ Finset.range d2, ∀ s' ∈ Finset.range d1, ∀ t' ∈ Finset.range d2,
      C.get [s * d2 + t, p1, q1] * Y.get [p0, q0, s * d2 + t, s' * d2 + t'] * C'.get [s' * d2 + t', p2, q2] =
      ∑ x ∈ Finset.range j, ∑ z ∈ Finset.range b, ∑ y ∈ Finset.range j', (A.get [s, p1, x] * W.get [p0, z, s, s'] * A'.get [s', p2, y]) *
        (B.get [t, x, q1] * X.get [z, q0, t, t'] * B'.get [t', y, q2]) := by
    intro s hs t ht s' hs' t' ht'
    rw [Finset.mem_range] at hs ht hs' ht'
    rw [gC s hs t ht p1 hp1 q1 hq1, gC' s' hs' t' ht' p2 hp2 q2 hq2, gY p0 hp0 q0 hq0 s hs t ht s' hs' t' ht', Finset.sum_mul_sum,
      Finset.sum_mul]
    refine Finset.sum_congr rfl fun x _ => ?_
    rw [Finset.sum_mul_sum]
    refine Finset.sum_congr rfl fun z _ => Finset.sum_congr rfl fun y _ => ?_
    ring
  have h' : ∀ s ∈ Finset.range d1, ∀ t ∈ Finset.range d2, _ := fun s hs t ht =>
    Finset.sum_congr rfl fun s' hs' => Finset.sum_congr rfl fun t' ht' => h s hs t ht s' hs' t' ht'
  rw [Finset.sum_congr rfl fun s hs => Finset.sum_congr rfl fun t ht => h' s hs t ht, perm7]
  refine Finset.sum_congr rfl fun z _ => Finset.sum_congr rfl fun x _ => Finset.sum_congr rfl fun y _ => ?_
  rw [Finset.sum_mul]
  refine Finset.sum_congr rfl fun s _ => ?_
  rw [Finset.sum_mul]
  refine Finset.sum_congr rfl fun s' _ => ?_
  rw [Finset.mul_sum]
  refine Finset.sum_congr rfl fun t _ => ?_
  rw [Finset.mul_sum]

/-- The same without operator. -/
theorem site2_pair {A B A' B' C C' : Nd R} {d1 d2 i j k i' j' k' : ℕ} (hA : A.shape = [d1, i, j]) (hB : B.shape = [d2, j, k])
    (hA' : A'.shape = [d1, i', j']) (hB' : B'.shape = [d2, j', k']) (eC : coarseGrainMps A B = .ok C)
    (eC' : coarseGrainMps A' B' = .ok C') {p q : List ℕ} (hp : Valid [i, i'] p) (hq : Valid [k, k'] q) :
    (sumIdx [j, j'] fun r => site2 d1 A A' p r * site2 d2 B B' r q) = site2 (d1 * d2) C C' p q := by
  obtain ⟨_, e, -, -, gC⟩ := coarseGrainMps_ok hA hB
  rw [eC] at e; cases e
  obtain ⟨_, e, -, -, gC'⟩ := coarseGrainMps_ok hA' hB'
  rw [eC'] at e; cases e
  obtain ⟨p1, p, rfl, hp1, hp⟩ := valid_cons_iff.1 hp
  obtain ⟨p2, p, rfl, hp2, hp⟩ := valid_cons_iff.1 hp
  obtain rfl := valid_nil_iff.1 hp
  obtain ⟨q1, q, rfl, hq1, hq⟩ := valid_cons_iff.1 hq
  obtain ⟨q2, q, rfl, hq2, hq⟩ := valid_cons_iff.1 hq
  obtain rfl := valid_nil_iff.1 hq
  unfold site2
  simp only [sumIdx_cons, sumIdx_nil, List.getD_cons_zero, List.getD_cons_succ]
  rw [sum_pair]
  have h : ∀ s ∈ Finset.range d1, ∀ t ∈ Finset.range d2,
      C.get [s * d2 + t, p1, q1] * C'.get [s * d2 + t, p2, q2] =
      ∑ x ∈ Finset.range j, ∑ y ∈ Finset.range j', (A.get [s, p1, x] * A'.get [s, p2, y]) * (B.get [t, x, q1] * B'.get [t, y, q2]) := by
    intro s hs t ht
    rw [Finset.mem_range] at hs ht
    rw [gC s hs t ht p1 hp1 q1 hq1, gC' s hs t ht p2 hp2 q2 hq2, Finset.sum_mul_sum]
    refine Finset.sum_congr rfl fun x _ => Finset.sum_congr rfl fun y _ => ?_
    ring
  rw [Finset.sum_congr rfl fun s hs => Finset.sum_congr rfl fun t ht => h s hs t ht]
  have : ∀ s ∈ Finset.range d1, (∑ t ∈ Finset.range d2, ∑ x ∈ Finset.range j, ∑ y ∈ Finset.range j',
      (A.get [s, p1, x] * A'.get [s, p2, y]) * (B.get [t, x, q1] * B'.get [t, y, q2])) =
      ∑ x ∈ Finset.range j, ∑ y ∈ Finset.range j', ∑ t ∈ Finset.range d2,
      (A.get [s, p1, x] * A'.get [s, p2, y]) * (B.get [t, x, q1] * B'.get [t, y, q2]) := by
    intro s _
    rw [Finset.sum_comm]
    exact Finset.sum_congr rfl fun x _ => Finset.sum_comm
  rw [Finset.sum_congr rfl this]
  conv_rhs => rw [Finset.sum_comm]
  refine Finset.sum_congr rfl fun x _ => ?_
  conv_rhs => rw [Finset.sum_comm]
  refine Finset.sum_congr rfl fun y _ => ?_
  rw [Finset.sum_mul]
  refine Finset.sum_congr rfl fun s _ => ?_
  rw [Finset.mul_sum]

/-- The entries of the environment of the sites left of `k`. -/
def LeftVal (ds : List ℕ) (c b : ℕ → ℕ) (mpo mps : List (Nd R)) (k : ℕ) (L : Nd R) : Prop :=
  ∀ q, Valid [c k, b k, b k] q → L.get q = chain (ds.take k) (ds.take k) (mps.take k) (mpo.take k) (mps.take k) [0, 0, 0] q

/-- The entries of the environment of the sites `k`, ... -/
def RightVal (ds : List ℕ) (c b : ℕ → ℕ) (mpo mps : List (Nd R)) (k : ℕ) (Rt : Nd R) : Prop :=
  ∀ q, Valid [c k, b k, b k] q → Rt.get q = chain (ds.drop k) (ds.drop k) (mps.drop k) (mpo.drop k) (mps.drop k) q [0, 0, 0]

theorem LeftOf.get {ds : List ℕ} {c b : ℕ → ℕ} {mpo mps : List (Nd R)} (h : Fit ds c b mpo mps) {k : ℕ} (hk : k ≤ ds.length) {L : Nd R}
    (hL : LeftOf mpo mps k L) : LeftVal ds c b mpo mps k L := by
  intro q hq
  obtain ⟨sh, c', b', -, -, -, sh', g⟩ := hL.env h hk
  rw [sh] at sh'
  refine g q ?_
  rw [← sh']; exact hq

theorem RightOf.get {ds : List ℕ} {c b : ℕ → ℕ} {mpo mps : List (Nd R)} (h : Fit ds c b mpo mps) {k : ℕ} (hk : k ≤ ds.length) {L : Nd R}
    (hL : RightOf mpo mps k L) : RightVal ds c b mpo mps k L := by
  intro q hq
  obtain ⟨sh, c', b', -, -, -, sh', g⟩ := hL.env h hk
  rw [sh] at sh'
  refine g q ?_
  rw [← sh']; exact hq

theorem IsMps.right_unique : ∀ {mps : List (Nd R)} {ds : List ℕ} {i j j' : ℕ}, IsMps ds i j mps → IsMps ds i j' mps → j = j'
  | [], [], _, _, _, h, h' => h.symm.trans h'
  | _ :: _, _ :: _, _, _, _, ⟨m, e, h⟩, ⟨m', e', h'⟩ => by
    rw [e] at e'
    simp only [List.cons.injEq] at e'
    obtain rfl := e'.2.2.1
    exact IsMps.right_unique h h'
  | [], _ :: _, _, _, _, h, _ => h.elim
  | _ :: _, [], _, _, _, h, _ => h.elim

theorem IsMps.left_unique : ∀ {mps : List (Nd R)} {ds : List ℕ} {i i' j : ℕ}, IsMps ds i j mps → IsMps ds i' j mps → i = i'
  | [], [], _, _, _, h, h' => h.trans h'.symm
  | _ :: _, _ :: _, _, _, _, ⟨m, e, h⟩, ⟨m', e', h'⟩ => by
    rw [e] at e'
    simp only [List.cons.injEq] at e'
    exact e'.2.1
  | [], _ :: _, _, _, _, h, _ => h.elim
  | _ :: _, [], _, _, _, h, _ => h.elim

theorem IsMpo.right_unique : ∀ {mpo : List (Nd R)} {ds es : List ℕ} {i j j' : ℕ}, IsMpo ds es i j mpo → IsMpo ds es i j' mpo → j = j'
  | [], [], [], _, _, _, h, h' => h.symm.trans h'
  | _ :: _, _ :: _, _ :: _, _, _, _, ⟨m, e, h⟩, ⟨m', e', h'⟩ => by
    rw [e] at e'
    simp only [List.cons.injEq] at e'
    obtain rfl := e'.2.1
    exact IsMpo.right_unique h h'
  | [], _ :: _, es, _, _, _, h, _ => by cases es <;> exact h.elim
  | [], [], _ :: _, _, _, _, h, _ => h.elim
  | _ :: _, [], es, _, _, _, h, _ => by cases es <;> exact h.elim
  | _ :: _, _ :: _, [], _, _, _, h, _ => h.elim

theorem IsMpo.left_unique : ∀ {mpo : List (Nd R)} {ds es : List ℕ} {i i' j : ℕ}, IsMpo ds es i j mpo → IsMpo ds es i' j mpo → i = i'
  | [], [], [], _, _, _, h, h' => h.trans h'.symm
  | _ :: _, _ :: _, _ :: _, _, _, _, ⟨m, e, h⟩, ⟨m', e', h'⟩ => by
    rw [e] at e'
    simp only [List.cons.injEq] at e'
    exact e'.1
  | [], _ :: _, es, _, _, _, h, _ => by cases es <;> exact h.elim
  | [], [], _ :: _, _, _, _, h, _ => h.elim
  | _ :: _, [], es, _, _, _, h, _ => by cases es <;> exact h.elim
  | _ :: _, _ :: _, [], _, _, _, h, _ => h.elim

/-- A list by the part left of `p`, the element `p` and the rest. -/
theorem split1 {α : Type} {l : List α} {p : ℕ} {x : α} (h : l[p]? = some x) : l = l.take p ++ x :: l.drop (p + 1) := by
  obtain ⟨hp, rfl⟩ := List.getElem?_eq_some_iff.1 h
  rw [← List.drop_eq_getElem_cons hp, List.take_append_drop]

theorem split2 {α : Type} {l : List α} {p : ℕ} {x y : α} (h : l[p]? = some x) (h' : l[p + 1]? = some y) :
    l = l.take p ++ x :: y :: l.drop (p + 2) := by
  obtain ⟨hp, rfl⟩ := List.getElem?_eq_some_iff.1 h
  obtain ⟨hp', rfl⟩ := List.getElem?_eq_some_iff.1 h'
  rw [← List.drop_eq_getElem_cons hp', ← List.drop_eq_getElem_cons hp, List.take_append_drop]

theorem getElem?_getD {ds : List ℕ} {p : ℕ} (h : p < ds.length) : ds[p]? = some (ds.getD p 0) := by
  simp [List.getD_eq_getElem?_getD, h]

theorem Fit.left {ds : List ℕ} {c b : ℕ → ℕ} {mpo mps : List (Nd R)} (h : Fit ds c b mpo mps) {k : ℕ} (hk : k ≤ ds.length) :
    IsMps (ds.take k) 1 (b k) (mps.take k) ∧ IsMpo (ds.take k) (ds.take k) 1 (c k) (mpo.take k) := by
  have h1 := (h.mps.take k).isMps
  have h2 := (h.mpo.take k).isMpo
  rw [h.b0, List.length_take, min_eq_left hk] at h1
  rw [h.c0, List.length_take, min_eq_left hk] at h2
  exact ⟨h1, h2⟩

theorem Fit.right {ds : List ℕ} {c b : ℕ → ℕ} {mpo mps : List (Nd R)} (h : Fit ds c b mpo mps) {k : ℕ} (hk : k ≤ ds.length) :
    IsMps (ds.drop k) (b k) 1 (mps.drop k) ∧ IsMpo (ds.drop k) (ds.drop k) (c k) 1 (mpo.drop k) := by
  have h1 := (h.mps.drop k).isMps
  have h2 := (h.mpo.drop k).isMpo
  simp only [List.length_drop, Nat.add_sub_cancel' hk, Nat.add_zero, h.bn, h.cn] at h1 h2
  exact ⟨h1, h2⟩

theorem LeftEnv.val {ds : List ℕ} {c b : ℕ → ℕ} {mpo mps : List (Nd R)} (h : Fit ds c b mpo mps) {k : ℕ} (hk : k ≤ ds.length) {L : Nd R}
    (hL : LeftEnv ds mpo mps k L) : L.shape = [c k, b k, b k] ∧ LeftVal ds c b mpo mps k L := by
  obtain ⟨c', b', h1, h2, -, sh, g⟩ := hL
  obtain rfl := h1.right_unique (h.left hk).1
  obtain rfl := h2.right_unique (h.left hk).2
  exact ⟨sh, g⟩

theorem RightEnv.val {ds : List ℕ} {c b : ℕ → ℕ} {mpo mps : List (Nd R)} (h : Fit ds c b mpo mps) {k : ℕ} (hk : k ≤ ds.length) {L : Nd R}
    (hL : RightEnv ds mpo mps k L) : L.shape = [c k, b k, b k] ∧ RightVal ds c b mpo mps k L := by
  obtain ⟨c', b', h1, h2, -, sh, g⟩ := hL
  obtain rfl := h1.left_unique (h.right hk).1
  obtain rfl := h2.left_unique (h.right hk).2
  exact ⟨sh, g⟩

/-- The matrix element between states that differ at one site. -/
theorem chain_site {ds : List ℕ} {c b : ℕ → ℕ} {mpo mps : List (Nd R)} (h : Fit ds c b mpo mps) {p : ℕ} (hp : p < ds.length) {L Rt W : Nd R}
    (hL : LeftVal ds c b mpo mps p L) (hR : RightVal ds c b mpo mps (p + 1) Rt) (hW : mpo[p]? = some W) {u v : Nd R}
    (hu : u.shape = [ds.getD p 0, b p, b (p + 1)]) (hv : v.shape = [ds.getD p 0, b p, b (p + 1)]) :
    chain ds ds (mps.take p ++ u :: mps.drop (p + 1)) mpo (mps.take p ++ v :: mps.drop (p + 1)) [0, 0, 0] [0, 0, 0] =
      form (c p) (c (p + 1)) (ds.getD p 0) (b p) (b (p + 1)) L W Rt u v := by
  have eds := split1 (getElem?_getD hp)
  have emo := split1 hW
  obtain ⟨h1, h2⟩ := h.left (k := p) (by omega)
  have hv0 : Valid [1, 1, 1] [0, 0, 0] := by decide
  have sW := h.mpo.2 p W hW
  have key := chain_append h1 h2 h1 (ds.getD p 0 :: ds.drop (p + 1)) (ds.getD p 0 :: ds.drop (p + 1)) (u :: mps.drop (p + 1))
    (W :: mpo.drop (p + 1)) (v :: mps.drop (p + 1)) [0, 0, 0] [0, 0, 0] hv0
  rw [← eds, ← emo] at key
  rw [key]
  unfold form
  refine sumIdx_congr fun r hr => ?_
  rw [← hL r hr, chain_cons hu sW hv, ← sumIdx_mul_left]
  refine sumIdx_congr fun q hq => ?_
  rw [← hR q hq, mul_assoc]

/-- The matrix element between states that differ at a pair of sites. -/
theorem chain_pair {ds : List ℕ} {c b : ℕ → ℕ} {mpo mps : List (Nd R)} (h : Fit ds c b mpo mps) {p : ℕ} (hp : p + 1 < ds.length)
    {L Rt W X Y : Nd R} (hL : LeftVal ds c b mpo mps p L) (hR : RightVal ds c b mpo mps (p + 2) Rt) (hW : mpo[p]? = some W) (hX : mpo[p + 1]? = some X)
    (eY : coarseGrainMpo W X = .ok Y) {A B C A' B' C' : Nd R} {m m' : ℕ} (hA : A.shape = [ds.getD p 0, b p, m])
    (hB : B.shape = [ds.getD (p + 1) 0, m, b (p + 2)]) (hA' : A'.shape = [ds.getD p 0, b p, m'])
    (hB' : B'.shape = [ds.getD (p + 1) 0, m', b (p + 2)]) (eC : coarseGrainMps A B = .ok C) (eC' : coarseGrainMps A' B' = .ok C') :
    chain ds ds (mps.take p ++ A :: B :: mps.drop (p + 2)) mpo (mps.take p ++ A' :: B' :: mps.drop (p + 2)) [0, 0, 0] [0, 0, 0] =
      form (c p) (c (p + 2)) (ds.getD p 0 * ds.getD (p + 1) 0) (b p) (b (p + 2)) L Y Rt C C' := by
  have eds := split2 (getElem?_getD (show p < ds.length by omega)) (getElem?_getD hp)
  have emo := split2 hW hX
  obtain ⟨h1, h2⟩ := h.left (k := p) (by omega)
  have hv0 : Valid [1, 1, 1] [0, 0, 0] := by decide
  have sW := h.mpo.2 p W hW
  have sX := h.mpo.2 (p + 1) X hX
  have key := chain_append h1 h2 h1 (ds.getD p 0 :: ds.getD (p + 1) 0 :: ds.drop (p + 2)) (ds.getD p 0 :: ds.getD (p + 1) 0 :: ds.drop (p + 2))
    (A :: B :: mps.drop (p + 2)) (W :: X :: mpo.drop (p + 2)) (A' :: B' :: mps.drop (p + 2)) [0, 0, 0] [0, 0, 0] hv0
  rw [← eds, ← emo] at key
  rw [key]
  unfold form
  refine sumIdx_congr fun r hr => ?_
  rw [← hL r hr, chain_cons hA sW hA']
  simp only [chain_cons hB sX hB', ← sumIdx_mul_left]
  rw [sumIdx_comm]
  refine sumIdx_congr fun q hq => ?_
  rw [← hR q hq, ← site_pair hA hB hA' hB' sW sX eC eC' eY hr hq, ← sumIdx_mul_left, ← sumIdx_mul_right]
  exact sumIdx_congr fun x _ => by ring

/-- The left part of a left-canonical state is an isometry. -/
theorem overlap_left : ∀ {X : List (Nd R)} {ds : List ℕ} {i j : ℕ}, IsMps ds i j X → (∀ A ∈ X, LeftCanonical A) → ∀ x < j, ∀ y < j,
    ∑ k ∈ Finset.range i, overlap ds X X [k, k] [x, y] = if x = y then 1 else 0
  | [], [], i, j, h, _, x, hx, y, hy => by
    cases h
    have e : ∀ k, overlap [] ([] : List (Nd R)) [] [k, k] [x, y] = (if k = x then 1 else 0) * (if k = y then 1 else 0) := fun k => rfl
    simp [e, eq_comm]
    intro h; omega
  | A :: X, d :: ds, i, j, ⟨m, hA, h⟩, hc, x, hx, y, hy => by
    have ih := overlap_left h (fun B hB => hc B (List.mem_cons_of_mem _ hB)) x hx y hy
    have hl := hc A (List.mem_cons_self ..)
    have d0 : A.dim 0 = d := by simp [Nd.dim, hA]
    have d1 : A.dim 1 = i := by simp [Nd.dim, hA]
    have d2 : A.dim 2 = m := by simp [Nd.dim, hA]
    unfold LeftCanonical at hl
    rw [d0, d1, d2] at hl
    rw [← ih]
    simp only [overlap_cons hA hA]
    rw [← sumIdx_sum]
    simp only [sumIdx_cons, sumIdx_nil]
    refine Finset.sum_congr rfl fun r hr => ?_
    rw [Finset.sum_eq_single r]
    · rw [← Finset.sum_mul]
      have := hl r (Finset.mem_range.1 hr) r (Finset.mem_range.1 hr)
      rw [Finset.sum_comm] at this
      simp only [site2, List.getD_cons_zero, List.getD_cons_succ]
      rw [this]; simp
    · intro r' hr' hne
      rw [← Finset.sum_mul]
      have := hl r (Finset.mem_range.1 hr) r' (Finset.mem_range.1 hr')
      rw [Finset.sum_comm, if_neg (Ne.symm hne)] at this
      simp only [site2, List.getD_cons_zero, List.getD_cons_succ]
      rw [this]; simp
    · intro hc; exact absurd hr hc
  | [], _ :: _, _, _, h, _, _, _, _, _ => h.elim
  | _ :: _, [], _, _, h, _, _, _, _, _ => h.elim

/-- The right part of a right-canonical state is an isometry. -/
theorem overlap_right : ∀ {X : List (Nd R)} {ds : List ℕ} {i j : ℕ}, IsMps ds i j X → (∀ A ∈ X, RightCanonical A) → ∀ x < i, ∀ y < i,
    ∑ k ∈ Finset.range j, overlap ds X X [x, y] [k, k] = if x = y then 1 else 0
  | [], [], i, j, h, _, x, hx, y, hy => by
    cases h
    have e : ∀ k, overlap [] ([] : List (Nd R)) [] [x, y] [k, k] = (if x = k then 1 else 0) * (if y = k then 1 else 0) := fun k => rfl
    simp [e, eq_comm]
    intro h; omega
  | A :: X, d :: ds, i, j, ⟨m, hA, h⟩, hc, x, hx, y, hy => by
    have ih := overlap_right h (fun B hB => hc B (List.mem_cons_of_mem _ hB))
    have hl := hc A (List.mem_cons_self ..)
    have d0 : A.dim 0 = d := by simp [Nd.dim, hA]
    have d1 : A.dim 1 = i := by simp [Nd.dim, hA]
    have d2 : A.dim 2 = m := by simp [Nd.dim, hA]
    unfold RightCanonical at hl
    rw [d0, d1, d2] at hl
    rw [← hl x hx y hy]
    simp only [overlap_cons hA hA]
    rw [← sumIdx_sum]
    simp only [← Finset.mul_sum, sumIdx_cons, sumIdx_nil]
    conv_rhs => rw [Finset.sum_comm]
    refine Finset.sum_congr rfl fun r hr => ?_
    rw [Finset.sum_eq_single r]
    · rw [ih r (Finset.mem_range.1 hr) r (Finset.mem_range.1 hr)]
      simp [site2]
    · intro r' hr' hne
      rw [ih r (Finset.mem_range.1 hr) r' (Finset.mem_range.1 hr'), if_neg (Ne.symm hne), mul_zero]
    · intro hc; exact absurd hr hc
  | [], _ :: _, _, _, h, _, _, _, _, _ => h.elim
  | _ :: _, [], _, _, h, _, _, _, _, _ => h.elim

/-- The norm, if everything outside of the window is an isometry. -/
theorem overlap_middle {X Z : List (Nd R)} {dx dz : List ℕ} {l r : ℕ} (hX : IsMps dx 1 l X) (hZ : IsMps dz r 1 Z)
    (cX : ∀ A ∈ X, LeftCanonical A) (cZ : ∀ A ∈ Z, RightCanonical A) {M : List (Nd R)} {dm : List ℕ} (hM : IsMps dm l r M) :
    overlap (dx ++ (dm ++ dz)) (X ++ (M ++ Z)) (X ++ (M ++ Z)) [0, 0] [0, 0] =
      ∑ i ∈ Finset.range l, ∑ k ∈ Finset.range r, overlap dm M M [i, i] [k, k] := by
  rw [overlap_append hX hX _ _ _ _ _ (by decide)]
  have e1 := overlap_left hX cX
  have e2 := overlap_right hZ cZ
  simp only [Finset.sum_range_one] at e1 e2
  simp only [sumIdx_cons, sumIdx_nil]
  refine Finset.sum_congr rfl fun i hi => ?_
  rw [Finset.sum_eq_single i]
  · rw [e1 i (Finset.mem_range.1 hi) i (Finset.mem_range.1 hi), if_pos rfl, one_mul,
      overlap_append hM hM _ _ _ _ _ (valid2 (Finset.mem_range.1 hi) (Finset.mem_range.1 hi))]
    simp only [sumIdx_cons, sumIdx_nil]
    refine Finset.sum_congr rfl fun k hk => ?_
    rw [Finset.sum_eq_single k]
    · rw [e2 k (Finset.mem_range.1 hk) k (Finset.mem_range.1 hk), if_pos rfl, mul_one]
    · intro k' hk' hne
      rw [e2 k (Finset.mem_range.1 hk) k' (Finset.mem_range.1 hk'), if_neg (Ne.symm hne), mul_zero]
    · intro hc; exact absurd hk hc
  · intro k' hk' hne
    rw [e1 i (Finset.mem_range.1 hi) k' (Finset.mem_range.1 hk'), if_neg (Ne.symm hne), zero_mul]
  · intro hc; exact absurd hi hc

/-- The norm of a site. -/
theorem sum_site2 {d l r : ℕ} {u : Nd R} (hw : u.Wf) (hu : u.shape = [d, l, r]) :
    ∑ i ∈ Finset.range l, ∑ k ∈ Finset.range r, site2 d u u [i, i] [k, k] = inner u u := by
  rw [inner_eq hw hu hu]
  simp only [sumIdx_cons, sumIdx_nil, site2, List.getD_cons_zero, List.getD_cons_succ]
  conv_rhs => rw [Finset.sum_comm]
  refine Finset.sum_congr rfl fun i _ => ?_
  rw [Finset.sum_comm]

theorem overlap_one {d l r : ℕ} {u : Nd R} (hw : u.Wf) (hu : u.shape = [d, l, r]) :
    ∑ i ∈ Finset.range l, ∑ k ∈ Finset.range r, overlap [d] [u] [u] [i, i] [k, k] = inner u u := by
  rw [← sum_site2 hw hu]
  refine Finset.sum_congr rfl fun i _ => Finset.sum_congr rfl fun k hk => ?_
  rw [overlap_cons hu hu]
  have e : ∀ r : List ℕ, overlap [] ([] : List (Nd R)) [] r [k, k] = (if r.getD 0 0 = k then 1 else 0) * (if r.getD 1 0 = k then 1 else 0) :=
    fun k => rfl
  have := Finset.mem_range.1 hk
  simp [e, sumIdx_cons, this, site2]

theorem overlap_two {d1 d2 l m r : ℕ} {A B C : Nd R} (hA : A.shape = [d1, l, m]) (hB : B.shape = [d2, m, r])
    (eC : coarseGrainMps A B = .ok C) :
    ∑ i ∈ Finset.range l, ∑ k ∈ Finset.range r, overlap [d1, d2] [A, B] [A, B] [i, i] [k, k] = inner C C := by
  obtain ⟨_, e, wC, sC, -⟩ := coarseGrainMps_ok hA hB
  rw [eC] at e; cases e
  rw [← sum_site2 wC sC]
  refine Finset.sum_congr rfl fun i hi => Finset.sum_congr rfl fun k hk => ?_
  rw [Finset.mem_range] at hi hk
  rw [← site2_pair hA hB hA hB eC eC (valid2 hi hi) (valid2 hk hk), overlap_cons hA hA]
  refine sumIdx_congr fun q _ => ?_
  rw [overlap_cons hB hB]
  congr 1
  have e : ∀ r : List ℕ, overlap [] ([] : List (Nd R)) [] r [k, k] = (if r.getD 0 0 = k then 1 else 0) * (if r.getD 1 0 = k then 1 else 0) :=
    fun k => rfl
  simp [e, sumIdx_cons, hk, site2]

end Dmrg
