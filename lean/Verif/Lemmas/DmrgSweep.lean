import Verif.Lemmas.DmrgGrain

/-!
The stacks of environments in the sweeps.
-/

open scoped BigOperators
open Py

namespace Dmrg

variable {R : Type} [CommRing R]

/-- `mps` has the physical dimensions `ds` and the bond dimensions `b`. -/
def Bonds (ds : List ℕ) (b : ℕ → ℕ) (mps : List (Nd R)) : Prop :=
  mps.length = ds.length ∧ ∀ k A, mps[k]? = some A → A.shape = [ds.getD k 0, b k, b (k + 1)]

def OpBonds (ds : List ℕ) (c : ℕ → ℕ) (mpo : List (Nd R)) : Prop :=
  mpo.length = ds.length ∧ ∀ k W, mpo[k]? = some W → W.shape = [c k, c (k + 1), ds.getD k 0, ds.getD k 0]

theorem IsMps.bonds : ∀ {mps : List (Nd R)} {ds : List ℕ} {i j : ℕ}, IsMps ds i j mps → ∃ b, b 0 = i ∧ b ds.length = j ∧ Bonds ds b mps
  | [], [], i, j, h => ⟨fun _ => i, rfl, h, rfl, by simp⟩
  | A :: mps, d :: ds, i, j, ⟨m, hA, h⟩ => by
    obtain ⟨b, h0, h1, hl, hb⟩ := IsMps.bonds h
    refine ⟨fun k => Nat.casesOn k i b, rfl, h1, by simp [hl], ?_⟩
    intro k B hk
    cases k with
    | zero => simp at hk; subst hk; simp [hA, h0]
    | succ k => simpa using hb k B (by simpa using hk)
  | [], _ :: _, _, _, h => h.elim
  | _ :: _, [], _, _, h => h.elim

theorem Bonds.isMps : ∀ {mps : List (Nd R)} {ds : List ℕ} {b : ℕ → ℕ}, Bonds ds b mps → IsMps ds (b 0) (b ds.length) mps
  | [], [], _, _ => rfl
  | A :: mps, d :: ds, b, ⟨hl, hb⟩ => by
    refine ⟨b 1, by simpa using hb 0 A rfl, ?_⟩
    exact Bonds.isMps (b := fun k => b (k + 1)) ⟨by simpa using hl, fun k B hk => by simpa using hb (k + 1) B (by simpa using hk)⟩
  | [], _ :: _, _, ⟨hl, _⟩ => by simp at hl
  | _ :: _, [], _, ⟨hl, _⟩ => by simp at hl

theorem IsMpo.bonds : ∀ {mpo : List (Nd R)} {ds : List ℕ} {i j : ℕ}, IsMpo ds ds i j mpo →
    ∃ b, b 0 = i ∧ b ds.length = j ∧ OpBonds ds b mpo
  | [], [], i, j, h => ⟨fun _ => i, rfl, h, rfl, by simp⟩
  | A :: mps, d :: ds, i, j, ⟨m, hA, h⟩ => by
    obtain ⟨b, h0, h1, hl, hb⟩ := IsMpo.bonds h
    refine ⟨fun k => Nat.casesOn k i b, rfl, h1, by simp [hl], ?_⟩
    intro k B hk
    cases k with
    | zero => simp at hk; subst hk; simp [hA, h0]
    | succ k => simpa using hb k B (by simpa using hk)
  | [], _ :: _, _, _, h => h.elim
  | _ :: _, [], _, _, h => h.elim

theorem OpBonds.isMpo : ∀ {mpo : List (Nd R)} {ds : List ℕ} {b : ℕ → ℕ}, OpBonds ds b mpo → IsMpo ds ds (b 0) (b ds.length) mpo
  | [], [], _, _ => rfl
  | A :: mps, d :: ds, b, ⟨hl, hb⟩ => by
    refine ⟨b 1, by simpa using hb 0 A rfl, ?_⟩
    exact OpBonds.isMpo (b := fun k => b (k + 1)) ⟨by simpa using hl, fun k B hk => by simpa using hb (k + 1) B (by simpa using hk)⟩
  | [], _ :: _, _, ⟨hl, _⟩ => by simp at hl
  | _ :: _, [], _, ⟨hl, _⟩ => by simp at hl

theorem getD_take {l : List ℕ} {n k : ℕ} (h : k < n) : (l.take n).getD k 0 = l.getD k 0 := by
  simp [List.getD_eq_getElem?_getD, h]

theorem getD_drop {l : List ℕ} {n k : ℕ} : (l.drop n).getD k 0 = l.getD (n + k) 0 := by
  simp [List.getD_eq_getElem?_getD]

theorem Bonds.take {mps : List (Nd R)} {ds : List ℕ} {b : ℕ → ℕ} (h : Bonds ds b mps) (n : ℕ) : Bonds (ds.take n) b (mps.take n) := by
  refine ⟨by simp [h.1], fun k A hk => ?_⟩
  rw [List.getElem?_take] at hk
  split at hk
  · next hlt => rw [getD_take hlt]; exact h.2 k A hk
  · simp at hk

theorem Bonds.drop {mps : List (Nd R)} {ds : List ℕ} {b : ℕ → ℕ} (h : Bonds ds b mps) (n : ℕ) :
    Bonds (ds.drop n) (fun k => b (n + k)) (mps.drop n) := by
  refine ⟨by simp [h.1], fun k A hk => ?_⟩
  rw [List.getElem?_drop] at hk
  rw [getD_drop]
  exact h.2 _ A hk

theorem OpBonds.take {mps : List (Nd R)} {ds : List ℕ} {b : ℕ → ℕ} (h : OpBonds ds b mps) (n : ℕ) :
    OpBonds (ds.take n) b (mps.take n) := by
  refine ⟨by simp [h.1], fun k A hk => ?_⟩
  rw [List.getElem?_take] at hk
  split at hk
  · next hlt => rw [getD_take hlt]; exact h.2 k A hk
  · simp at hk

theorem OpBonds.drop {mps : List (Nd R)} {ds : List ℕ} {b : ℕ → ℕ} (h : OpBonds ds b mps) (n : ℕ) :
    OpBonds (ds.drop n) (fun k => b (n + k)) (mps.drop n) := by
  refine ⟨by simp [h.1], fun k A hk => ?_⟩
  rw [List.getElem?_drop] at hk
  rw [getD_drop]
  exact h.2 _ A hk

/-- `L` is what the loop over the sites left of `k` gives. -/
def LeftOf (mpo mps : List (Nd R)) (k : ℕ) (L : Nd R) : Prop :=
  ((mps.take k).zip ((mpo.take k).zip (mps.take k))).foldlM (fun L x => contractFromLeft L x.1 (some x.2.1) x.2.2) one3 = .ok L

def RightOf (mpo mps : List (Nd R)) (k : ℕ) (Rt : Nd R) : Prop :=
  ((mps.drop k).zip ((mpo.drop k).zip (mps.drop k))).reverse.foldlM
    (fun Rt x => contractFromRight Rt x.1 (some x.2.1) x.2.2) one3 = .ok Rt

/-- The dimensions are admissible. -/
structure Fit (ds : List ℕ) (c b : ℕ → ℕ) (mpo mps : List (Nd R)) : Prop where
  mps : Bonds ds b mps
  mpo : OpBonds ds c mpo
  b0 : b 0 = 1
  bn : b ds.length = 1
  c0 : c 0 = 1
  cn : c ds.length = 1
  pos : ∀ k ≤ ds.length, 0 < b k
  dpos : ∀ k < ds.length, 0 < ds.getD k 0

theorem LeftOf.env {ds : List ℕ} {c b : ℕ → ℕ} {mpo mps : List (Nd R)} (h : Fit ds c b mpo mps) {k : ℕ} (hk : k ≤ ds.length) {L : Nd R}
    (hL : LeftOf mpo mps k L) : L.shape = [c k, b k, b k] ∧ LeftEnv ds mpo mps k L := by
  have h1 := (h.mps.take k).isMps
  have h2 := (h.mpo.take k).isMpo
  rw [h.b0, List.length_take, min_eq_left hk] at h1
  rw [h.c0, List.length_take, min_eq_left hk] at h2
  obtain ⟨Z, e, w, sh, g⟩ := foldLeft_ok h1 h2 h1 (L := one3) (by simp [one3, Nd.Wf]) rfl
  rw [LeftOf] at hL
  rw [hL] at e
  cases e
  refine ⟨sh, c k, b k, h1, h2, w, sh, fun q hq => ?_⟩
  rw [g q hq]
  simp [sumIdx_cons, one3, Nd.get, ravel]

theorem RightOf.env {ds : List ℕ} {c b : ℕ → ℕ} {mpo mps : List (Nd R)} (h : Fit ds c b mpo mps) {k : ℕ} (hk : k ≤ ds.length) {L : Nd R}
    (hL : RightOf mpo mps k L) : L.shape = [c k, b k, b k] ∧ RightEnv ds mpo mps k L := by
  have h1 := (h.mps.drop k).isMps
  have h2 := (h.mpo.drop k).isMpo
  simp only [List.length_drop, Nat.add_sub_cancel' hk, Nat.add_zero, h.bn, h.cn] at h1 h2
  obtain ⟨Z, e, w, sh, g⟩ := foldRight_ok h1 h2 h1 (Rt := one3) (by simp [one3, Nd.Wf]) rfl
  rw [RightOf] at hL
  rw [hL] at e
  cases e
  refine ⟨sh, c k, b k, h1, h2, w, sh, fun q hq => ?_⟩
  rw [g q hq]
  simp [sumIdx_cons, one3, Nd.get, ravel]

theorem LeftOf.zero (mpo mps : List (Nd R)) : LeftOf mpo mps 0 one3 := rfl

theorem LeftOf.succ {mpo mps : List (Nd R)} {k : ℕ} {L L' A W : Nd R} (h : LeftOf mpo mps k L) (hA : mps[k]? = some A)
    (hW : mpo[k]? = some W) (e : contractFromLeft L A (some W) A = .ok L') : LeftOf mpo mps (k + 1) L' := by
  unfold LeftOf at h ⊢
  have l1 := (List.getElem?_eq_some_iff.1 hA).1
  have l2 := (List.getElem?_eq_some_iff.1 hW).1
  rw [List.take_add_one, List.take_add_one, hA, hW, Option.toList, Option.toList, List.zip_append, List.zip_append, List.foldlM_append, h, ok_bind]
  · simp only [List.zip_cons_cons, List.zip_nil_left, List.foldlM_cons, e, ok_bind]; rfl
  · simp; omega
  · simp; omega

theorem RightOf.last {mpo mps : List (Nd R)} {k : ℕ} (h : mps.length ≤ k) : RightOf mpo mps k one3 := by
  unfold RightOf
  rw [List.drop_eq_nil_of_le h]
  rfl

theorem RightOf.pred {mpo mps : List (Nd R)} {k : ℕ} {Rt R' A W : Nd R} (h : RightOf mpo mps (k + 1) Rt) (hA : mps[k]? = some A)
    (hW : mpo[k]? = some W) (e : contractFromRight Rt A (some W) A = .ok R') : RightOf mpo mps k R' := by
  unfold RightOf at h ⊢
  obtain ⟨l1, rfl⟩ := List.getElem?_eq_some_iff.1 hA
  obtain ⟨l2, rfl⟩ := List.getElem?_eq_some_iff.1 hW
  rw [List.drop_eq_getElem_cons l1, List.drop_eq_getElem_cons l2, List.zip_cons_cons, List.zip_cons_cons, List.reverse_cons,
    List.foldlM_append, h, ok_bind]
  simp only [List.foldlM_cons, e, ok_bind]
  rfl

theorem LeftOf.congr {mpo mps mps' : List (Nd R)} {k : ℕ} {L : Nd R} (h : LeftOf mpo mps k L) (e : mps'.take k = mps.take k) :
    LeftOf mpo mps' k L := by
  unfold LeftOf at h ⊢; rw [e]; exact h

theorem RightOf.congr {mpo mps mps' : List (Nd R)} {k : ℕ} {L : Nd R} (h : RightOf mpo mps k L) (e : mps'.drop k = mps.drop k) :
    RightOf mpo mps' k L := by
  unfold RightOf at h ⊢; rw [e]; exact h

/-- The stack of the environments of the sites left of `k`, left of `k - 1`, ... -/
inductive LStack (mpo mps : List (Nd R)) : ℕ → List (Nd R) → Prop
  | base {L} : LeftOf mpo mps 0 L → LStack mpo mps 0 [L]
  | push {k L ls} : LeftOf mpo mps (k + 1) L → LStack mpo mps k ls → LStack mpo mps (k + 1) (L :: ls)

/-- The stack of the environments of the sites `k`, ..., of the sites `k + 1`, ... -/
inductive RStack (mpo mps : List (Nd R)) : ℕ → List (Nd R) → Prop
  | base {L} : RightOf mpo mps mps.length L → RStack mpo mps mps.length [L]
  | push {k L ls} : k < mps.length → RightOf mpo mps k L → RStack mpo mps (k + 1) ls → RStack mpo mps k (L :: ls)

theorem LStack.congr {mpo mps mps' : List (Nd R)} {k : ℕ} {ls : List (Nd R)} (h : LStack mpo mps k ls) (e : mps'.take k = mps.take k) :
    LStack mpo mps' k ls := by
  induction h with
  | base h => exact .base (h.congr e)
  | @push k _ _ h _ ih =>
    refine .push (h.congr e) (ih ?_)
    have := congrArg (List.take k) e
    rw [List.take_take, List.take_take] at this
    simpa using this

theorem RStack.congr {mpo mps mps' : List (Nd R)} {k : ℕ} {ls : List (Nd R)} (h : RStack mpo mps k ls) (hl : mps'.length = mps.length)
    (e : mps'.drop k = mps.drop k) : RStack mpo mps' k ls := by
  induction h with
  | base h => rw [← hl] at h e ⊢; exact .base (h.congr (by simp [hl]))
  | push hk h _ ih =>
    refine .push (by omega) (h.congr e) (ih ?_)
    have := congrArg (List.drop 1) e
    rw [List.drop_drop, List.drop_drop] at this
    simpa using this

theorem LStack.top {mpo mps : List (Nd R)} {k : ℕ} {ls : List (Nd R)} (h : LStack mpo mps k ls) :
    ∃ L rest, ls = L :: rest ∧ LeftOf mpo mps k L := by
  cases h with
  | base h => exact ⟨_, _, rfl, h⟩
  | push h _ => exact ⟨_, _, rfl, h⟩

theorem RStack.top {mpo mps : List (Nd R)} {k : ℕ} {ls : List (Nd R)} (h : RStack mpo mps k ls) :
    ∃ L rest, ls = L :: rest ∧ RightOf mpo mps k L := by
  cases h with
  | base h => exact ⟨_, _, rfl, h⟩
  | push _ h _ => exact ⟨_, _, rfl, h⟩

theorem RStack.le {mpo mps : List (Nd R)} {k : ℕ} {ls : List (Nd R)} (h : RStack mpo mps k ls) : k ≤ mps.length := by
  cases h <;> omega

theorem RStack.pop {mpo mps : List (Nd R)} {k : ℕ} {ls : List (Nd R)} (h : RStack mpo mps k ls) (hk : k < mps.length) :
    ∃ L rest, ls = L :: rest ∧ RightOf mpo mps k L ∧ RStack mpo mps (k + 1) rest := by
  cases h with
  | base h => omega
  | push _ h h' => exact ⟨_, _, rfl, h, h'⟩

theorem LStack.pop {mpo mps : List (Nd R)} {k : ℕ} {ls : List (Nd R)} (h : LStack mpo mps (k + 1) ls) :
    ∃ L rest, ls = L :: rest ∧ LeftOf mpo mps (k + 1) L ∧ LStack mpo mps k rest := by
  cases h with
  | push h h' => exact ⟨_, _, rfl, h, h'⟩

theorem item_some {α : Type} {l : List α} {i : ℕ} (h : i < l.length) : item l i = .ok l[i] := by simp [item, h]

theorem Fit.set2 {ds : List ℕ} {c b : ℕ → ℕ} {mpo mps : List (Nd R)} (h : Fit ds c b mpo mps) {i m : ℕ} {A N : Nd R}
    (hi : i + 1 < ds.length) (hA : A.shape = [ds.getD i 0, b i, m]) (hN : N.shape = [ds.getD (i + 1) 0, m, b (i + 2)]) (hm : 0 < m) :
    Fit ds c (Function.update b (i + 1) m) mpo ((mps.set i A).set (i + 1) N) := by
  refine ⟨⟨by simpa using h.mps.1, fun k B hk => ?_⟩, h.mpo, ?_, ?_, h.c0, h.cn, fun k hk => ?_, h.dpos⟩
  · have hl := h.mps.1
    rw [List.getElem?_set] at hk
    split at hk
    · next e =>
      subst e
      rw [if_pos (by simp; omega)] at hk
      cases hk
      rw [hN]
      simp
    · next e =>
      rw [List.getElem?_set] at hk
      split at hk
      · next e' =>
        subst e'
        rw [if_pos (by omega)] at hk
        cases hk
        rw [hA]
        simp
      · next e' =>
        rw [h.mps.2 k B hk, Function.update_of_ne (Ne.symm e), Function.update_of_ne (by omega)]
  · rw [Function.update_of_ne (by omega)]; exact h.b0
  · rw [Function.update_of_ne (by omega)]; exact h.bn
  · by_cases e : k = i + 1
    · subst e; simpa using hm
    · rw [Function.update_of_ne e]; exact h.pos k hk

theorem optOneSite_ok {eig : EigFn R} (he : EigSize eig) {L W Rt A : Nd R} {d l r x1 x2 x3 x4 x5 x6 x7 : ℕ} (hL : L.shape = [x1, x2, l])
    (hW : W.shape = [x3, x4, x5, d]) (hR : Rt.shape = [x6, x7, r]) (hA : A.shape = [d, l, r]) :
    ∃ V, optOneSite eig L W Rt A = .ok V ∧ V.Wf ∧ V.shape = [d, l, r] := by
  have hv := he L W Rt ⟨[[d, l, r].prod], A.data⟩
  refine ⟨⟨[d, l, r], (eig L W Rt ⟨[[d, l, r].prod], A.data⟩).data⟩, ?_, ?_, rfl⟩
  · unfold optOneSite ioShape
    simp only [hL, hW, hR, item, List.getElem?_cons_zero, List.getElem?_cons_succ, ok_bind]
    have e1 : A.reshape [[d, l, r].prod] = .ok ⟨[[d, l, r].prod], A.data⟩ := by
      rw [Nd.reshape, if_pos]; rw [hA]; simp
    simp only [pure_bind, e1, ok_bind]
    rw [Nd.reshape, if_pos]
    rw [hv.2]; simp
  · unfold Nd.Wf
    rw [hv.1, hv.2]; simp

/-- The state between two steps of a sweep over windows of `w` sites; the next window is at `p`. -/
structure Inv (ds : List ℕ) (mpo : List (Nd R)) (w p : ℕ) (st : State R) : Prop where
  fit : ∃ c b, Fit ds c b mpo st.mps
  ls : LStack mpo st.mps p st.ls
  rs : RStack mpo st.mps (p + w) st.rs
  log : ∀ e ∈ st.log, e.1 + w ≤ ds.length ∧ IsMps ds 1 1 e.2.2.2 ∧ LeftEnv ds mpo e.2.2.2 e.1 e.2.1 ∧
    RightEnv ds mpo e.2.2.2 (e.1 + w) e.2.2.1

theorem Fit.event {ds : List ℕ} {c b : ℕ → ℕ} {mpo mps : List (Nd R)} (h : Fit ds c b mpo mps) {w p : ℕ} {L Rt : Nd R}
    (hp : p + w ≤ ds.length) (hL : LeftOf mpo mps p L) (hR : RightOf mpo mps (p + w) Rt) :
    p + w ≤ ds.length ∧ IsMps ds 1 1 mps ∧ LeftEnv ds mpo mps p L ∧ RightEnv ds mpo mps (p + w) Rt := by
  have := h.mps.isMps
  rw [h.b0, h.bn] at this
  exact ⟨hp, this, (hL.env h (by omega)).2, (hR.env h hp).2⟩

theorem right1_ok {svd : SvdFn R} {eig : EigFn R} (hsvd : SvdShape svd) (he : EigSize eig) {ds : List ℕ} {mpo : List (Nd R)} {trunc : ℕ}
    (ht : 0 < trunc) {p : ℕ} {st : State R} (h : Inv ds mpo 1 p st) (hp : p + 1 < ds.length) :
    ∃ st', right1 svd eig mpo trunc st p = .ok st' ∧ Inv ds mpo 1 (p + 1) st' ∧ st'.log.map (·.1) = st.log.map (·.1) ++ [p] := by
  obtain ⟨⟨c, b, hf⟩, hls, hrs, hlog⟩ := h
  have lm := hf.mps.1
  have lo := hf.mpo.1
  obtain ⟨L, ls, els, hL⟩ := hls.top
  obtain ⟨Rt, rs, ers, hR, hrs'⟩ := hrs.pop (by omega)
  have sL := (hL.env hf (by omega)).1
  have sR := (hR.env hf (by omega)).1
  have hA := hf.mps.2 p _ (List.getElem?_eq_getElem (show p < st.mps.length by omega))
  have hN := hf.mps.2 (p + 1) _ (List.getElem?_eq_getElem (show p + 1 < st.mps.length by omega))
  have hW := hf.mpo.2 p _ (List.getElem?_eq_getElem (show p < mpo.length by omega))
  obtain ⟨V, eV, wV, sV⟩ := optOneSite_ok he sL hW sR hA
  have pos1 : 0 < ds.getD p 0 * b p := Nat.mul_pos (hf.dpos p (by omega)) (hf.pos p (by omega))
  obtain ⟨A', N', eM, wA', sA', wN', sN'⟩ := moveRight_ok hsvd wV sV hN pos1 trunc
  have hm : 0 < min (min (ds.getD p 0 * b p) (b (p + 1))) trunc := by
    have := hf.pos (p + 1) (by omega)
    omega
  obtain ⟨L', eL, wL', sL', -⟩ := contractFromLeft_some sL sA' hW sA'
  have hf' := hf.set2 hp sA' sN' hm
  refine ⟨⟨(st.mps.set p A').set (p + 1) N', L' :: st.ls, rs, st.log ++ [(p, L, Rt, st.mps)]⟩, ?_, ⟨⟨c, _, hf'⟩, ?_, ?_, ?_⟩, ?_⟩
  · unfold right1
    simp only [els, ers, top, pop, ok_bind, item_some (show p < mpo.length by omega), item_some (show p < st.mps.length by omega),
      item_some (show p + 1 < st.mps.length by omega), eV, eM, eL]
    rfl
  · refine .push (LeftOf.succ (L := L) (A := A') (hL.congr ?_) ?_ (List.getElem?_eq_getElem (show p < mpo.length by omega)) eL) (hls.congr ?_)
    · rw [List.take_set_of_le (by omega), List.take_set_of_le (by omega)]
    · rw [List.getElem?_set_ne (by omega), List.getElem?_set_self (by omega)]
    · rw [List.take_set_of_le (by omega), List.take_set_of_le (by omega)]
  · exact hrs'.congr (by simp) (by rw [List.drop_set_of_lt (by omega), List.drop_set_of_lt (by omega)])
  · intro e hmem
    rcases List.mem_append.1 hmem with hmem | hmem
    · exact hlog e hmem
    · obtain rfl := List.mem_singleton.1 hmem
      exact hf.event (by omega) hL hR
  · simp

theorem left1_ok {svd : SvdFn R} {eig : EigFn R} (hsvd : SvdShape svd) (he : EigSize eig) {ds : List ℕ} {mpo : List (Nd R)} {trunc : ℕ}
    (ht : 0 < trunc) {p : ℕ} {st : State R} (h : Inv ds mpo 1 (p + 1) st) (hp : p + 1 < ds.length) :
    ∃ st', left1 svd eig mpo trunc st (p + 1) = .ok st' ∧ Inv ds mpo 1 p st' ∧ st'.log.map (·.1) = st.log.map (·.1) ++ [p + 1] := by
  obtain ⟨⟨c, b, hf⟩, hls, hrs, hlog⟩ := h
  have lm := hf.mps.1
  have lo := hf.mpo.1
  obtain ⟨L, ls, els, hL, hls'⟩ := hls.pop
  obtain ⟨Rt, rs, ers, hR⟩ := hrs.top
  have sL := (hL.env hf (by omega)).1
  have sR := (hR.env hf (by omega)).1
  have hA := hf.mps.2 (p + 1) _ (List.getElem?_eq_getElem (show p + 1 < st.mps.length by omega))
  have hN := hf.mps.2 p _ (List.getElem?_eq_getElem (show p < st.mps.length by omega))
  have hW := hf.mpo.2 (p + 1) _ (List.getElem?_eq_getElem (show p + 1 < mpo.length by omega))
  obtain ⟨V, eV, wV, sV⟩ := optOneSite_ok he sL hW sR hA
  have pos1 : 0 < ds.getD (p + 1) 0 * b (p + 2) := Nat.mul_pos (hf.dpos _ (by omega)) (hf.pos _ (by omega))
  obtain ⟨A', N', eM, wA', sA', wN', sN'⟩ := moveLeft_ok hsvd sV hN pos1 trunc
  have hm : 0 < min (min (b (p + 1)) (ds.getD (p + 1) 0 * b (p + 2))) trunc := by
    have := hf.pos (p + 1) (by omega)
    omega
  obtain ⟨R', eR, wR', sR', -⟩ := contractFromRight_some sR sA' hW sA'
  have hf' := hf.set2 hp sN' sA' hm
  have hset : (st.mps.set (p + 1) A').set p N' = (st.mps.set p N').set (p + 1) A' := List.set_comm _ _ (by omega)
  refine ⟨⟨(st.mps.set (p + 1) A').set p N', ls, R' :: st.rs, st.log ++ [(p + 1, L, Rt, st.mps)]⟩, ?_, ⟨⟨c, _, hset ▸ hf'⟩, ?_, ?_, ?_⟩, ?_⟩
  · unfold left1
    simp only [els, ers, top, pop, ok_bind, item_some (show p + 1 < mpo.length by omega), item_some (show p < st.mps.length by omega),
      item_some (show p + 1 < st.mps.length by omega), eV, eM, eR, Nat.add_sub_cancel]
    rfl
  · refine hls'.congr ?_
    rw [List.take_set_of_le (by omega), List.take_set_of_le (by omega)]
  · refine .push (by simp; omega) (RightOf.pred (Rt := Rt) (A := A') (hR.congr ?_) ?_
      (List.getElem?_eq_getElem (show p + 1 < mpo.length by omega)) eR) (hrs.congr (by simp) ?_)
    · rw [List.drop_set_of_lt (by omega), List.drop_set_of_lt (by omega)]
    · rw [List.getElem?_set_ne (by omega), List.getElem?_set_self (by omega)]
    · rw [List.drop_set_of_lt (by omega), List.drop_set_of_lt (by omega)]
  · intro e hmem
    rcases List.mem_append.1 hmem with hmem | hmem
    · exact hlog e hmem
    · obtain rfl := List.mem_singleton.1 hmem
      exact hf.event (by omega) hL hR
  · simp

theorem right2_ok {svd : SvdFn R} {eig : EigFn R} (hsvd : SvdShape svd) (he : EigSize eig) {ds : List ℕ} {mpo : List (Nd R)} (trunc : ℕ)
    {p : ℕ} {st : State R} (h : Inv ds mpo 2 p st) (hp : p + 2 < ds.length) :
    ∃ st', right2 svd eig mpo trunc st p = .ok st' ∧ Inv ds mpo 2 (p + 1) st' ∧ st'.log.map (·.1) = st.log.map (·.1) ++ [p] := by
  obtain ⟨⟨c, b, hf⟩, hls, hrs, hlog⟩ := h
  have lm := hf.mps.1
  have lo := hf.mpo.1
  obtain ⟨L, ls, els, hL⟩ := hls.top
  obtain ⟨Rt, rs, ers, hR, hrs'⟩ := hrs.pop (by omega)
  have sL := (hL.env hf (by omega)).1
  have sR := (hR.env hf (by omega)).1
  have hA := hf.mps.2 p _ (List.getElem?_eq_getElem (show p < st.mps.length by omega))
  have hN := hf.mps.2 (p + 1) _ (List.getElem?_eq_getElem (show p + 1 < st.mps.length by omega))
  have hW := hf.mpo.2 p _ (List.getElem?_eq_getElem (show p < mpo.length by omega))
  have hX := hf.mpo.2 (p + 1) _ (List.getElem?_eq_getElem (show p + 1 < mpo.length by omega))
  obtain ⟨C, eC, wC, sC, -⟩ := coarseGrainMps_ok hA hN
  obtain ⟨Y, eY, wY, sY, -⟩ := coarseGrainMpo_ok hW hX
  obtain ⟨V, eV, wV, sV⟩ := optOneSite_ok he sL sY sR sC
  have pos1 : 0 < ds.getD p 0 * b p := Nat.mul_pos (hf.dpos p (by omega)) (hf.pos p (by omega))
  have pos2 : 0 < ds.getD (p + 1) 0 * b (p + 2) := Nat.mul_pos (hf.dpos _ (by omega)) (hf.pos _ (by omega))
  obtain ⟨E, A', N', eM, -, -, -, wA', sA', wN', sN', -⟩ := fineGrainMps_ok hsvd sV pos1 pos2 true trunc
  have hm := keptBond_pos (trunc := trunc) (lt_min pos1 pos2)
  obtain ⟨L', eL, wL', sL', -⟩ := contractFromLeft_some sL sA' hW sA'
  have hf' := hf.set2 (by omega) sA' sN' hm
  have d1 : item (st.mps[p]'(by omega)).shape 0 = .ok (ds.getD p 0) := by simp [hA, item]
  have d2 : item (st.mps[p + 1]'(by omega)).shape 0 = .ok (ds.getD (p + 1) 0) := by simp [hN, item]
  refine ⟨⟨(st.mps.set p A').set (p + 1) N', L' :: st.ls, rs, st.log ++ [(p, L, Rt, st.mps)]⟩, ?_, ⟨⟨c, _, hf'⟩, ?_, ?_, ?_⟩, ?_⟩
  · unfold right2
    simp only [els, ers, top, pop, ok_bind, item_some (show p < mpo.length by omega), item_some (show p < st.mps.length by omega),
      item_some (show p + 1 < st.mps.length by omega), item_some (show p + 1 < mpo.length by omega), d1, d2, eC, eY, eV, eM, eL]
    rfl
  · refine .push (LeftOf.succ (L := L) (A := A') (hL.congr ?_) ?_ (List.getElem?_eq_getElem (show p < mpo.length by omega)) eL) (hls.congr ?_)
    · rw [List.take_set_of_le (by omega), List.take_set_of_le (by omega)]
    · rw [List.getElem?_set_ne (by omega), List.getElem?_set_self (by omega)]
    · rw [List.take_set_of_le (by omega), List.take_set_of_le (by omega)]
  · have := hrs'.congr (mps' := (st.mps.set p A').set (p + 1) N') (by simp)
      (by rw [List.drop_set_of_lt (by omega), List.drop_set_of_lt (by omega)])
    rwa [show p + 2 + 1 = p + 1 + 2 from by omega] at this
  · intro e hmem
    rcases List.mem_append.1 hmem with hmem | hmem
    · exact hlog e hmem
    · obtain rfl := List.mem_singleton.1 hmem
      exact hf.event (by omega) hL hR
  · simp

theorem left2_ok {svd : SvdFn R} {eig : EigFn R} (hsvd : SvdShape svd) (he : EigSize eig) {ds : List ℕ} {mpo : List (Nd R)} (trunc : ℕ)
    {p : ℕ} {st : State R} (h : Inv ds mpo 2 (p + 1) st) (hp : p + 2 < ds.length) :
    ∃ st', left2 svd eig mpo trunc st (p + 2) = .ok st' ∧ Inv ds mpo 2 p st' ∧ st'.log.map (·.1) = st.log.map (·.1) ++ [p + 1] := by
  obtain ⟨⟨c, b, hf⟩, hls, hrs, hlog⟩ := h
  have lm := hf.mps.1
  have lo := hf.mpo.1
  obtain ⟨L, ls, els, hL, hls'⟩ := hls.pop
  obtain ⟨Rt, rs, ers, hR⟩ := hrs.top
  have sL := (hL.env hf (by omega)).1
  have sR := (hR.env hf (by omega)).1
  have hA := hf.mps.2 (p + 1) _ (List.getElem?_eq_getElem (show p + 1 < st.mps.length by omega))
  have hN := hf.mps.2 (p + 2) _ (List.getElem?_eq_getElem (show p + 2 < st.mps.length by omega))
  have hW := hf.mpo.2 (p + 1) _ (List.getElem?_eq_getElem (show p + 1 < mpo.length by omega))
  have hX := hf.mpo.2 (p + 2) _ (List.getElem?_eq_getElem (show p + 2 < mpo.length by omega))
  obtain ⟨C, eC, wC, sC, -⟩ := coarseGrainMps_ok hA hN
  obtain ⟨Y, eY, wY, sY, -⟩ := coarseGrainMpo_ok hW hX
  obtain ⟨V, eV, wV, sV⟩ := optOneSite_ok he sL sY sR sC
  have pos1 : 0 < ds.getD (p + 1) 0 * b (p + 1) := Nat.mul_pos (hf.dpos _ (by omega)) (hf.pos _ (by omega))
  have pos2 : 0 < ds.getD (p + 2) 0 * b (p + 3) := Nat.mul_pos (hf.dpos _ (by omega)) (hf.pos _ (by omega))
  obtain ⟨E, A', N', eM, -, -, -, wA', sA', wN', sN', -⟩ := fineGrainMps_ok hsvd sV pos1 pos2 false trunc
  have hm := keptBond_pos (trunc := trunc) (lt_min pos1 pos2)
  obtain ⟨R', eR, wR', sR', -⟩ := contractFromRight_some sR sN' hX sN'
  have hf' := hf.set2 (i := p + 1) (by omega) sA' sN' hm
  have d1 : item (st.mps[p + 1]'(by omega)).shape 0 = .ok (ds.getD (p + 1) 0) := by simp [hA, item]
  have d2 : item (st.mps[p + 2]'(by omega)).shape 0 = .ok (ds.getD (p + 2) 0) := by simp [hN, item]
  refine ⟨⟨(st.mps.set (p + 1) A').set (p + 2) N', ls, R' :: st.rs, st.log ++ [(p + 1, L, Rt, st.mps)]⟩, ?_, ⟨⟨c, _, hf'⟩, ?_, ?_, ?_⟩, ?_⟩
  · unfold left2
    simp only [els, ers, top, pop, ok_bind, item_some (show p + 1 < mpo.length by omega), item_some (show p + 2 < st.mps.length by omega),
      item_some (show p + 1 < st.mps.length by omega), item_some (show p + 2 < mpo.length by omega), d1, d2, eC, eY, eV, eM, eR,
      show p + 2 - 1 = p + 1 from rfl]
    rfl
  · refine hls'.congr ?_
    rw [List.take_set_of_le (by omega), List.take_set_of_le (by omega)]
  · refine .push (by simp; omega) (RightOf.pred (Rt := Rt) (A := N') (hR.congr ?_) ?_
      (List.getElem?_eq_getElem (show p + 2 < mpo.length by omega)) eR) (hrs.congr (by simp) ?_)
    · rw [List.drop_set_of_lt (by omega), List.drop_set_of_lt (by omega)]
    · rw [List.getElem?_set_self (by simp; omega)]
    · rw [List.drop_set_of_lt (by omega), List.drop_set_of_lt (by omega)]
  · intro e hmem
    rcases List.mem_append.1 hmem with hmem | hmem
    · exact hlog e hmem
    · obtain rfl := List.mem_singleton.1 hmem
      exact hf.event (by omega) hL hR
  · simp

/-- A loop to the right. -/
theorem loop_right {ds : List ℕ} {mpo : List (Nd R)} {w : ℕ} {step : State R → ℕ → Res (State R)}
    (hstep : ∀ p st, Inv ds mpo w p st → p + w < ds.length →
      ∃ st', step st p = .ok st' ∧ Inv ds mpo w (p + 1) st' ∧ st'.log.map (·.1) = st.log.map (·.1) ++ [p])
    {st : State R} (h : Inv ds mpo w 0 st) : ∀ n, n + w ≤ ds.length →
    ∃ st', (List.range n).foldlM step st = .ok st' ∧ Inv ds mpo w n st' ∧ st'.log.map (·.1) = st.log.map (·.1) ++ List.range n
  | 0, _ => ⟨st, rfl, h, by simp⟩
  | n + 1, hn => by
    obtain ⟨st1, e1, h1, l1⟩ := loop_right hstep h n (by omega)
    obtain ⟨st2, e2, h2, l2⟩ := hstep n st1 h1 (by omega)
    refine ⟨st2, ?_, h2, ?_⟩
    · rw [List.range_succ, List.foldlM_append, e1, ok_bind, List.foldlM_cons, e2, ok_bind]; rfl
    · rw [l2, l1, List.range_succ, List.append_assoc]

/-- A loop to the left. -/
theorem loop_left {ds : List ℕ} {mpo : List (Nd R)} {w : ℕ} {step : State R → ℕ → Res (State R)}
    (hstep : ∀ p st, Inv ds mpo w (p + 1) st → p + w < ds.length →
      ∃ st', step st (p + w) = .ok st' ∧ Inv ds mpo w p st' ∧ st'.log.map (·.1) = st.log.map (·.1) ++ [p + 1]) :
    ∀ (n : ℕ) (st : State R), Inv ds mpo w n st → n + w ≤ ds.length →
    ∃ st', (List.range' w n).reverse.foldlM step st = .ok st' ∧ Inv ds mpo w 0 st' ∧
      st'.log.map (·.1) = st.log.map (·.1) ++ (List.range' 1 n).reverse
  | 0, st, h, _ => ⟨st, rfl, h, by simp⟩
  | n + 1, st, h, hn => by
    obtain ⟨st1, e1, h1, l1⟩ := hstep n st h (by omega)
    obtain ⟨st2, e2, h2, l2⟩ := loop_left hstep n st1 h1 (by omega)
    refine ⟨st2, ?_, h2, ?_⟩
    · rw [List.range'_concat, List.reverse_append]
      simp only [one_mul, List.reverse_cons, List.reverse_nil, List.nil_append, List.singleton_append, List.foldlM_cons]
      rw [Nat.add_comm w n, e1, ok_bind, e2]
    · rw [l2, l1, List.range'_concat, List.reverse_append]
      simp [Nat.add_comm]

theorem range_filter (N k : ℕ) : (List.range N).filter (fun i => k < i) = List.range' (k + 1) (N - (k + 1)) := by
  induction N with
  | zero => simp
  | succ N ih =>
    rw [List.range_succ, List.filter_append, ih]
    by_cases h : k < N
    · rw [show N + 1 - (k + 1) = (N - (k + 1)) + 1 by omega, List.range'_concat]
      simp [h]
    · rw [show N + 1 - (k + 1) = 0 by omega, show N - (k + 1) = 0 by omega]
      simp [h]

theorem contractRs_ok {ds : List ℕ} {c b : ℕ → ℕ} {mpo mps : List (Nd R)} (hf : Fit ds c b mpo mps) (s : ℕ) (hs : s + 1 ≤ ds.length) :
    ∃ rs, contractRs s mpo mps = .ok rs ∧ RStack mpo mps (s + 1) rs := by
  unfold contractRs
  have lm := hf.mps.1
  have lo := hf.mpo.1
  have key : ∀ n k rs, k + n = mps.length → RStack mpo mps (k + n) rs →
      ∃ rs', (List.range' k n).reverse.foldlM (fun rs i => do
        let t ← top rs
        let A ← item mps i
        let W ← item mpo i
        let r ← contractFromRight t A (some W) A
        pure (r :: rs)) rs = .ok rs' ∧ RStack mpo mps k rs' := by
    intro n
    suffices H : ∀ m k rs, k + m ≤ mps.length → RStack mpo mps (k + m) rs → ∃ rs', (List.range' k m).reverse.foldlM (fun rs i => do
        let t ← top rs
        let A ← item mps i
        let W ← item mpo i
        let r ← contractFromRight t A (some W) A
        pure (r :: rs)) rs = .ok rs' ∧ RStack mpo mps k rs' from fun k rs h1 h2 => H n k rs (by omega) h2
    intro m
    induction m with
    | zero => intro k rs _ h; exact ⟨rs, rfl, h⟩
    | succ m ih =>
      intro k rs hle h
      obtain ⟨Rt, rest, ers, hR⟩ := h.top
      have sR := (hR.env hf (by omega)).1
      have hA := hf.mps.2 (k + m) _ (List.getElem?_eq_getElem (show k + m < mps.length by omega))
      have hW := hf.mpo.2 (k + m) _ (List.getElem?_eq_getElem (show k + m < mpo.length by omega))
      obtain ⟨R', eR, -, -, -⟩ := contractFromRight_some sR hA hW hA
      have h' : RStack mpo mps (k + m) (R' :: rs) :=
        .push (by omega) (RightOf.pred hR (List.getElem?_eq_getElem (by omega)) (List.getElem?_eq_getElem (by omega)) eR) h
      obtain ⟨rs', e', h''⟩ := ih k (R' :: rs) (by omega) h'
      refine ⟨rs', ?_, h''⟩
      rw [List.range'_concat, List.reverse_append]
      simp only [one_mul, List.reverse_cons, List.reverse_nil, List.nil_append, List.singleton_append, List.foldlM_cons]
      rw [ers]
      simp only [top, ok_bind, item_some (show k + m < mpo.length by omega), item_some (show k + m < mps.length by omega), eR]
      rw [ers] at e'
      exact e'
  rw [range_filter]
  have hN : s + 1 + (mpo.length - (s + 1)) = mps.length := by omega
  exact key _ _ _ hN (hN ▸ .base (RightOf.last le_rfl))

/-- Any number of sweeps of the one-site method. -/
theorem sweep1_ok {svd : SvdFn R} {eig : EigFn R} (hsvd : SvdShape svd) (he : EigSize eig) {ds : List ℕ} {mpo : List (Nd R)} {trunc : ℕ}
    (ht : 0 < trunc) {st : State R} (h : Inv ds mpo 1 0 st) (hd : 1 ≤ ds.length) :
    ∃ st', sweep1 svd eig mpo trunc st = .ok st' ∧ Inv ds mpo 1 0 st' ∧
      st'.log.map (·.1) = st.log.map (·.1) ++ (List.range (ds.length - 1) ++ (List.range' 1 (ds.length - 1)).reverse) := by
  obtain ⟨c, b, hf⟩ := h.fit
  have lo := hf.mpo.1
  obtain ⟨st1, e1, h1, l1⟩ := loop_right (fun p st h hp => right1_ok hsvd he ht h hp) h (ds.length - 1) (by omega)
  obtain ⟨st2, e2, h2, l2⟩ := loop_left (fun p st h hp => left1_ok hsvd he ht h hp) (ds.length - 1) st1 h1 (by omega)
  refine ⟨st2, ?_, h2, by rw [l2, l1, List.append_assoc]⟩
  obtain ⟨c1, b1, hf1⟩ := h1.fit
  unfold sweep1
  rw [lo, e1, ok_bind, range_filter, hf1.mps.1]
  exact e2

/-- A sweep of the two-site method. -/
theorem sweep2_ok {svd : SvdFn R} {eig : EigFn R} (hsvd : SvdShape svd) (he : EigSize eig) {ds : List ℕ} {mpo : List (Nd R)} (trunc : ℕ)
    {st : State R} (h : Inv ds mpo 2 0 st) (hd : 2 ≤ ds.length) :
    ∃ st', sweep2 svd eig mpo trunc st = .ok st' ∧ Inv ds mpo 2 0 st' ∧
      st'.log.map (·.1) = st.log.map (·.1) ++ (List.range (ds.length - 2) ++ (List.range' 1 (ds.length - 2)).reverse) := by
  obtain ⟨c, b, hf⟩ := h.fit
  have lo := hf.mpo.1
  obtain ⟨st1, e1, h1, l1⟩ := loop_right (fun p st h hp => right2_ok hsvd he trunc h hp) h (ds.length - 2) (by omega)
  obtain ⟨st2, e2, h2, l2⟩ := loop_left (fun p st h hp => left2_ok hsvd he trunc h hp) (ds.length - 2) st1 h1 (by omega)
  refine ⟨st2, ?_, h2, by rw [l2, l1, List.append_assoc]⟩
  obtain ⟨c1, b1, hf1⟩ := h1.fit
  unfold sweep2
  rw [lo, e1, ok_bind, range_filter, hf1.mps.1]
  exact e2

theorem repeat_ok {ds : List ℕ} {mpo : List (Nd R)} {w : ℕ} {sweep : State R → Res (State R)} {win : List ℕ}
    (hs : ∀ st, Inv ds mpo w 0 st → ∃ st', sweep st = .ok st' ∧ Inv ds mpo w 0 st' ∧ st'.log.map (·.1) = st.log.map (·.1) ++ win)
    {st : State R} (h : Inv ds mpo w 0 st) : ∀ n, ∃ st', (List.range n).foldlM (fun st _ => sweep st) st = .ok st' ∧ Inv ds mpo w 0 st' ∧
      st'.log.map (·.1) = st.log.map (·.1) ++ (List.replicate n win).flatten
  | 0 => ⟨st, rfl, h, by simp⟩
  | n + 1 => by
    obtain ⟨st1, e1, h1, l1⟩ := repeat_ok hs h n
    obtain ⟨st2, e2, h2, l2⟩ := hs st1 h1
    refine ⟨st2, ?_, h2, ?_⟩
    · rw [List.range_succ, List.foldlM_append, e1, ok_bind, List.foldlM_cons, e2, ok_bind]; rfl
    · rw [l2, l1, List.replicate_succ', List.flatten_append]; simp

/-- The dimensions of a chain and an operator. -/
theorem Fit.of {ds : List ℕ} {mpo mps : List (Nd R)} (hm : IsMps ds 1 1 mps) (ho : IsMpo ds ds 1 1 mpo)
    (hpos : ∀ A ∈ mps, ∀ n ∈ A.shape, 0 < n) (hd : ds ≠ []) : ∃ c b, Fit ds c b mpo mps := by
  obtain ⟨b, b0, bn, hb⟩ := hm.bonds
  obtain ⟨c, c0, cn, hc⟩ := ho.bonds
  have hl := hb.1
  have hd' : 0 < ds.length := List.length_pos_iff.2 hd
  have sh : ∀ k < ds.length, 0 < ds.getD k 0 ∧ 0 < b k := by
    intro k hk
    have e := hb.2 k _ (List.getElem?_eq_getElem (show k < mps.length by omega))
    have := hpos _ (List.getElem_mem (show k < mps.length by omega))
    rw [e] at this
    exact ⟨this _ (by simp), this _ (by simp)⟩
  refine ⟨c, b, hb, hc, b0, bn, c0, cn, fun k hk => ?_, fun k hk => (sh k hk).1⟩
  rcases Nat.lt_or_eq_of_le hk with h | h
  · exact (sh k h).2
  · rw [h, bn]; exact Nat.one_pos

end Dmrg
