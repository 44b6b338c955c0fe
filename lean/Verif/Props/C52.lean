import Verif.Props.C26
import Mathlib.Algebra.BigOperators.Group.List.Basic
import Mathlib.Tactic.Ring
import Mathlib.Tactic.FieldSimp
import Mathlib.Tactic.LinearCombination
import Mathlib.Data.Rat.Defs
import Mathlib.Algebra.Field.Rat

/-!
C52: the recursive projector-splitting step, `minitn/algorithms/ml.py:712-740`.
-/

open Py

namespace Sweep

variable {K E R : Type} [CommRing R]

/-- The total time for which `x` is propagated (a link is the same seen from both ends). -/
def spent [AddCommMonoid K] (sites : List (Site × K)) (x : Site) : K :=
  ((sites.filter fun y => decide (y.1 = x ∨ y.1.flip = x)).map Prod.snd).sum

/-- The total time, every site weighted. -/
def total [Field K] (w : Site → K) (l : List (Site × K)) : K := (l.map fun x => w x.1 * x.2).sum

theorem total_append [Field K] (w : Site → K) (l l' : List (Site × K)) : total w (l ++ l') = total w l + total w l' := by
  simp [total]

theorem spent_eq_total [Field K] (l : List (Site × K)) (x : Site) :
    spent l x = total (fun y => if y = x ∨ y.flip = x then 1 else 0) l := by
  induction l with
  | nil => rfl
  | cons y l ih =>
    unfold spent total at *
    rw [List.map_cons, List.sum_cons, List.filter_cons]
    by_cases h : y.1 = x ∨ y.1.flip = x
    · simp only [h, decide_true, if_true, List.map_cons, List.sum_cons, one_mul]
      rw [ih]
    · simp only [h, decide_false, Bool.false_eq_true, if_false, zero_mul, zero_add]
      exact ih

theorem total_siteB [Field K] (h2 : (2 : K) ≠ 0) {h0 : Heap R} (w : Site → K)
    (hw : ∀ a i b j, w (.bond a i b j) = w (.bond b j a i)) (F : Forest) (back : Bool) (tau : K) (a : ℕ)
    (hle : F.LeafEnd h0) :
    total w (siteB (fun t => !(h0.isLeaf t)) back tau F a) =
      tau * (((F.ids.filter fun t => !(h0.isLeaf t)).map fun t => w (.tensor t)).sum -
        (((F.edges a).filter fun e => !(h0.isLeaf e.2.2.1)).map fun e : ℕ × ℕ × ℕ × ℕ =>
          w (.bond e.1 e.2.1 e.2.2.1 e.2.2.2)).sum) := by
  induction F generalizing back tau a with
  | nil => simp [siteB, total, Forest.ids, Forest.edges]
  | cons i j id sub rest ih1 ih2 =>
    obtain ⟨l1, l2, l3⟩ := hle
    simp only [siteB, Forest.ids, Forest.edges, List.cons_append, List.filter_cons, List.filter_append, List.map_append]
    by_cases hl : h0.isLeaf id = false
    · have hhalf : tau / 2 + tau / 2 = tau := by field_simp; ring
      have b : total w (if back then [(.bond a i id j, -tau)] else []) +
          total w (if back then [] else [(.bond id j a i, -tau)]) = -(w (.bond a i id j) * tau) := by
        cases back
        · simp [total, hw id j a i]
        · simp [total]
      simp only [hl, Bool.not_false, if_true, List.map_cons, List.map_append, List.sum_append, List.sum_cons, total_append,
        ih1 _ _ _ l2, ih2 _ _ _ l3]
      have ht : total w [(Site.tensor id, tau)] = w (.tensor id) * tau := by simp [total]
      rw [ht]
      linear_combination b + hhalf * ((List.map (fun t => w (Site.tensor t)) (List.filter (fun t => !h0.isLeaf t) sub.ids)).sum -
        (List.map (fun e : ℕ × ℕ × ℕ × ℕ => w (Site.bond e.1 e.2.1 e.2.2.1 e.2.2.2))
          (List.filter (fun e => !h0.isLeaf e.2.2.1) (Forest.edges id sub))).sum)
    · have hl' : h0.isLeaf id = true := by simpa using hl
      have hsub := l1 hl'
      subst hsub
      simp only [hl', Bool.not_true, Bool.false_eq_true, if_false, List.nil_append, Forest.ids, Forest.edges,
        List.filter_nil]
      exact ih2 _ _ _ l3

/-- What is propagated at all. -/
theorem mem_siteB [Field K] {h0 : Heap R} {F : Forest} {back : Bool} {tau : K} {a : ℕ} {x : Site × K}
    (hx : x ∈ siteB (fun t => !(h0.isLeaf t)) back tau F a) :
    (∃ t ∈ F.ids, h0.isLeaf t = false ∧ x.1 = .tensor t) ∨
      ∃ e ∈ F.edges a, h0.isLeaf e.2.2.1 = false ∧ (x.1 = .bond e.1 e.2.1 e.2.2.1 e.2.2.2 ∨
        x.1 = .bond e.2.2.1 e.2.2.2 e.1 e.2.1) := by
  induction F generalizing back tau a with
  | nil => simp [siteB] at hx
  | cons i j id sub rest ih1 ih2 =>
    simp only [siteB, Forest.ids, Forest.edges] at hx ⊢
    rcases List.mem_append.1 hx with hx | hx
    · by_cases hl : h0.isLeaf id = false
      · simp only [hl, Bool.not_false, if_true] at hx
        have key : ∀ b t, x ∈ siteB (fun t => !(h0.isLeaf t)) b t sub id → _ := fun b t q => ih1 q
        have lift : ((∃ t ∈ sub.ids, h0.isLeaf t = false ∧ x.1 = .tensor t) ∨
            ∃ e ∈ sub.edges id, h0.isLeaf e.2.2.1 = false ∧ (x.1 = .bond e.1 e.2.1 e.2.2.1 e.2.2.2 ∨
              x.1 = .bond e.2.2.1 e.2.2.2 e.1 e.2.1)) →
          ((∃ t ∈ id :: (sub.ids ++ rest.ids), h0.isLeaf t = false ∧ x.1 = .tensor t) ∨
            ∃ e ∈ (a, i, id, j) :: (sub.edges id ++ rest.edges a), h0.isLeaf e.2.2.1 = false ∧
              (x.1 = .bond e.1 e.2.1 e.2.2.1 e.2.2.2 ∨ x.1 = .bond e.2.2.1 e.2.2.2 e.1 e.2.1)) := by
          rintro (⟨t, q1, q2⟩ | ⟨e, q1, q2⟩)
          · exact .inl ⟨t, by simp [q1], q2⟩
          · exact .inr ⟨e, by simp [q1], q2⟩
        simp only [List.mem_append, List.mem_singleton] at hx
        rcases hx with (hx | (hx | hx) | hx) | hx
        · cases back
          · simp at hx
          · simp only [if_true, List.mem_singleton] at hx
            exact .inr ⟨(a, i, id, j), by simp, hl, .inl (by rw [hx])⟩
        · exact lift (ih1 hx)
        · exact .inl ⟨id, by simp, hl, by rw [hx]⟩
        · exact lift (ih1 hx)
        · cases back
          · simp only [Bool.false_eq_true, if_false, List.mem_singleton] at hx
            exact .inr ⟨(a, i, id, j), by simp, hl, .inr (by rw [hx])⟩
          · simp at hx
      · simp [hl] at hx
    · rcases ih2 hx with ⟨t, q1, q2⟩ | ⟨e, q1, q2⟩
      · exact .inl ⟨t, by simp [q1], q2⟩
      · exact .inr ⟨e, by simp [q1], q2⟩

theorem sum_indicator [Field K] {α : Type} [DecidableEq α] (l : List α) (hl : l.Nodup) (x : α) (q : α → Prop) [DecidablePred q]
    (hq : ∀ y ∈ l, q y ↔ y = x) (hx : x ∈ l) : (l.map fun y => if q y then (1 : K) else 0).sum = 1 := by
  induction l with
  | nil => cases hx
  | cons y l ih =>
    rw [List.nodup_cons] at hl
    rw [List.map_cons, List.sum_cons]
    by_cases hy : y = x
    · subst hy
      rw [if_pos ((hq y (by simp)).2 rfl)]
      have : (l.map fun y => if q y then (1 : K) else 0).sum = 0 := by
        refine List.sum_eq_zero fun z hz => ?_
        obtain ⟨u, hu, rfl⟩ := List.mem_map.1 hz
        rw [if_neg]
        intro h
        have := (hq u (by simp [hu])).1 h
        exact hl.1 (this ▸ hu)
      rw [this, add_zero]
    · rw [if_neg (fun h => hy ((hq y (by simp)).1 h)), zero_add]
      refine ih hl.2 (fun y hy => hq y (by simp [hy])) ?_
      rcases List.mem_cons.1 hx with h | h
      · exact absurd h.symm hy
      · exact h

theorem sum_zero_indicator [Field K] {α : Type} (l : List α) (q : α → Prop) [DecidablePred q]
    (hq : ∀ y ∈ l, ¬ q y) : (l.map fun y => if q y then (1 : K) else 0).sum = 0 := by
  refine List.sum_eq_zero fun z hz => ?_
  obtain ⟨u, hu, rfl⟩ := List.mem_map.1 hz
  rw [if_neg (hq u hu)]

theorem rSplitStep_ok [Field K] {I J : E → Heap R → ℕ → Prop} {H : Hooks K E R} (hH : H.GoodS I J) {s : State K E R} {F : Forest}
    (ht : s.heap.IsTTN s.root F) (hr : s.heap.Rooted s.root F) (hp : s.heap.PlainNames (s.heap.tensors s.root F))
    (hJ : J s.ext s.heap s.root) {fuel : ℕ} (hfu : F.depth < fuel) (snd : Bool) (tau : K) :
    ∃ s', rSplitStep H snd fuel tau s = .ok s' ∧ s'.root = s.root ∧
      Ran I s.heap s.root s s'
        (if snd then siteB (fun t => !(s.heap.isLeaf t)) false (tau / 2) F s.root ++ [(.tensor s.root, tau)] ++
          siteB (fun t => !(s.heap.isLeaf t)) true (tau / 2) F s.root
        else siteF (fun t => !(s.heap.isLeaf t)) tau F s.root ++ [(.tensor s.root, tau)]) := by
  obtain ⟨x, h, ex, iv, ht', hr', hl', -⟩ := formEnv_ok hH ht hr hp hJ
  have hh := fun i id j (q : (i, id, j) ∈ F.heads) => ht.tree.acc_of_mem_heads ht.links.wf q
  have hlt : s.root < s.heap.next := ht.lt
  obtain ⟨s', e1, e2, e3⟩ := rSplit_ok hH ht.links snd fuel tau F s.root none hfu ht.tree.heads ht.tree.rep hh ht.leaf hlt iv rfl
  refine ⟨s', ?_, e2, e3⟩
  unfold rSplitStep
  rw [ex]
  exact e1

/-- **C52, first order.** On the root of a tree tensor network, `r_split_step` returns normally; it has propagated every
tensor that is not a leaf exactly once for `tau`, every link between two of them exactly once for `-tau`, and nothing else
(and only roots: everything else raises `RuntimeError`, see `splitProp_error`). The root is where it was. -/
theorem C52_first_order [Field K] {H : Hooks K E R} (hH : H.Good) {s : State K E R} {F : Forest}
    (ht : s.heap.IsTTN s.root F) (hr : s.heap.Rooted s.root F) (hp : s.heap.PlainNames (s.heap.tensors s.root F))
    {fuel : ℕ} (hfu : F.depth < fuel) (tau : K) :
    ∃ s' es sites, rSplitStep H false fuel tau s = .ok s' ∧ s'.root = s.root ∧
      s'.log = s.log ++ es ∧ Recorded s.heap es sites ∧ OneSite s.heap s.root F tau sites ∧
      (∀ t k, s'.heap.acc t k = s.heap.acc t k) ∧ s'.heap.IsTTN s.root F ∧ s'.heap.Rooted s.root F := by
  obtain ⟨s', e1, e2, iv, es, e3, e4⟩ := rSplitStep_ok hH.goodI.toGoodS ht hr hp trivial hfu false tau
  obtain ⟨f1, f2, -⟩ := iv.final ht e2
  exact ⟨s', es, _, e1, e2, e3, e4, ⟨fun _ => false, by simpa using siteF_oneSite ht tau⟩, iv.acc, f1, f2⟩

/-- **C52, second order.** Whatever is propagated is a tensor that is not a leaf or a link between two of them; the
times of every tensor add up to `tau`, those of every link to `-tau`; the root is where it was. -/
theorem C52_second_order [Field K] (h2 : (2 : K) ≠ 0) {H : Hooks K E R} (hH : H.Good) {s : State K E R} {F : Forest}
    (ht : s.heap.IsTTN s.root F) (hr : s.heap.Rooted s.root F) (hp : s.heap.PlainNames (s.heap.tensors s.root F))
    {fuel : ℕ} (hfu : F.depth < fuel) (tau : K) :
    ∃ s' es sites, rSplitStep H true fuel tau s = .ok s' ∧ s'.root = s.root ∧
      s'.log = s.log ++ es ∧ Recorded s.heap es sites ∧
      (∀ x ∈ sites, (∃ t ∈ s.heap.tensors s.root F, x.1 = .tensor t) ∨ ∃ e ∈ s.heap.bonds s.root F,
        x.1 = .bond e.1 e.2.1 e.2.2.1 e.2.2.2 ∨ x.1 = .bond e.2.2.1 e.2.2.2 e.1 e.2.1) ∧
      (∀ t ∈ s.heap.tensors s.root F, spent sites (.tensor t) = tau) ∧
      (∀ e ∈ s.heap.bonds s.root F, spent sites (.bond e.1 e.2.1 e.2.2.1 e.2.2.2) = -tau) ∧
      (∀ t k, s'.heap.acc t k = s.heap.acc t k) ∧ s'.heap.IsTTN s.root F ∧ s'.heap.Rooted s.root F := by
  obtain ⟨s', e1, e2, iv, es, e3, e4⟩ := rSplitStep_ok hH.goodI.toGoodS ht hr hp trivial hfu true tau
  obtain ⟨f1, f2, -⟩ := iv.final ht e2
  simp only [if_true] at e4
  have hmem : ∀ b, ∀ x ∈ siteB (fun t => !(s.heap.isLeaf t)) b (tau / 2) F s.root,
      (∃ t ∈ s.heap.tensors s.root F, x.1 = .tensor t) ∨ ∃ e ∈ s.heap.bonds s.root F,
        x.1 = .bond e.1 e.2.1 e.2.2.1 e.2.2.2 ∨ x.1 = .bond e.2.2.1 e.2.2.2 e.1 e.2.1 := by
    intro b x hx
    rcases mem_siteB hx with ⟨t, q1, q2, q3⟩ | ⟨e, q1, q2, q3⟩
    · exact .inl ⟨t, Heap.mem_tensors.2 ⟨.inr q1, q2⟩, q3⟩
    · exact .inr ⟨e, Heap.mem_bonds.2 ⟨q1, q2⟩, q3⟩
  have htot : ∀ w : Site → K, (∀ a i b j, w (.bond a i b j) = w (.bond b j a i)) →
      total w (siteB (fun t => !(s.heap.isLeaf t)) false (tau / 2) F s.root ++ [(.tensor s.root, tau)] ++
          siteB (fun t => !(s.heap.isLeaf t)) true (tau / 2) F s.root) =
        tau * (((s.heap.tensors s.root F).map fun t => w (.tensor t)).sum -
          ((s.heap.bonds s.root F).map fun e : ℕ × ℕ × ℕ × ℕ => w (.bond e.1 e.2.1 e.2.2.1 e.2.2.2)).sum) := by
    intro w hw
    have hhalf : tau / 2 + tau / 2 = tau := by field_simp; ring
    have h1 : total w [(Site.tensor s.root, tau)] = w (.tensor s.root) * tau := by simp [total]
    unfold Heap.tensors Heap.bonds
    simp only [List.filter_cons, ht.leaf, Bool.not_false, if_true, List.map_cons, List.sum_cons, total_append, h1,
      total_siteB h2 w hw F _ _ _ ht.tree.leafEnd]
    generalize (List.map (fun t => w (Site.tensor t)) (List.filter (fun t => !s.heap.isLeaf t) F.ids)).sum = X
    generalize (List.map (fun e : ℕ × ℕ × ℕ × ℕ => w (Site.bond e.1 e.2.1 e.2.2.1 e.2.2.2)) _).sum = Y
    linear_combination hhalf * (X - Y)
  have hflip : ∀ x : Site, ∀ a i b j, (if Site.bond a i b j = x ∨ (Site.bond a i b j).flip = x then (1 : K) else 0) =
      if Site.bond b j a i = x ∨ (Site.bond b j a i).flip = x then 1 else 0 := by
    intro x a i b j
    simp only [Site.flip]
    congr 1
    exact propext or_comm
  have hnd : (s.heap.bonds s.root F).Nodup := by
    refine List.Nodup.filter _ (List.Nodup.of_map (fun e : ℕ × ℕ × ℕ × ℕ => e.2.2.1) ?_)
    rw [Heap.edges_targets F s.root]
    exact (List.nodup_cons.1 ht.tree.nodup).2
  refine ⟨s', es, _, e1, e2, e3, e4, ?_, ?_, ?_, iv.acc, f1, f2⟩
  · intro x hx
    simp only [List.mem_append, List.mem_singleton] at hx
    rcases hx with (hx | hx) | hx
    · exact hmem _ x hx
    · exact .inl ⟨s.root, Heap.mem_tensors.2 ⟨.inl rfl, ht.leaf⟩, by rw [hx]⟩
    · exact hmem _ x hx
  · intro t hT
    rw [spent_eq_total, htot _ (hflip _)]
    have hnt : (s.heap.tensors s.root F).Nodup := ht.tree.nodup.filter _
    rw [sum_indicator _ hnt t _ (by intro y _; simp [Site.flip]) hT,
      sum_zero_indicator _ _ (by intro y _; simp [Site.flip])]
    ring
  · intro e he
    rw [spent_eq_total, htot _ (hflip _)]
    rw [sum_zero_indicator _ _ (by intro y _; simp [Site.flip]), sum_indicator _ hnd e _ ?_ he]
    · ring
    · intro y hy
      simp only [Site.flip, Site.bond.injEq]
      constructor
      · rintro (⟨q1, q2, q3, q4⟩ | ⟨q1, q2, q3, q4⟩)
        · exact Prod.ext q1 (Prod.ext q2 (Prod.ext q3 q4))
        · haveI : Std.Symm fun x y : ℕ × ℕ × ℕ × ℕ => x ≠ y →
              List.Disjoint [(x.1, x.2.1), (x.2.2.1, x.2.2.2)] [(y.1, y.2.1), (y.2.2.1, y.2.2.2)] :=
            ⟨fun x y h k => (h (Ne.symm k)).symm⟩
          have q5 := List.Pairwise.forall_of_forall (R := fun x y : ℕ × ℕ × ℕ × ℕ => x ≠ y →
              List.Disjoint [(x.1, x.2.1), (x.2.2.1, x.2.2.2)] [(y.1, y.2.1), (y.2.2.1, y.2.2.2)]) (fun x _ h => absurd rfl h)
            ((List.nodup_flatMap.1 ht.isNet.once).2.imp (S := fun x y : ℕ × ℕ × ℕ × ℕ => x ≠ y → List.Disjoint [(x.1, x.2.1), (x.2.2.1, x.2.2.2)] [(y.1, y.2.1), (y.2.2.1, y.2.2.2)]) fun {_ _} h _ => h) hy he
          by_cases h : y = e
          · exact h
          · exact (q5 h (a := (e.1, e.2.1)) (by simp [q1, q2]) (by simp)).elim
      · rintro rfl; simp

/-! Instance: the network `exTwo` of C02. -/

def exStateQ : State ℚ ℕ ℤ := ⟨Heap.exTwo, 0, 0, []⟩

example : ∃ s' es sites, rSplitStep (exHooks ℚ) false 5 3 exStateQ = .ok s' ∧ s'.root = 0 ∧
    s'.log = [] ++ es ∧ Recorded Heap.exTwo es sites ∧ OneSite Heap.exTwo 0 Heap.exTwoForest 3 sites ∧
    (∀ t k, s'.heap.acc t k = Heap.exTwo.acc t k) ∧ s'.heap.IsTTN 0 Heap.exTwoForest ∧
    s'.heap.Rooted 0 Heap.exTwoForest :=
  C52_first_order (exHooks_good ℚ) (s := exStateQ) Heap.exTwo_ttn Heap.exTwo_rooted Heap.exTwo_plain (by decide) 3

example : ∃ s', rSplitStep (exHooks ℚ) true 5 3 exStateQ = .ok s' :=
  let ⟨s', _, _, h, _⟩ := C52_second_order (by decide) (exHooks_good ℚ) (s := exStateQ) Heap.exTwo_ttn Heap.exTwo_rooted
    Heap.exTwo_plain (by decide) 3
  ⟨s', h⟩

/-- Its log: tensor 1, the link, tensor 0, the link, tensor 1. -/
example : ((rSplitStep (exHooks ℚ) true 5 3 exStateQ).toOption.map fun s => s.log.map fun e => (e.tensor, e.tau)) =
    some [(1, 3 / 2), (5, -3 / 2), (0, 3), (6, -3 / 2), (1, 3 / 2)] := by decide +kernel

end Sweep
