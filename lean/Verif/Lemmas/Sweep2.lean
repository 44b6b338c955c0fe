import Verif.Lemmas.Sweep
import Mathlib.Algebra.Order.Group.Multiset
import Mathlib.Tactic.Abel

/-! Helper lemmas for the sweeps: the walk of `split_step`, and `r_split_step`. -/

open Py

namespace Sweep

variable {K E R : Type} [CommRing R]

/-- What a forward sweep propagates in the branches `F` below `a`. -/
def siteF [Neg K] (p : ℕ → Bool) (tau : K) : Forest → ℕ → List (Site × K)
  | .nil, _ => []
  | .cons i j id sub rest, a =>
    (if p id then siteF p tau sub id ++ [(.tensor id, tau), (.bond id j a i, -tau)] else []) ++ siteF p tau rest a

/-- The mirror image of a sequence of propagations. -/
def mirror (l : List (Site × K)) : List (Site × K) := (l.map fun x => (x.1.flip, x.2)).reverse

theorem mirror_append (l l' : List (Site × K)) : mirror (l ++ l') = mirror l' ++ mirror l := by
  simp [mirror]

theorem heads_sub {h : Heap R} (hw : h.Wf) {id j : ℕ} {sub : Forest} (e : h.children id (some j) true = sub.heads) :
    ∀ i' id' j', (i', id', j') ∈ sub.heads → h.acc id i' = some (id', j') := by
  intro i' id' j' q
  rw [← e, Heap.mem_children hw (by simp)] at q
  exact q.1

variable {I J : E → Heap R → ℕ → Prop} {H : Hooks K E R} {h0 : Heap R} {r0 : ℕ}

theorem fwd_ok [Neg K] (hH : H.GoodS I J) (hi : h0.LinkInv) (tau : K) (fuel : ℕ) (F : Forest) (a : ℕ) (hrep : F.RepIn h0)
    (hh : ∀ i id j, (i, id, j) ∈ F.heads → h0.acc a i = some (id, j)) (ha : h0.isLeaf a = false)
    {s : State K E R} (iv : Inv I h0 r0 s) (hs : s.root = a) :
    ∃ s', (F.euler (fun t => !(h0.isLeaf t)) a).foldlM (splitPass H fuel tau) s = .ok s' ∧ s'.root = a ∧
      Ran I h0 r0 s s' (siteF (fun t => !(h0.isLeaf t)) tau F a) := by
  induction F generalizing a s with
  | nil => exact ⟨s, rfl, hs, .refl iv⟩
  | cons i j id sub rest ih1 ih2 =>
    obtain ⟨p1, p2, p3⟩ := hrep
    have hb := hh i id j (by simp [Forest.heads])
    have hrest : ∀ i' id' j', (i', id', j') ∈ rest.heads → h0.acc a i' = some (id', j') := fun i' id' j' q =>
      hh i' id' j' (by simp [Forest.heads, q])
    simp only [Forest.euler, siteF]
    by_cases hl : h0.isLeaf id = false
    · simp only [hl, Bool.not_false, if_true, List.cons_append, List.append_assoc, List.foldlM_cons, List.foldlM_append,
        List.foldlM_nil]
      subst hs
      obtain ⟨s1, e1, e2, e3⟩ := move_ok hH hi iv hb hl none fuel
      obtain ⟨s2, f1, f2, f3⟩ := ih1 id p2 (heads_sub hi.wf p1) hl e3.1 e2
      subst f2
      obtain ⟨s3, g1, g2, g3⟩ := prop_ok hH hi f3.1 tau true
      obtain ⟨s4, k1, k2, k3⟩ := move_ok hH hi g3.1 (by rw [g2]; exact hi.sym _ _ _ _ hb) ha (some (-tau, true)) fuel
      obtain ⟨s5, l1, l2, l3⟩ := ih2 s.root p3 hrest ha k3.1 k2
      refine ⟨s5, ?_, l2, ?_⟩
      · have q1 : splitPass H fuel tau s (false, s.root, i, s2.root, j) = .ok s1 := e1
        have q2 : splitPass H fuel tau s2 (true, s2.root, j, s.root, i) = .ok s4 := by
          unfold splitPass
          simp only [Bool.not_true, Bool.false_eq_true, if_false]
          rw [g1]
          rw [g2] at k1
          exact k1
        rw [q1]
        simp only [ok_bind]
        rw [f1]
        simp only [ok_bind]
        rw [q2]
        simp only [ok_bind, pure_eq_ok]
        exact l1
      · have := (((e3.trans f3).trans g3).trans k3).trans l3
        rw [g2] at this
        simpa using this
    · have hl' : h0.isLeaf id = true := by simpa using hl
      simp only [hl', Bool.not_true, Bool.false_eq_true, if_false, List.nil_append]
      exact ih2 a p3 hrest ha iv hs

theorem bwd_ok [Neg K] (hH : H.GoodS I J) (hi : h0.LinkInv) (tau : K) (fuel : ℕ) (F : Forest) (a : ℕ) (hrep : F.RepIn h0)
    (hh : ∀ i id j, (i, id, j) ∈ F.heads → h0.acc a i = some (id, j)) (ha : h0.isLeaf a = false)
    {s : State K E R} (iv : Inv I h0 r0 s) (hs : s.root = a) :
    ∃ s', (F.euler (fun t => !(h0.isLeaf t)) a).reverse.foldlM (splitPassB H fuel tau) s = .ok s' ∧ s'.root = a ∧
      Ran I h0 r0 s s' (mirror (siteF (fun t => !(h0.isLeaf t)) tau F a)) := by
  induction F generalizing a s with
  | nil => exact ⟨s, rfl, hs, .refl iv⟩
  | cons i j id sub rest ih1 ih2 =>
    obtain ⟨p1, p2, p3⟩ := hrep
    have hb := hh i id j (by simp [Forest.heads])
    have hrest : ∀ i' id' j', (i', id', j') ∈ rest.heads → h0.acc a i' = some (id', j') := fun i' id' j' q =>
      hh i' id' j' (by simp [Forest.heads, q])
    simp only [Forest.euler, siteF]
    by_cases hl : h0.isLeaf id = false
    · simp only [hl, Bool.not_false, if_true, List.reverse_append, List.reverse_cons, List.append_assoc,
        List.cons_append, List.nil_append, List.reverse_nil, List.foldlM_cons, List.foldlM_append,
        List.foldlM_nil, mirror_append]
      obtain ⟨s0, l1, l2, l3⟩ := ih2 a p3 hrest ha iv hs
      subst l2
      obtain ⟨s1, e1, e2, e3⟩ := move_ok hH hi l3.1 hb hl (some (-tau, true)) fuel
      obtain ⟨s2, g1, g2, g3⟩ := prop_ok hH hi e3.1 tau true
      obtain ⟨s3, f1, f2, f3⟩ := ih1 id p2 (heads_sub hi.wf p1) hl g3.1 (g2.trans e2)
      subst f2
      obtain ⟨s4, k1, k2, k3⟩ := move_ok hH hi f3.1 (hi.sym _ _ _ _ hb) ha none fuel
      refine ⟨s4, ?_, k2, ?_⟩
      · have q1 : splitPassB H fuel tau s0 (true, s3.root, j, s0.root, i) = .ok s2 := by
          unfold splitPassB
          simp only [if_true]
          rw [← e2]
          have e1' : move H fuel s0 s0.root i (some (splitProp H (-tau) true)) = .ok s1 := e1
          rw [e1']
          exact g1
        have q2 : splitPassB H fuel tau s3 (false, s0.root, i, s3.root, j) = .ok s4 := k1
        rw [l1]
        simp only [ok_bind]
        rw [q1]
        simp only [ok_bind]
        rw [f1]
        simp only [ok_bind]
        rw [q2]
        rfl
      · have := (((l3.trans e3).trans g3).trans f3).trans k3
        rw [e2] at this
        simpa [mirror, Site.flip] using this
    · have hl' : h0.isLeaf id = true := by simpa using hl
      simp only [hl', Bool.not_true, Bool.false_eq_true, if_false, List.nil_append]
      exact ih2 a p3 hrest ha iv hs

/-- Every tensor below `a` once, every link once. -/
theorem siteF_perm [Neg K] (tau : K) (F : Forest) (a : ℕ) (hle : F.LeafEnd h0) :
    (siteF (fun t => !(h0.isLeaf t)) tau F a).Perm
      (((F.ids.filter fun t => !(h0.isLeaf t)).map fun t => (Site.tensor t, tau)) ++
        (((F.edges a).filter fun e => !(h0.isLeaf e.2.2.1)).map fun e =>
          (Site.bond e.2.2.1 e.2.2.2 e.1 e.2.1, -tau))) := by
  induction F generalizing a with
  | nil => exact .refl _
  | cons i j id sub rest ih1 ih2 =>
    obtain ⟨l1, l2, l3⟩ := hle
    have h1 := ih1 id l2
    have h2 := ih2 a l3
    simp only [siteF, Forest.ids, Forest.edges, List.cons_append, List.filter_cons, List.filter_append, List.map_append]
    by_cases hl : h0.isLeaf id = false
    · simp only [hl, Bool.not_false, if_true, List.map_cons, List.map_append]
      refine ((h1.append_right _).append h2).trans ?_
      generalize hA : List.map (fun t => (Site.tensor t, tau)) (List.filter (fun t => !h0.isLeaf t) sub.ids) = A
      generalize hB : List.map (fun t => (Site.tensor t, tau)) (List.filter (fun t => !h0.isLeaf t) rest.ids) = B
      generalize hC : List.map (fun e : ℕ × ℕ × ℕ × ℕ => (Site.bond e.2.2.1 e.2.2.2 e.1 e.2.1, -tau))
        (List.filter (fun e => !h0.isLeaf e.2.2.1) (Forest.edges id sub)) = C
      generalize hD : List.map (fun e : ℕ × ℕ × ℕ × ℕ => (Site.bond e.2.2.1 e.2.2.2 e.1 e.2.1, -tau))
        (List.filter (fun e => !h0.isLeaf e.2.2.1) (Forest.edges a rest)) = D
      rw [← Multiset.coe_eq_coe]
      simp only [← Multiset.coe_add, ← Multiset.cons_coe, Multiset.coe_nil, ← Multiset.singleton_add, add_zero]
      abel
    · have hl' : h0.isLeaf id = true := by simpa using hl
      have hsub := l1 hl'
      subst hsub
      simp only [hl', Bool.not_true, Bool.false_eq_true, if_false, List.nil_append, Forest.ids, Forest.edges,
        List.filter_nil, List.map_nil]
      exact h2

/-! ### `r_split_step` -/

theorem Inv.children {s : State K E R} (hi : h0.LinkInv) (iv : Inv I h0 r0 s) {a : ℕ} (ha : a < h0.next) (axis : Option ℕ) :
    s.heap.children a axis false = h0.children a axis false := by
  unfold Heap.children
  rw [iv.linkages hi, iv.leaf a ha]
  split
  · rfl
  · refine List.filter_congr fun x hx => ?_
    have h1 := (Heap.mem_linkages hi.wf (i := x.1) (t := x.2.1) (j := x.2.2)).1 hx
    rw [iv.leaf _ (hi.lt h1).2]

/-- What `branch_prop` of the second-order method propagates in the branches `F` below `a`. -/
def siteB [Field K] (p : ℕ → Bool) : Bool → K → Forest → ℕ → List (Site × K)
  | _, _, .nil, _ => []
  | back, tau, .cons i j id sub rest, a =>
    (if p id then
      (if back then [(.bond a i id j, -tau)] else []) ++
        (siteB p false (tau / 2) sub id ++ [(.tensor id, tau)] ++ siteB p true (tau / 2) sub id) ++
        (if back then [] else [(.bond id j a i, -tau)])
      else []) ++ siteB p back tau rest a

/-- The loop of `branch_prop`, given what the recursive calls do. -/
theorem branchLoop_ok (hH : H.GoodS I J) (hi : h0.LinkInv) (o1 o2 : Option (K × Bool)) (F : Forest) (a : ℕ)
    (ha : h0.isLeaf a = false) (recur : ℕ → ℕ → State K E R → Res (State K E R)) (S : ℕ → Forest → List (Site × K))
    (hh : ∀ i id j, (i, id, j) ∈ F.heads → h0.acc a i = some (id, j))
    (hrec : ∀ i j id sub, F.Has i j id sub → h0.isLeaf id = false → ∀ s : State K E R, Inv I h0 r0 s → s.root = id →
      ∃ s', recur id j s = .ok s' ∧ s'.root = id ∧ Ran I h0 r0 s s' (S id sub))
    (T : Forest → List (Site × K)) (hT0 : T .nil = [])
    (hT : ∀ i j id sub rest, T (.cons i j id sub rest) = (if h0.isLeaf id = false then
      (o1.elim [] fun p => [(.bond a i id j, p.1)]) ++ S id sub ++ (o2.elim [] fun p => [(.bond id j a i, p.1)]) else []) ++
      T rest)
    {s : State K E R} (iv : Inv I h0 r0 s) (hs : s.root = a) :
    ∃ s', branchLoop H recur (opOf H o1) (opOf H o2) a (F.heads.filter fun x => !(h0.isLeaf x.2.1)) s = .ok s' ∧
      s'.root = a ∧ Ran I h0 r0 s s' (T F) := by
  induction F generalizing s with
  | nil => rw [hT0]; exact ⟨s, rfl, hs, .refl iv⟩
  | cons i j id sub rest ih1 ih2 =>
    clear ih1
    have hb := hh i id j (by simp [Forest.heads])
    have hrest : ∀ i' id' j', (i', id', j') ∈ rest.heads → h0.acc a i' = some (id', j') := fun i' id' j' q =>
      hh i' id' j' (by simp [Forest.heads, q])
    have ih := @ih2 hrest (fun i' j' id' sub' q => hrec i' j' id' sub' (.inr q))
    rw [hT]
    simp only [Forest.heads, List.filter_cons]
    by_cases hl : h0.isLeaf id = false
    · simp only [hl, Bool.not_false, if_true]
      subst hs
      obtain ⟨s1, e1, e2, e3⟩ := move_ok hH hi iv hb hl o1 0
      obtain ⟨s2, f1, f2, f3⟩ := hrec i j id sub (.inl ⟨rfl, rfl, rfl, rfl⟩) hl s1 e3.1 e2
      subst f2
      obtain ⟨s3, g1, g2, g3⟩ := move_ok hH hi f3.1 (hi.sym _ _ _ _ hb) ha o2 0
      obtain ⟨s4, k1, k2, k3⟩ := ih g3.1 g2
      refine ⟨s4, ?_, k2, ?_⟩
      · rw [branchLoop, e1]
        simp only [ok_bind]
        rw [f1]
        simp only [ok_bind]
        rw [g1]
        exact k1
      · simpa using ((e3.trans f3).trans g3).trans k3
    · have hl' : h0.isLeaf id = true := by simpa using hl
      simp only [hl', Bool.not_true, Bool.false_eq_true, if_false, List.nil_append]
      exact ih iv hs

theorem Has.depth {i j id : ℕ} {sub F : Forest} (h : F.Has i j id sub) : sub.depth < F.depth := by
  induction F with
  | nil => exact h.elim
  | cons i' j' id' sub' rest _ ih =>
    simp only [Forest.depth]
    rcases h with ⟨rfl, rfl, rfl, rfl⟩ | h
    · omega
    · have := ih h; omega

theorem Has.repIn_sub {i j id : ℕ} {sub F : Forest} (h : F.Has i j id sub) (hr : F.RepIn h0) :
    h0.children id (some j) true = sub.heads ∧ sub.RepIn h0 := by
  induction F with
  | nil => exact h.elim
  | cons i' j' id' sub' rest _ ih =>
    obtain ⟨p1, p2, p3⟩ := hr
    rcases h with ⟨rfl, rfl, rfl, rfl⟩ | h
    · exact ⟨p1, p2⟩
    · exact ih h p3

theorem rSplit_ok [Field K] (hH : H.GoodS I J) (hi : h0.LinkInv) (snd : Bool) (fuel : ℕ) (tau : K) (F : Forest) (a : ℕ)
    (axis : Option ℕ) (hfu : F.depth < fuel) (hch : h0.children a axis true = F.heads) (hrep : F.RepIn h0)
    (hh : ∀ i id j, (i, id, j) ∈ F.heads → h0.acc a i = some (id, j)) (ha : h0.isLeaf a = false) (hlt : a < h0.next)
    {s : State K E R} (iv : Inv I h0 r0 s) (hs : s.root = a) :
    ∃ s', rSplit H snd fuel tau a axis s = .ok s' ∧ s'.root = a ∧
      Ran I h0 r0 s s' (if snd then siteB (fun t => !(h0.isLeaf t)) false (tau / 2) F a ++ [(.tensor a, tau)] ++
          siteB (fun t => !(h0.isLeaf t)) true (tau / 2) F a
        else siteF (fun t => !(h0.isLeaf t)) tau F a ++ [(.tensor a, tau)]) := by
  induction fuel generalizing tau F a axis s with
  | zero => omega
  | succ f ih =>
    have hch' : h0.children a axis false = F.heads.filter fun x => !(h0.isLeaf x.2.1) := by
      rw [Heap.children_false, hch]
    have hrec : ∀ tau : K, ∀ i j id sub, F.Has i j id sub → h0.isLeaf id = false → ∀ s : State K E R, Inv I h0 r0 s →
        s.root = id → ∃ s', rSplit H snd f tau id (some j) s = .ok s' ∧ s'.root = id ∧
          Ran I h0 r0 s s' (if snd then siteB (fun t => !(h0.isLeaf t)) false (tau / 2) sub id ++ [(.tensor id, tau)] ++
              siteB (fun t => !(h0.isLeaf t)) true (tau / 2) sub id
            else siteF (fun t => !(h0.isLeaf t)) tau sub id ++ [(.tensor id, tau)]) := by
      intro tau i j id sub hf hl s iv hs
      obtain ⟨q1, q2⟩ := Has.repIn_sub hf hrep
      have := Has.depth hf
      exact ih tau sub id (some j) (by omega) q1 q2 (heads_sub hi.wf q1) hl
        (hi.lt (hh i id j hf.mem_heads)).2 iv hs
    cases snd with
    | false =>
      simp only [Bool.false_eq_true, if_false] at hrec ⊢
      obtain ⟨s1, e1, e2, e3⟩ := branchLoop_ok hH hi none (some (-tau, false)) F a ha
        (fun t j => rSplit H false f tau t (some j))
        (fun id sub => siteF (fun t => !(h0.isLeaf t)) tau sub id ++ [(.tensor id, tau)]) hh (hrec tau)
        (fun F => siteF (fun t => !(h0.isLeaf t)) tau F a) rfl (by
          intro i j id sub rest
          simp only [siteF]
          by_cases hl : h0.isLeaf id = false
          · simp [hl]
          · have hl' : h0.isLeaf id = true := by simpa using hl
            simp [hl']) iv hs
      subst e2
      obtain ⟨s2, f1, f2, f3⟩ := prop_ok hH hi e3.1 tau true
      refine ⟨s2, ?_, f2, e3.trans f3⟩
      rw [rSplit]
      simp only [Bool.false_eq_true, if_false]
      have q : branchProp H (fun t j => rSplit H false f tau t (some j)) s1.root axis tau false s = .ok s1 := by
        unfold branchProp
        rw [iv.children hi hlt, hch']
        exact e1
      rw [q]
      exact f1
    | true =>
      simp only [if_true] at hrec ⊢
      obtain ⟨s1, e1, e2, e3⟩ := branchLoop_ok hH hi none (some (-(tau / 2), false)) F a ha
        (fun t j => rSplit H true f (tau / 2) t (some j))
        (fun id sub => siteB (fun t => !(h0.isLeaf t)) false (tau / 2 / 2) sub id ++ [(.tensor id, tau / 2)] ++
              siteB (fun t => !(h0.isLeaf t)) true (tau / 2 / 2) sub id) hh (hrec (tau / 2))
        (fun F => siteB (fun t => !(h0.isLeaf t)) false (tau / 2) F a) rfl (by
          intro i j id sub rest
          simp only [siteB]
          by_cases hl : h0.isLeaf id = false
          · simp [hl]
          · have hl' : h0.isLeaf id = true := by simpa using hl
            simp [hl']) iv hs
      subst e2
      obtain ⟨s2, f1, f2, f3⟩ := prop_ok hH hi e3.1 tau true
      obtain ⟨s3, g1, g2, g3⟩ := branchLoop_ok hH hi (some (-(tau / 2), false)) none F s1.root ha
        (fun t j => rSplit H true f (tau / 2) t (some j))
        (fun id sub => siteB (fun t => !(h0.isLeaf t)) false (tau / 2 / 2) sub id ++ [(.tensor id, tau / 2)] ++
              siteB (fun t => !(h0.isLeaf t)) true (tau / 2 / 2) sub id) hh (hrec (tau / 2))
        (fun F => siteB (fun t => !(h0.isLeaf t)) true (tau / 2) F s1.root) rfl (by
          intro i j id sub rest
          simp only [siteB]
          by_cases hl : h0.isLeaf id = false
          · simp [hl]
          · have hl' : h0.isLeaf id = true := by simpa using hl
            simp [hl']) f3.1 f2
      refine ⟨s3, ?_, g2, (e3.trans f3).trans g3⟩
      rw [rSplit]
      simp only [if_true]
      have q : branchProp H (fun t j => rSplit H true f (tau / 2) t (some j)) s1.root axis (tau / 2) false s = .ok s1 := by
        unfold branchProp
        rw [iv.children hi hlt, hch']
        exact e1
      rw [q]
      simp only [ok_bind]
      rw [f1]
      simp only [ok_bind]
      unfold branchProp
      rw [f3.1.children hi hlt, hch']
      exact g1

end Sweep
