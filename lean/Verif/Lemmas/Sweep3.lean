import Verif.Lemmas.Sweep2

/-! Helper lemmas for the sweeps: the walk of `unite_step`. -/

open Py

namespace Sweep

variable {K E R : Type} [CommRing R]

/-- The number of branches that are not leaves. -/
def count (p : ℕ → Bool) (F : Forest) : ℕ := (F.heads.filter fun x => p x.2.1).length

theorem count_cons (p : ℕ → Bool) (i j id : ℕ) (sub rest : Forest) :
    count p (.cons i j id sub rest) = (if p id then 1 else 0) + count p rest := by
  unfold count
  simp only [Forest.heads, List.filter_cons]
  split
  · rw [List.length_cons]; omega
  · omega

/-- What `unite_step` propagates in the branches `F` below `a`. -/
def siteU [Neg K] (p : ℕ → Bool) (tau : K) (origin : ℕ) : Forest → ℕ → List (Site × K)
  | .nil, _ => []
  | .cons i j id sub rest, a =>
    (if p id then siteU p tau origin sub id ++ [(.pair id j a i, tau)] ++
      (if a ≠ origin ∨ 0 < count p rest then [(.tensor a, -tau)] else []) else []) ++ siteU p tau origin rest a

/-- Every tensor below has its number of branches as counter. -/
def Counted (h0 : Heap R) (c : Dict ℕ ℤ) : Forest → Prop
  | .nil => True
  | .cons _ _ id sub rest => (h0.isLeaf id = false → c.get? id = some (count (fun t => !(h0.isLeaf t)) sub : ℤ)) ∧
      Counted h0 c sub ∧ Counted h0 c rest

variable {I J : E → Heap R → ℕ → Prop} {H : Hooks K E R} {h0 : Heap R} {r0 : ℕ}

theorem Counted.congr {c c' : Dict ℕ ℤ} {F : Forest} (h : Counted h0 c F) (e : ∀ x ∈ F.ids, c'.get? x = c.get? x) :
    Counted h0 c' F := by
  induction F with
  | nil => trivial
  | cons i j id sub rest ih1 ih2 =>
    obtain ⟨q1, q2, q3⟩ := h
    refine ⟨fun hl => ?_, ih1 q2 fun x hx => e x (by simp [Forest.ids, hx]), ih2 q3 fun x hx => e x (by simp [Forest.ids, hx])⟩
    rw [e id (by simp [Forest.ids])]
    exact q1 hl

/-- No branch but leaves: nothing to walk. -/
theorem count_zero [Neg K] {F : Forest} (hle : F.LeafEnd h0) (h : count (fun t => !(h0.isLeaf t)) F = 0) (tau : K) (origin a : ℕ) :
    F.euler (fun t => !(h0.isLeaf t)) a = [] ∧ siteU (fun t => !(h0.isLeaf t)) tau origin F a = [] ∧
      ∀ x ∈ F.ids, h0.isLeaf x = true := by
  induction F with
  | nil => simp [Forest.euler, siteU, Forest.ids]
  | cons i j id sub rest ih1 ih2 =>
    obtain ⟨l1, l2, l3⟩ := hle
    rw [count_cons] at h
    have hl : h0.isLeaf id = true := by
      by_contra hl
      simp [hl] at h
    simp only [hl, Bool.not_true, Bool.false_eq_true, if_false, Nat.zero_add] at h
    obtain ⟨q1, q2, q3⟩ := ih2 l3 h
    have := l1 hl
    subst this
    simp only [Forest.euler, siteU, hl, Bool.not_true, Bool.false_eq_true, if_false, List.nil_append]
    refine ⟨q1, q2, fun x hx => ?_⟩
    simp only [Forest.ids, List.cons_append, List.nil_append, List.mem_cons] at hx
    rcases hx with rfl | hx
    · exact hl
    · exact q3 x hx

theorem keys_set_of_mem {c : Dict ℕ ℤ} {k : ℕ} {v w : ℤ} (h : c.get? k = some w) : (c.set k v).keys = c.keys := by
  rw [Dict.keys_set, if_pos]
  rw [Dict.mem_keys_iff, h]; rfl

theorem uni_ok [Neg K] (hH : H.GoodI I J) {F0 : Forest} (h00 : h0.IsTTN r0 F0) (tau : K) {fuel : ℕ} (hfu : F0.ids.length < fuel)
    (origin : ℕ) (F : Forest) (a : ℕ) (hrep : F.RepIn h0) (hle : F.LeafEnd h0) (hnd : (a :: F.ids).Nodup)
    (hh : ∀ i id j, (i, id, j) ∈ F.heads → h0.acc a i = some (id, j)) (ha : h0.isLeaf a = false)
    {s : State K E R} (iv : Inv I h0 r0 s) (hs : s.root = a) {c : Dict ℕ ℤ} (hc : Counted h0 c F)
    (hca : c.get? a = some (count (fun t => !(h0.isLeaf t)) F : ℤ)) :
    ∃ s' c', (F.euler (fun t => !(h0.isLeaf t)) a).foldlM (unitePass H fuel tau origin) (s, c) = .ok (s', c') ∧ s'.root = a ∧
      Ran I h0 r0 s s' (siteU (fun t => !(h0.isLeaf t)) tau origin F a) ∧ c'.get? a = some 0 ∧
      (∀ x ∈ F.ids, h0.isLeaf x = false → c'.get? x = some 0) ∧ (∀ x, x ∉ a :: F.ids → c'.get? x = c.get? x) ∧
      c'.keys = c.keys := by
  have hi := h00.links
  induction F generalizing a s c with
  | nil => exact ⟨s, c, rfl, hs, .refl iv, hca, by simp [Forest.ids], fun _ _ => rfl, rfl⟩
  | cons i j id sub rest ih1 ih2 =>
    obtain ⟨p1, p2, p3⟩ := hrep
    obtain ⟨l1, l2, l3⟩ := hle
    obtain ⟨c1, c2, c3⟩ := hc
    have hb := hh i id j (by simp [Forest.heads])
    have hrest : ∀ i' id' j', (i', id', j') ∈ rest.heads → h0.acc a i' = some (id', j') := fun i' id' j' q =>
      hh i' id' j' (by simp [Forest.heads, q])
    simp only [Forest.ids, List.cons_append, List.nodup_cons, List.mem_cons, List.mem_append, not_or, List.nodup_append] at hnd
    obtain ⟨⟨n1, n2, n3⟩, ⟨n4, n5⟩, n6, n7, n8⟩ := hnd
    have ndsub : (id :: sub.ids).Nodup := List.nodup_cons.2 ⟨n4, n6⟩
    have ndrest : (a :: rest.ids).Nodup := List.nodup_cons.2 ⟨n3, n7⟩
    rw [count_cons] at hca
    simp only [Forest.euler, siteU]
    by_cases hl : h0.isLeaf id = false
    · simp only [hl, Bool.not_false, if_true, List.cons_append, List.append_assoc, List.foldlM_cons, List.foldlM_append,
        List.foldlM_nil] at hca ⊢
      have hcid := c1 hl
      -- down, and the branch
      obtain ⟨s1, s2, c', d1, d2, d3, d4, d5, d6, d7, d8⟩ : ∃ s1 s2 c',
          unitePass H fuel tau origin (s, c) (false, a, i, id, j) = .ok (s1, c) ∧
          (sub.euler (fun t => !(h0.isLeaf t)) id).foldlM (unitePass H fuel tau origin) (s1, c) = .ok (s2, c') ∧
          (s2.root = id ∨ s2.root = a) ∧ Ran I h0 r0 s s2 (siteU (fun t => !(h0.isLeaf t)) tau origin sub id) ∧
          c'.get? id = some 0 ∧ (∀ x ∈ sub.ids, h0.isLeaf x = false → c'.get? x = some 0) ∧
          (∀ x, x ∉ id :: sub.ids → c'.get? x = c.get? x) ∧ c'.keys = c.keys := by
        by_cases h0c : count (fun t => !(h0.isLeaf t)) sub = 0
        · obtain ⟨z1, z2, z3⟩ := count_zero l2 h0c tau origin id
          rw [h0c] at hcid
          refine ⟨s, s, c, ?_, by rw [z1]; rfl, .inr hs, by rw [z2]; exact .refl iv, hcid, ?_, fun _ _ => rfl, rfl⟩
          · simp [unitePass, Dict.get!, hcid]
          · intro x hx hx'; rw [z3 x hx] at hx'; cases hx'
        · subst hs
          obtain ⟨s1, e1, e2, e3⟩ := move_ok hH.toGoodS hi iv hb hl none fuel
          obtain ⟨s2, c', f1, f2, f3, f4, f5, f6, f7⟩ := ih1 id p2 l2 ndsub (heads_sub hi.wf p1) hl e3.1 e2 c2 hcid
          refine ⟨s1, s2, c', ?_, f1, .inl f2, e3.trans f3, f4, f5, f6, f7⟩
          have e1' : move H fuel s s.root i none = .ok s1 := e1
          have : (count (fun t => !(h0.isLeaf t)) sub : ℤ) > 0 := by omega
          simp only [unitePass, Dict.get!, hcid, Bool.not_false, if_true, ok_bind, this, e1', pure_eq_ok]
      -- up
      have hca' : c'.get? a = some (1 + count (fun t => !(h0.isLeaf t)) rest : ℤ) := by
        rw [d7 a (by simp only [List.mem_cons, not_or]; exact ⟨n1, n2⟩), hca]; simp
      obtain ⟨s3, g1, g2, g3⟩ := unite_ok hH h00 d4.1 (hi.sym _ _ _ _ hb) hl ha d3 (some (tau, true)) hfu
      have g1' : move H fuel s2 id j (some (splitProp H tau true)) true = .ok s3 := g1
      -- `inv_prop` unless this was the last branch of `origin`
      have hgs : (c'.set a (count (fun t => !(h0.isLeaf t)) rest : ℤ)).get? a =
          some (count (fun t => !(h0.isLeaf t)) rest : ℤ) := by rw [Dict.get?_set, if_pos rfl]
      obtain ⟨s4, k1, k2, k3⟩ : ∃ s4, unitePass H fuel tau origin (s2, c') (true, id, j, a, i) =
            .ok (s4, c'.set a (count (fun t => !(h0.isLeaf t)) rest : ℤ)) ∧ s4.root = a ∧
          Ran I h0 r0 s3 s4 (if a ≠ origin ∨ 0 < count (fun t => !(h0.isLeaf t)) rest then [(.tensor a, -tau)] else []) := by
        have hd : (1 + (count (fun t => !(h0.isLeaf t)) rest : ℤ)) - 1 = count (fun t => !(h0.isLeaf t)) rest := by omega
        by_cases hcond : a ≠ origin ∨ 0 < count (fun t => !(h0.isLeaf t)) rest
        · obtain ⟨s4, m1, m2, m3⟩ := prop_ok hH.toGoodS hi g3.1 (-tau) true
          refine ⟨s4, ?_, m2.trans g2, ?_⟩
          · have hcond' : a ≠ origin ∨ (count (fun t => !(h0.isLeaf t)) rest : ℤ) > 0 := by omega
            rw [g2] at m1
            simp only [unitePass, Dict.get!, decr, Bool.not_true, Bool.false_eq_true, if_false, g1', ok_bind, hca',
              pure_eq_ok, hd, hgs]
            rw [if_pos hcond', m1]
            rfl
          · rw [if_pos hcond]; rw [g2] at m3; exact m3
        · refine ⟨s3, ?_, g2, by rw [if_neg hcond]; exact .refl g3.1⟩
          have hcond' : ¬ (a ≠ origin ∨ (count (fun t => !(h0.isLeaf t)) rest : ℤ) > 0) := by omega
          simp only [unitePass, Dict.get!, decr, Bool.not_true, Bool.false_eq_true, if_false, g1', ok_bind, hca',
            pure_eq_ok, hd, hgs]
          rw [if_neg hcond']
      -- the other branches
      have crest : Counted h0 (c'.set a (count (fun t => !(h0.isLeaf t)) rest : ℤ)) rest := by
        refine c3.congr fun x hx => ?_
        have hxa : x ≠ a := by rintro rfl; exact n3 hx
        rw [Dict.get?_set, if_neg (Ne.symm hxa), d7]
        simp only [List.mem_cons, not_or]
        exact ⟨fun q => n5 (q ▸ hx), fun q => n8 x q x hx rfl⟩
      obtain ⟨s5, c5, o1, o2, o3, o4, o5, o6, o7⟩ := ih2 a p3 l3 ndrest hrest ha k3.1 k2 crest hgs
      refine ⟨s5, c5, ?_, o2, ?_, o4, ?_, ?_, ?_⟩
      · rw [d1]
        simp only [ok_bind]
        rw [d2]
        simp only [ok_bind]
        rw [k1]
        exact o1
      · simpa using ((d4.trans g3).trans k3).trans o3
      · intro x hx hxl
        have key : x ∉ rest.ids → x ≠ a → c'.get? x = some 0 → c5.get? x = some 0 := by
          intro q1 q2 q3
          rw [o6 x (by simp only [List.mem_cons, not_or]; exact ⟨q2, q1⟩), Dict.get?_set, if_neg (Ne.symm q2)]
          exact q3
        simp only [Forest.ids, List.cons_append, List.mem_cons, List.mem_append] at hx
        rcases hx with rfl | hx | hx
        · exact key n5 (Ne.symm n1) d5
        · exact key (fun q => n8 x hx x q rfl) (fun q => n2 (q ▸ hx)) (d6 x hx hxl)
        · exact o5 x hx hxl
      · intro x hx
        simp only [Forest.ids, List.cons_append, List.mem_cons, List.mem_append, not_or] at hx
        obtain ⟨x1, x2, x3, x4⟩ := hx
        rw [o6 x (by simp only [List.mem_cons, not_or]; exact ⟨x1, x4⟩), Dict.get?_set, if_neg (Ne.symm x1),
          d7 x (by simp only [List.mem_cons, not_or]; exact ⟨x2, x3⟩)]
      · rw [o7, keys_set_of_mem hca', d8]
    · have hl' : h0.isLeaf id = true := by simpa using hl
      simp only [hl', Bool.not_true, Bool.false_eq_true, if_false, List.nil_append] at hca ⊢
      obtain ⟨s5, c5, o1, o2, o3, o4, o5, o6, o7⟩ := ih2 a p3 l3 ndrest hrest ha iv hs c3 (by simpa using hca)
      have := l1 hl'
      subst this
      refine ⟨s5, c5, o1, o2, o3, o4, ?_, ?_, o7⟩
      · intro x hx hxl
        simp only [Forest.ids, List.cons_append, List.nil_append, List.mem_cons] at hx
        rcases hx with rfl | hx
        · rw [hl'] at hxl; cases hxl
        · exact o5 x hx hxl
      · intro x hx
        simp only [Forest.ids, List.cons_append, List.nil_append, List.mem_cons, not_or] at hx
        exact o6 x (by simp only [List.mem_cons, not_or]; exact ⟨hx.1, hx.2.2⟩)

/-- Every link once; every tensor once for every branch, except that `origin` has one less. -/
theorem siteU_perm [Neg K] (tau : K) (origin : ℕ) (F : Forest) (a : ℕ) (hle : F.LeafEnd h0) (ho : origin ∉ F.ids) :
    (siteU (fun t => !(h0.isLeaf t)) tau origin F a ++
        if a = origin ∧ 0 < count (fun t => !(h0.isLeaf t)) F then [(Site.tensor a, -tau)] else []).Perm
      ((((F.edges a).filter fun e => !(h0.isLeaf e.2.2.1)).map fun e : ℕ × ℕ × ℕ × ℕ =>
          (Site.pair e.2.2.1 e.2.2.2 e.1 e.2.1, tau)) ++
        (((F.edges a).filter fun e => !(h0.isLeaf e.2.2.1)).map fun e => (Site.tensor e.1, -tau))) := by
  induction F generalizing a with
  | nil => simp [siteU, Forest.edges, count, Forest.heads]
  | cons i j id sub rest ih1 ih2 =>
    obtain ⟨l1, l2, l3⟩ := hle
    simp only [Forest.ids, List.cons_append, List.mem_cons, List.mem_append, not_or] at ho
    have h1 := ih1 id l2 ho.2.1
    have h2 := ih2 a l3 ho.2.2
    rw [if_neg (by rintro ⟨q, -⟩; exact ho.1 q.symm), List.append_nil] at h1
    simp only [siteU, Forest.edges, List.filter_cons, List.filter_append, List.map_append, count_cons]
    by_cases hl : h0.isLeaf id = false
    · simp only [hl, Bool.not_false, if_true, List.map_cons, List.map_append]
      have e : (if a ≠ origin ∨ 0 < count (fun t => !(h0.isLeaf t)) rest then [(Site.tensor a, -tau)] else []) ++
          (siteU (fun t => !(h0.isLeaf t)) tau origin rest a ++
            if a = origin ∧ 0 < 1 + count (fun t => !(h0.isLeaf t)) rest then [(Site.tensor a, -tau)] else [])
          |>.Perm ((Site.tensor a, -tau) :: (siteU (fun t => !(h0.isLeaf t)) tau origin rest a ++
            if a = origin ∧ 0 < count (fun t => !(h0.isLeaf t)) rest then [(Site.tensor a, -tau)] else [])) := by
        by_cases h : a = origin
        · by_cases h' : 0 < count (fun t => !(h0.isLeaf t)) rest
          · simp [h, h']
          · simp [h, h']
        · simp [h]
      refine List.Perm.trans ?_ (((h1.append_left [(Site.pair id j a i, tau)]).append (h2.cons (Site.tensor a, -tau))).trans ?_)
      · refine List.Perm.trans (l₂ := (siteU (fun t => !(h0.isLeaf t)) tau origin sub id ++ [(Site.pair id j a i, tau)]) ++
          ((if a ≠ origin ∨ 0 < count (fun t => !(h0.isLeaf t)) rest then [(Site.tensor a, -tau)] else []) ++
          (siteU (fun t => !(h0.isLeaf t)) tau origin rest a ++
            if a = origin ∧ 0 < 1 + count (fun t => !(h0.isLeaf t)) rest then [(Site.tensor a, -tau)] else []))) ?_ ?_
        · simp only [List.append_assoc]; exact .refl _
        · exact (List.perm_append_comm).append e
      · generalize hA : List.map (fun e : ℕ × ℕ × ℕ × ℕ => (Site.pair e.2.2.1 e.2.2.2 e.1 e.2.1, tau))
          (List.filter (fun e => !h0.isLeaf e.2.2.1) (Forest.edges id sub)) = A
        generalize hB : List.map (fun e : ℕ × ℕ × ℕ × ℕ => (Site.pair e.2.2.1 e.2.2.2 e.1 e.2.1, tau))
          (List.filter (fun e => !h0.isLeaf e.2.2.1) (Forest.edges a rest)) = B
        generalize hC : List.map (fun e : ℕ × ℕ × ℕ × ℕ => (Site.tensor e.1, -tau))
          (List.filter (fun e => !h0.isLeaf e.2.2.1) (Forest.edges id sub)) = C
        generalize hD : List.map (fun e : ℕ × ℕ × ℕ × ℕ => (Site.tensor e.1, -tau))
          (List.filter (fun e => !h0.isLeaf e.2.2.1) (Forest.edges a rest)) = D
        rw [← Multiset.coe_eq_coe]
        simp only [← Multiset.coe_add, ← Multiset.cons_coe, Multiset.coe_nil, ← Multiset.singleton_add, add_zero]
        abel
    · have hl' : h0.isLeaf id = true := by simpa using hl
      have hsub := l1 hl'
      subst hsub
      simp only [hl', Bool.not_true, Bool.false_eq_true, if_false, List.nil_append, Forest.edges,
        List.filter_nil, List.map_nil, Nat.zero_add]
      exact h2

/-- The counters. -/
theorem counters_get (h : Heap R) (ts : List ℕ) (t : ℕ) :
    (counters h ts).get? t = if t ∈ ts then some ((h.childrenDflt t false).length : ℤ) else none := by
  have key : ∀ (ts : List ℕ) (c : Dict ℕ ℤ), (ts.foldl (fun (c : Dict ℕ ℤ) t => c.set t ((h.childrenDflt t false).length : ℤ)) c).get? t =
      if t ∈ ts then some ((h.childrenDflt t false).length : ℤ) else c.get? t := by
    intro ts
    induction ts with
    | nil => intro c; simp
    | cons u ts ih =>
      intro c
      rw [List.foldl_cons, ih, Dict.get?_set]
      by_cases h1 : t ∈ ts
      · simp [h1]
      · by_cases h2 : t = u
        · subst h2; simp [h1]
        · have h3 : ¬ u = t := fun q => h2 q.symm
          simp [h1, h2, h3]
  exact key ts []

theorem counters_wf (h : Heap R) (ts : List ℕ) : (counters h ts).Wf := by
  have key : ∀ (ts : List ℕ) (c : Dict ℕ ℤ), c.Wf → (ts.foldl (fun (c : Dict ℕ ℤ) t => c.set t ((h.childrenDflt t false).length : ℤ)) c).Wf := by
    intro ts
    induction ts with
    | nil => intro c hc; exact hc
    | cons u ts ih => intro c hc; exact ih _ (Dict.wf_set hc _ _)
  exact key ts [] Dict.wf_nil

end Sweep
