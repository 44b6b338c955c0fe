import Verif.Model.AutographAux
import Verif.Props.C54
import Mathlib.Logic.Relation

/-!
C122: `autograph_with_aux` pairs every degree of freedom with a mirror of the same dimension. That the network contains all of them is true
only if both groups of vibrations have two members.
-/

namespace SpinBoson

open Py

/-- `y` is a child of `x` in the graph. -/
def Child (g : Graph) (x y : String) : Prop := ∃ v, g.get? x = some v ∧ y ∈ v

/-- `y` belongs to the network with the root `x`. -/
def Below (g : Graph) (x y : String) : Prop := Relation.ReflTransGen (Child g) x y

/-- The names of the degrees of freedom, of their nodes, of their mirrors and of the other nodes are all different. -/
def Distinct (leaves : List String) : Prop :=
  (leaves ++ leaves.map (· ++ "s") ++ leaves.map (· ++ "'") ++ ["ROOT", "INNER", "OUTER", "AI1", "AO1"]).Nodup

private theorem get?_update_of_not_mem {α κ ν : Type} [DecidableEq κ] (f : α → κ) (h : α → ν) {k : κ} : ∀ (l : List α) (d : Dict κ ν),
    k ∉ l.map f → (update d (l.map fun x => (f x, h x))).get? k = d.get? k
  | [], _, _ => rfl
  | x :: l, d, hk => by
    rw [List.map_cons, List.mem_cons, not_or] at hk
    change (update (d.set (f x) (h x)) (l.map fun x => (f x, h x))).get? k = _
    rw [get?_update_of_not_mem f h l _ hk.2, Dict.get?_set, if_neg (Ne.symm hk.1)]

private theorem get?_update {α κ ν : Type} [DecidableEq κ] (f : α → κ) (h : α → ν) {y : α} : ∀ (l : List α) (d : Dict κ ν),
    (l.map f).Nodup → y ∈ l → (update d (l.map fun x => (f x, h x))).get? (f y) = some (h y)
  | x :: l, d, hn, hy => by
    rw [List.map_cons, List.nodup_cons] at hn
    change (update (d.set (f x) (h x)) (l.map fun x => (f x, h x))).get? (f y) = _
    rcases List.mem_cons.1 hy with rfl | hy
    · rw [get?_update_of_not_mem f h l _ hn.1, Dict.get?_set, if_pos rfl]
    · exact get?_update f h l _ hn.2 hy

private theorem zip_aux : ∀ leaves : List String,
    ((leaves.map (· ++ "s")).zip (leaves.zip (leaves.map (· ++ "'")))).map (fun t => (t.1, [t.2.1, t.2.2])) =
      leaves.map fun x => (x ++ "s", [x, x ++ "'"])
  | [] => rfl
  | x :: l => by simp only [List.map_cons, List.zip_cons_cons, zip_aux l]

private theorem drop_mirror (x : String) : dropLastChar (x ++ "'") = x := by
  unfold dropLastChar
  rw [String.toList_append]
  simp

private theorem mapM_dims {dims : Dict String ℕ} {d : String → ℕ} : ∀ leaves : List String, (∀ x ∈ leaves, dims.get? x = some (d x)) →
    (leaves.map (· ++ "'")).mapM (fun name => (do
      let e ← dims.get! (dropLastChar name)
      pure (name, e) : Res (String × ℕ))) = .ok (leaves.map fun x => (x ++ "'", d x))
  | [], _ => rfl
  | x :: l, h => by
    have e : dims.get! x = .ok (d x) := by unfold Dict.get!; rw [h x (by simp)]
    rw [List.map_cons, List.mapM_cons, drop_mirror, e]
    have := mapM_dims l fun y hy => h y (List.mem_cons_of_mem _ hy)
    simp only [ok_bind, pure_eq_ok] at this ⊢
    rw [this]
    rfl

private theorem isSome_getD {o : Option ℕ} (h : o.isSome) : o = some (o.getD 0) := by
  cases o with
  | none => simp at h
  | some x => rfl

/-- What `_update` does. -/
private theorem upd (g : Graph) (group : List String) (root pre : String) (hg : group ≠ []) (hr : g.get? root = none) :
    ∃ (g' : Graph) (v : List String), updateGraph g (group.map (· ++ "s")) root pre = .ok g' ∧
      (∀ k, k ≠ root → g'.get? k = g.get? k) ∧ (g'.get? root = some v ∨ g'.get? root = none ∧ v = []) ∧
      (∀ y ∈ v, y = pre ++ "1" ∨ y ∈ group.map (· ++ "s")) ∧ (group.length = 2 → g'.get? root = some (group.map (· ++ "s"))) ∧
      ((group.map (· ++ "s")).Nodup → group.length ≠ 2 → ∃ x ∈ group, x ++ "s" ∉ v) := by
  rcases update_cases g (group.map (· ++ "s")) root pre with ⟨e, -⟩ | ⟨a, e, f⟩ | ⟨a, b, e, f⟩ | ⟨hl, v, f, v1, v2, v3⟩
  · exact absurd (List.map_eq_nil_iff.1 e) hg
  · have hl : group.length = 1 := by simpa using congrArg List.length e
    obtain ⟨y, hy⟩ := List.exists_mem_of_ne_nil _ hg
    exact ⟨g, [], f, fun _ _ => rfl, .inr ⟨hr, rfl⟩, by simp, fun h => by omega, fun _ _ => ⟨y, hy, by simp⟩⟩
  · have hl : group.length = 2 := by simpa using congrArg List.length e
    refine ⟨_, [a, b], f, fun k hk => by rw [Dict.get?_set, if_neg hk.symm], .inl (by rw [Dict.get?_set, if_pos rfl]), ?_,
      fun _ => by rw [Dict.get?_set, if_pos rfl, e], fun _ h => absurd hl h⟩
    intro y hy
    exact .inr (e ▸ hy)
  · have hl' : 3 ≤ group.length := by simpa using hl
    refine ⟨_, v, f, fun k hk => by rw [Dict.get?_set, if_neg hk.symm], .inl (by rw [Dict.get?_set, if_pos rfl]), v3, fun h => by omega,
      fun hn _ => ?_⟩
    by_contra hc
    push Not at hc
    have : (group.map (· ++ "s")).length ≤ v.length := by
      refine List.Subperm.length_le (List.subperm_of_subset hn fun y hy => ?_)
      obtain ⟨x, hx, rfl⟩ := List.mem_map.1 hy
      exact hc x hx
    omega

/-- The vibrations below `INNER` and those below `OUTER` are degrees of freedom, each in one group, and `ELEC` is the only other one. -/
structure Grouped (leaves inner outer : List String) (b : Bool) : Prop where
  all : leaves = "ELEC" :: ((groups inner outer b).1 ++ (groups inner outer b).2)
  distinct : Distinct leaves

private theorem aux_ok {leaves inner outer : List String} {dims : Dict String ℕ} {b : Bool} (h : Grouped leaves inner outer b)
    (hd : ∀ x ∈ leaves, (dims.get? x).isSome) (h1 : (groups inner outer b).1 ≠ []) (h2 : (groups inner outer b).2 ≠ []) :
    ∃ (g : Graph) (dims' : Dict String ℕ) (v w : List String), autographWithAux leaves inner outer dims b = .ok (g, "ROOT", dims') ∧
      (∀ x ∈ leaves, g.get? (x ++ "s") = some [x, x ++ "'"]) ∧ (∀ x ∈ leaves, dims'.get? (x ++ "'") = dims.get? x) ∧
      (∀ k, k ∉ leaves.map (· ++ "'") → dims'.get? k = dims.get? k) ∧ g.get? "ROOT" = some ["ELECs", "INNER", "OUTER"] ∧
      (g.get? "INNER" = some v ∨ g.get? "INNER" = none ∧ v = []) ∧ (g.get? "OUTER" = some w ∨ g.get? "OUTER" = none ∧ w = []) ∧
      (∀ k, k ∉ leaves.map (· ++ "s") → k ∉ ["ROOT", "INNER", "OUTER"] → g.get? k = none) ∧
      (∀ y ∈ v, y = "AI1" ∨ y ∈ (groups inner outer b).1.map (· ++ "s")) ∧
      (∀ y ∈ w, y = "AO1" ∨ y ∈ (groups inner outer b).2.map (· ++ "s")) ∧
      ((groups inner outer b).1.length = 2 → g.get? "INNER" = some ((groups inner outer b).1.map (· ++ "s"))) ∧
      ((groups inner outer b).2.length = 2 → g.get? "OUTER" = some ((groups inner outer b).2.map (· ++ "s"))) ∧
      ((groups inner outer b).1.length ≠ 2 → ∃ x ∈ (groups inner outer b).1, x ++ "s" ∉ v) ∧
      ((groups inner outer b).2.length ≠ 2 → ∃ x ∈ (groups inner outer b).2, x ++ "s" ∉ w) := by
  obtain ⟨hl, hD⟩ := h
  unfold Distinct at hD
  have hspf : (leaves.map (· ++ "s")).Nodup := (List.nodup_append.1 (List.nodup_append.1 (List.nodup_append.1 hD).1).1).2.1
  have haux : (leaves.map (· ++ "'")).Nodup := (List.nodup_append.1 (List.nodup_append.1 hD).1).2.1
  have hres : ∀ r ∈ ["ROOT", "INNER", "OUTER", "AI1", "AO1"], r ∉ leaves.map (· ++ "s") := fun r hr hm =>
    (List.nodup_append.1 hD).2.2 r (List.mem_append_left _ (List.mem_append_right _ hm)) r hr rfl
  set G1 := (groups inner outer b).1 with hG1
  set G2 := (groups inner outer b).2 with hG2
  have hn : (G1.map (· ++ "s")).Nodup ∧ (G2.map (· ++ "s")).Nodup := by
    rw [hl, List.map_cons, List.map_append, List.nodup_cons] at hspf
    exact ⟨(List.nodup_append.1 hspf.2).1, (List.nodup_append.1 hspf.2).2.1⟩
  set g0 : Graph := [("ROOT", ["ELECs", "INNER", "OUTER"])] with hg0
  obtain ⟨g1, v, e1, k1, r1, m1, t1, l1⟩ := upd g0 G1 "INNER" "AI" h1 (by decide)
  obtain ⟨g2, w, e2, k2, r2, m2, t2, l2⟩ := upd g1 G2 "OUTER" "AO" h2 (by rw [k1 _ (by decide)]; decide)
  refine ⟨update g2 (leaves.map fun x => (x ++ "s", [x, x ++ "'"])), update dims (leaves.map fun x => (x ++ "'", (dims.get? x).getD 0)), v, w,
    ?_, ?_, ?_, ?_, ?_, ?_, ?_, ?_, m1, m2, ?_, ?_, l1 hn.1, l2 hn.2⟩
  · have f1 : (if b then inner else inner.take (inner.length / 2)) = G1 := by rw [hG1]; cases b <;> rfl
    have f2 : (if b then outer else inner.drop (inner.length / 2)) = G2 := by rw [hG2]; cases b <;> rfl
    unfold autographWithAux
    dsimp only
    rw [f1, f2, ← hg0, e1, ok_bind, e2, ok_bind, zip_aux,
      mapM_dims (d := fun x => (dims.get? x).getD 0) leaves (fun x hx => isSome_getD (hd x hx)), ok_bind]
    rfl
  · exact fun x hx => get?_update (fun x => x ++ "s") (fun x => [x, x ++ "'"]) leaves g2 hspf hx
  · intro x hx
    rw [get?_update (fun x => x ++ "'") (fun x => (dims.get? x).getD 0) leaves dims haux hx]
    exact (isSome_getD (hd x hx)).symm
  · exact fun k hk => get?_update_of_not_mem (fun x => x ++ "'") (fun x => (dims.get? x).getD 0) leaves dims hk
  · rw [get?_update_of_not_mem _ _ _ _ (hres _ (by decide)), k2 _ (by decide), k1 _ (by decide)]; rfl
  · rw [get?_update_of_not_mem _ _ _ _ (hres _ (by decide)), k2 _ (by decide)]; exact r1
  · rw [get?_update_of_not_mem _ _ _ _ (hres _ (by decide))]; exact r2
  · intro k hk hk'
    simp only [List.mem_cons, List.not_mem_nil, or_false, not_or] at hk'
    rw [get?_update_of_not_mem _ _ _ _ hk, k2 _ hk'.2.2, k1 _ hk'.2.1, hg0]
    simp only [Dict.get?]
    rw [if_neg (Ne.symm hk'.1)]
  · intro h; rw [get?_update_of_not_mem _ _ _ _ (hres _ (by decide)), k2 _ (by decide)]; exact t1 h
  · intro h; rw [get?_update_of_not_mem _ _ _ _ (hres _ (by decide))]; exact t2 h

variable {leaves inner outer : List String} {dims : Dict String ℕ} {b : Bool}

/-- The consequences of `Distinct`. -/
private structure Apart (leaves : List String) : Prop where
  nodup : leaves.Nodup
  ls : ∀ a ∈ leaves, ∀ c ∈ leaves, a ≠ c ++ "s"
  la : ∀ a ∈ leaves, ∀ c ∈ leaves, a ≠ c ++ "'"
  sa : ∀ a ∈ leaves, ∀ c ∈ leaves, a ++ "s" ≠ c ++ "'"
  lr : ∀ a ∈ leaves, a ∉ ["ROOT", "INNER", "OUTER", "AI1", "AO1"]
  sr : ∀ a ∈ leaves, a ++ "s" ∉ ["ROOT", "INNER", "OUTER", "AI1", "AO1"]
  ar : ∀ a ∈ leaves, a ++ "'" ∉ ["ROOT", "INNER", "OUTER", "AI1", "AO1"]
  is : ∀ a ∈ leaves, ∀ c ∈ leaves, a ++ "s" = c ++ "s" → a = c
  ia : ∀ a ∈ leaves, ∀ c ∈ leaves, a ++ "'" = c ++ "'" → a = c

private theorem apart (h : Distinct leaves) : Apart leaves := by
  obtain ⟨h3, -, d3⟩ := List.nodup_append.1 h
  obtain ⟨h2, ha, d2⟩ := List.nodup_append.1 h3
  obtain ⟨h1, hs, d1⟩ := List.nodup_append.1 h2
  exact {
    nodup := h1
    ls := fun a h c k => d1 a h _ (List.mem_map_of_mem k)
    la := fun a h c k => d2 a (List.mem_append_left _ h) _ (List.mem_map_of_mem k)
    sa := fun a h c k => d2 _ (List.mem_append_right _ (List.mem_map_of_mem h)) _ (List.mem_map_of_mem k)
    lr := fun a h k => d3 a (List.mem_append_left _ (List.mem_append_left _ h)) a k rfl
    sr := fun a h k => d3 _ (List.mem_append_left _ (List.mem_append_right _ (List.mem_map_of_mem h))) _ k rfl
    ar := fun a h k => d3 _ (List.mem_append_right _ (List.mem_map_of_mem h)) _ k rfl
    is := fun a h c k e => List.inj_on_of_nodup_map hs h k e
    ia := fun a h c k e => List.inj_on_of_nodup_map ha h k e }

private theorem child_cases {g : Graph} {v w : List String} (p1 : ∀ x ∈ leaves, g.get? (x ++ "s") = some [x, x ++ "'"])
    (p4 : g.get? "ROOT" = some ["ELECs", "INNER", "OUTER"]) (p5 : g.get? "INNER" = some v ∨ g.get? "INNER" = none ∧ v = [])
    (p6 : g.get? "OUTER" = some w ∨ g.get? "OUTER" = none ∧ w = [])
    (p7 : ∀ k, k ∉ leaves.map (· ++ "s") → k ∉ ["ROOT", "INNER", "OUTER"] → g.get? k = none) {p y : String} (h : Child g p y) :
    p = "ROOT" ∧ y ∈ ["ELECs", "INNER", "OUTER"] ∨ p = "INNER" ∧ y ∈ v ∨ p = "OUTER" ∧ y ∈ w ∨
      ∃ x ∈ leaves, p = x ++ "s" ∧ (y = x ∨ y = x ++ "'") := by
  obtain ⟨u, e, hu⟩ := h
  by_cases hp : p ∈ leaves.map (· ++ "s")
  · obtain ⟨x, hx, rfl⟩ := List.mem_map.1 hp
    rw [p1 x hx, Option.some.injEq] at e
    subst e
    exact .inr (.inr (.inr ⟨x, hx, rfl, by simpa using hu⟩))
  · by_cases hq : p ∈ ["ROOT", "INNER", "OUTER"]
    · simp only [List.mem_cons, List.not_mem_nil, or_false] at hq
      rcases hq with rfl | rfl | rfl
      · rw [p4, Option.some.injEq] at e
        exact .inl ⟨rfl, e ▸ hu⟩
      · rcases p5 with p5 | ⟨p5, -⟩
        · rw [p5, Option.some.injEq] at e
          exact .inr (.inl ⟨rfl, e ▸ hu⟩)
        · rw [p5] at e
          cases e
      · rcases p6 with p6 | ⟨p6, -⟩
        · rw [p6, Option.some.injEq] at e
          exact .inr (.inr (.inl ⟨rfl, e ▸ hu⟩))
        · rw [p6] at e
          cases e
    · rw [p7 p hp hq] at e
      cases e

/-- Every degree of freedom `x` has a node with the two children `x` and its mirror `x'`, and the mirror gets the dimension of `x`; no other
dimension changes. -/
theorem C122_pairs (h : Grouped leaves inner outer b) (hd : ∀ x ∈ leaves, (dims.get? x).isSome)
    (h1 : (groups inner outer b).1 ≠ []) (h2 : (groups inner outer b).2 ≠ []) :
    ∃ (g : Graph) (dims' : Dict String ℕ), autographWithAux leaves inner outer dims b = .ok (g, "ROOT", dims') ∧
      (∀ x ∈ leaves, g.get? (x ++ "s") = some [x, x ++ "'"]) ∧ (∀ x ∈ leaves, dims'.get? (x ++ "'") = dims.get? x) ∧
      ∀ k, k ∉ leaves.map (· ++ "'") → dims'.get? k = dims.get? k := by
  obtain ⟨g, dims', v, w, e, p1, p2, p3, -⟩ := aux_ok h hd h1 h2
  exact ⟨g, dims', e, p1, p2, p3⟩

/-- If both groups have two members, all the degrees of freedom and all their mirrors belong to the network, and each node has one parent
only: the graph is a tree. -/
theorem C122_tree_partial (h : Grouped leaves inner outer b) (hd : ∀ x ∈ leaves, (dims.get? x).isSome)
    (h1 : (groups inner outer b).1.length = 2) (h2 : (groups inner outer b).2.length = 2) :
    ∃ (g : Graph) (dims' : Dict String ℕ), autographWithAux leaves inner outer dims b = .ok (g, "ROOT", dims') ∧
      (∀ x ∈ leaves, Below g "ROOT" x ∧ Below g "ROOT" (x ++ "'")) ∧
      ∀ y p q, Child g p y → Child g q y → p = q := by
  obtain ⟨g, dims', v, w, e, p1, -, -, p4, -, -, p7, -, -, p8, p9, -⟩ := aux_ok h hd (fun e => by simp [e] at h1) (fun e => by simp [e] at h2)
  obtain ⟨hl, hD⟩ := h
  refine ⟨g, dims', e, fun x hx => ?_, ?_⟩
  · have hs : Below g "ROOT" (x ++ "s") := by
      rw [hl, List.mem_cons, List.mem_append] at hx
      rcases hx with rfl | hx | hx
      · exact .single ⟨_, p4, by decide⟩
      · exact .tail (.single ⟨_, p4, by simp⟩) ⟨_, p8 h1, List.mem_map_of_mem hx⟩
      · exact .tail (.single ⟨_, p4, by simp⟩) ⟨_, p9 h2, List.mem_map_of_mem hx⟩
    exact ⟨hs.tail ⟨_, p1 x hx, by simp⟩, hs.tail ⟨_, p1 x hx, by simp⟩⟩
  · have A := apart hD
    have hn := A.nodup
    rw [hl, List.nodup_cons, List.nodup_append] at hn
    have mE : "ELEC" ∈ leaves := by rw [hl]; simp
    have m1 : ∀ x ∈ (groups inner outer b).1, x ∈ leaves := fun x hx => by rw [hl]; simp [hx]
    have m2 : ∀ x ∈ (groups inner outer b).2, x ∈ leaves := fun x hx => by rw [hl]; simp [hx]
    -- the class of a child determines the parent
    have root : ∀ y, y ∈ ["ELECs", "INNER", "OUTER"] → y = "ELEC" ++ "s" ∨ y ∈ ["ROOT", "INNER", "OUTER", "AI1", "AO1"] := by
      intro y hy
      simp only [List.mem_cons, List.not_mem_nil, or_false] at hy
      rcases hy with rfl | rfl | rfl
      · exact .inl (by decide)
      · exact .inr (by decide)
      · exact .inr (by decide)
    have class_ : ∀ {p y}, Child g p y → (p = "ROOT" ∧ (y = "ELEC" ++ "s" ∨ y ∈ ["ROOT", "INNER", "OUTER", "AI1", "AO1"])) ∨
        (p = "INNER" ∧ ∃ x ∈ (groups inner outer b).1, y = x ++ "s") ∨ (p = "OUTER" ∧ ∃ x ∈ (groups inner outer b).2, y = x ++ "s") ∨
        ∃ x ∈ leaves, p = x ++ "s" ∧ (y = x ∨ y = x ++ "'") := by
      intro p y hc
      rcases child_cases p1 p4 (.inl (p8 h1)) (.inl (p9 h2)) p7 hc with ⟨rfl, hy⟩ | ⟨rfl, hy⟩ | ⟨rfl, hy⟩ | hy
      · exact .inl ⟨rfl, root y hy⟩
      · obtain ⟨x, hx, rfl⟩ := List.mem_map.1 hy
        exact .inr (.inl ⟨rfl, x, hx, rfl⟩)
      · obtain ⟨x, hx, rfl⟩ := List.mem_map.1 hy
        exact .inr (.inr (.inl ⟨rfl, x, hx, rfl⟩))
      · exact .inr (.inr (.inr hy))
    -- the parent as a function of the child
    have parent : ∀ {p y}, Child g p y → (y ∈ ["ROOT", "INNER", "OUTER", "AI1", "AO1"] → p = "ROOT") ∧ (y = "ELEC" ++ "s" → p = "ROOT") ∧
        (∀ x ∈ (groups inner outer b).1, y = x ++ "s" → p = "INNER") ∧ (∀ x ∈ (groups inner outer b).2, y = x ++ "s" → p = "OUTER") ∧
        ∀ x ∈ leaves, y = x ∨ y = x ++ "'" → p = x ++ "s" := by
      intro p y hc
      rcases class_ hc with ⟨rfl, rfl | hy⟩ | ⟨rfl, x, hx, rfl⟩ | ⟨rfl, x, hx, rfl⟩ | ⟨x, hx, rfl, rfl | rfl⟩
      · exact ⟨fun _ => rfl, fun _ => rfl, fun z hz e => absurd (A.is _ mE _ (m1 z hz) e) fun e => hn.1 (by rw [e]; simp [hz]),
          fun z hz e => absurd (A.is _ mE _ (m2 z hz) e) fun e => hn.1 (by rw [e]; simp [hz]),
          fun z hz e => e.elim (fun e => absurd e.symm (A.ls z hz _ mE)) fun e => absurd e (A.sa _ mE z hz)⟩
      · exact ⟨fun _ => rfl, fun _ => rfl, fun z hz e => absurd (e ▸ hy) (A.sr z (m1 z hz)), fun z hz e => absurd (e ▸ hy) (A.sr z (m2 z hz)),
          fun z hz e => e.elim (fun e => absurd (e ▸ hy) (A.lr z hz)) fun e => absurd (e ▸ hy) (A.ar z hz)⟩
      · exact ⟨fun h => absurd h (A.sr x (m1 x hx)), fun e => absurd (A.is _ (m1 x hx) _ mE e) fun e => hn.1 (by rw [← e]; simp [hx]),
          fun _ _ _ => rfl, fun z hz e => absurd (A.is _ (m1 x hx) _ (m2 z hz) e) (hn.2.2.2 x hx z hz),
          fun z hz e => e.elim (fun e => absurd e.symm (A.ls z hz _ (m1 x hx))) fun e => absurd e (A.sa _ (m1 x hx) z hz)⟩
      · exact ⟨fun h => absurd h (A.sr x (m2 x hx)), fun e => absurd (A.is _ (m2 x hx) _ mE e) fun e => hn.1 (by rw [← e]; simp [hx]),
          fun z hz e => absurd (A.is _ (m2 x hx) _ (m1 z hz) e).symm (hn.2.2.2 z hz x hx), fun _ _ _ => rfl,
          fun z hz e => e.elim (fun e => absurd e.symm (A.ls z hz _ (m2 x hx))) fun e => absurd e (A.sa _ (m2 x hx) z hz)⟩
      · exact ⟨fun h => absurd h (A.lr _ hx), fun e => absurd e (A.ls _ hx _ mE), fun z hz e => absurd e (A.ls _ hx z (m1 z hz)),
          fun z hz e => absurd e (A.ls _ hx z (m2 z hz)),
          fun z hz e => e.elim (fun e => by rw [e]) fun e => absurd e (A.la _ hx z hz)⟩
      · exact ⟨fun h => absurd h (A.ar x hx), fun e => absurd e.symm (A.sa _ mE x hx), fun z hz e => absurd e.symm (A.sa z (m1 z hz) x hx),
          fun z hz e => absurd e.symm (A.sa z (m2 z hz) x hx),
          fun z hz e => e.elim (fun e => absurd e.symm (A.la z hz x hx)) fun e => by rw [A.ia _ hx z hz e]⟩
    intro y p q hp hq
    obtain ⟨a1, a2, a3, a4, a5⟩ := parent hp
    rcases class_ hq with ⟨rfl, hy | hy⟩ | ⟨rfl, x, hx, hy⟩ | ⟨rfl, x, hx, hy⟩ | ⟨x, hx, rfl, hy⟩
    · exact a2 hy
    · exact a1 hy
    · exact a3 x hx hy
    · exact a4 x hx hy
    · exact a5 x hx hy

/-- In all the other cases `autograph_with_aux` fails: it raises `IndexError` (a group without members), or a degree of freedom and its mirror do not
belong to the network. -/
theorem C122_violated (h : Grouped leaves inner outer b) (hd : ∀ x ∈ leaves, (dims.get? x).isSome)
    (hne : ¬ ((groups inner outer b).1.length = 2 ∧ (groups inner outer b).2.length = 2)) :
    autographWithAux leaves inner outer dims b = .error .indexError ∨
    ∃ (g : Graph) (dims' : Dict String ℕ), autographWithAux leaves inner outer dims b = .ok (g, "ROOT", dims') ∧
      ∃ x ∈ (groups inner outer b).1 ++ (groups inner outer b).2, ¬ Below g "ROOT" x ∧ ¬ Below g "ROOT" (x ++ "'") := by
  by_cases h1 : (groups inner outer b).1 = []
  · left
    have f1 : (if b then inner else inner.take (inner.length / 2)) = (groups inner outer b).1 := by cases b <;> rfl
    unfold autographWithAux
    dsimp only
    rw [f1, h1]
    rfl
  by_cases h2 : (groups inner outer b).2 = []
  · left
    have f1 : (if b then inner else inner.take (inner.length / 2)) = (groups inner outer b).1 := by cases b <;> rfl
    have f2 : (if b then outer else inner.drop (inner.length / 2)) = (groups inner outer b).2 := by cases b <;> rfl
    obtain ⟨g1, v, e1, -⟩ := upd [("ROOT", ["ELECs", "INNER", "OUTER"])] _ "INNER" "AI" h1 (by decide)
    unfold autographWithAux
    dsimp only
    rw [f1, f2, e1, ok_bind, h2]
    rfl
  right
  obtain ⟨g, dims', v, w, e, p1, -, -, p4, p5, p6, p7, m1, m2, -, -, l1, l2⟩ := aux_ok h hd h1 h2
  obtain ⟨hl, hD⟩ := h
  have A := apart hD
  have hn := A.nodup
  rw [hl, List.nodup_cons, List.nodup_append] at hn
  have mE : "ELEC" ∈ leaves := by rw [hl]; simp
  have i1 : ∀ x ∈ (groups inner outer b).1, x ∈ leaves := fun x hx => by rw [hl]; simp [hx]
  have i2 : ∀ x ∈ (groups inner outer b).2, x ∈ leaves := fun x hx => by rw [hl]; simp [hx]
  -- a node without parent
  have lost : ∃ x ∈ (groups inner outer b).1 ++ (groups inner outer b).2, x ++ "s" ∉ v ∧ x ++ "s" ∉ w := by
    by_cases k1 : (groups inner outer b).1.length = 2
    · obtain ⟨x, hx, hxw⟩ := l2 fun k2 => hne ⟨k1, k2⟩
      refine ⟨x, List.mem_append_right _ hx, fun hxv => ?_, hxw⟩
      rcases m1 _ hxv with e | e
      · exact A.sr x (i2 x hx) (by rw [e]; decide)
      · obtain ⟨z, hz, e⟩ := List.mem_map.1 e
        exact hn.2.2.2 z hz x hx (A.is z (i1 z hz) x (i2 x hx) e)
    · obtain ⟨x, hx, hxv⟩ := l1 k1
      refine ⟨x, List.mem_append_left _ hx, hxv, fun hxw => ?_⟩
      rcases m2 _ hxw with e | e
      · exact A.sr x (i1 x hx) (by rw [e]; decide)
      · obtain ⟨z, hz, e⟩ := List.mem_map.1 e
        exact hn.2.2.2 x hx z hz (A.is z (i2 z hz) x (i1 x hx) e).symm
  obtain ⟨x, hx, hxv, hxw⟩ := lost
  have hxl : x ∈ leaves := by rw [hl]; exact List.mem_cons_of_mem _ hx
  have noS : ¬ Below g "ROOT" (x ++ "s") := by
    intro hb
    rcases Relation.ReflTransGen.cases_tail hb with e | ⟨p, -, hc⟩
    · exact A.sr x hxl (by rw [e]; decide)
    · rcases child_cases p1 p4 p5 p6 p7 hc with ⟨-, hy⟩ | ⟨-, hy⟩ | ⟨-, hy⟩ | ⟨z, hz, -, hy | hy⟩
      · simp only [List.mem_cons, List.not_mem_nil, or_false] at hy
        rcases hy with hy | hy | hy
        · have : x = "ELEC" := A.is x hxl _ mE (hy.trans (by decide))
          exact hn.1 (this ▸ hx)
        · exact A.sr x hxl (by rw [hy]; decide)
        · exact A.sr x hxl (by rw [hy]; decide)
      · exact hxv hy
      · exact hxw hy
      · exact A.ls z hz x hxl hy.symm
      · exact A.sa x hxl z hz hy
  have sub : ∀ (u g1 : List String) (c : String), (∀ y ∈ u, y = c ∨ y ∈ g1.map (· ++ "s")) → c ∈ ["ROOT", "INNER", "OUTER", "AI1", "AO1"] →
      (∀ z ∈ g1, z ∈ leaves) → x ∉ u ∧ x ++ "'" ∉ u := by
    intro u g1 c hu hc hg
    refine ⟨fun hm => ?_, fun hm => ?_⟩
    · rcases hu _ hm with e | e
      · exact A.lr x hxl (e ▸ hc)
      · obtain ⟨z, hz, e⟩ := List.mem_map.1 e
        exact A.ls x hxl z (hg z hz) e.symm
    · rcases hu _ hm with e | e
      · exact A.ar x hxl (e ▸ hc)
      · obtain ⟨z, hz, e⟩ := List.mem_map.1 e
        exact A.sa z (hg z hz) x hxl e
  refine ⟨g, dims', e, x, hx, fun hb => ?_, fun hb => ?_⟩
  · rcases Relation.ReflTransGen.cases_tail hb with e | ⟨p, hp, hc⟩
    · exact A.lr x hxl (by rw [e]; decide)
    · rcases child_cases p1 p4 p5 p6 p7 hc with ⟨-, hy⟩ | ⟨-, hy⟩ | ⟨-, hy⟩ | ⟨z, hz, rfl, hy | hy⟩
      · simp only [List.mem_cons, List.not_mem_nil, or_false] at hy
        rcases hy with hy | hy | hy
        · exact A.ls x hxl _ mE (hy.trans (by decide))
        · exact A.lr x hxl (by rw [hy]; decide)
        · exact A.lr x hxl (by rw [hy]; decide)
      · exact (sub v _ "AI1" m1 (by decide) i1).1 hy
      · exact (sub w _ "AO1" m2 (by decide) i2).1 hy
      · exact noS (hy ▸ hp)
      · exact A.la x hxl z hz hy
  · rcases Relation.ReflTransGen.cases_tail hb with e | ⟨p, hp, hc⟩
    · exact A.ar x hxl (by rw [e]; decide)
    · rcases child_cases p1 p4 p5 p6 p7 hc with ⟨-, hy⟩ | ⟨-, hy⟩ | ⟨-, hy⟩ | ⟨z, hz, rfl, hy | hy⟩
      · simp only [List.mem_cons, List.not_mem_nil, or_false] at hy
        rcases hy with hy | hy | hy
        · exact A.sa _ mE x hxl ((hy.trans (by decide)).symm)
        · exact A.ar x hxl (by rw [hy]; decide)
        · exact A.ar x hxl (by rw [hy]; decide)
      · exact (sub v _ "AI1" m1 (by decide) i1).2 hy
      · exact (sub w _ "AO1" m2 (by decide) i2).2 hy
      · exact A.la z hz x hxl hy.symm
      · exact noS ((A.ia x hxl z hz hy) ▸ hp)

/-- Four vibrations, as the constructor names them. -/
def exLeaves (n : ℕ) : List String := "ELEC" :: (List.range n).map fun k => "I" ++ toString k

example : Grouped (exLeaves 4) (exLeaves 4).tail [] false ∧
    ((groups (exLeaves 4).tail [] false).1.length = 2 ∧ (groups (exLeaves 4).tail [] false).2.length = 2) ∧
    ∀ x ∈ exLeaves 4, (Dict.get? ((exLeaves 4).map fun x => (x, 2)) x).isSome := by
  exact ⟨⟨by decide +kernel, by unfold Distinct; decide +kernel⟩, by decide +kernel, by decide +kernel⟩

/-- With six vibrations one is lost. -/
example : Grouped (exLeaves 6) (exLeaves 6).tail [] false ∧
    ¬ ((groups (exLeaves 6).tail [] false).1.length = 2 ∧ (groups (exLeaves 6).tail [] false).2.length = 2) ∧
    ∀ x ∈ exLeaves 6, (Dict.get? ((exLeaves 6).map fun x => (x, 2)) x).isSome := by
  exact ⟨⟨by decide +kernel, by unfold Distinct; decide +kernel⟩, by decide +kernel, by decide +kernel⟩

end SpinBoson
