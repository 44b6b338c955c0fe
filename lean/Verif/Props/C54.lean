import Verif.Model.SpinBoson
import Verif.Py.Lemmas
import Mathlib.Data.List.Nodup
import Mathlib.Tactic.Tauto

/-!
C54: the automatic network graphs keep every degree of freedom. This holds for `autograph_full`; for `autograph` only if both branches have
exactly two leaves, and never for `autograph_mctdh`.
-/

namespace SpinBoson

open Py

/-- Everything that is the child of some node. -/
def listed (g : Graph) : List String := (g.map Prod.snd).flatten

/-- The graph contains every leaf of the list exactly once. -/
def Keeps (g : Graph) (leaves : List String) : Prop := ∀ leaf ∈ leaves, (listed g).count leaf = 1

/-- `autograph_full` keeps all the leaves. -/
theorem C54_full_partial {elec : String} {inner : List String} (hnd : (elec :: inner).Nodup) :
    ∃ g, autographFull elec inner false = .ok (g, "ROOT") ∧ Keeps g (elec :: inner) := by
  refine ⟨_, rfl, fun leaf h => ?_⟩
  simp only [listed, List.map_cons, List.map_nil, List.flatten_cons, List.flatten_nil, List.append_nil]
  exact List.count_eq_one_of_mem hnd h

/-! The loop of `huffman_tree` with a constant name. -/

private theorem loop_const {c : String} : ∀ (fuel k : ℕ) (s : List (String × ℕ)) (g : Dict String (List String)),
    2 ≤ s.length → s.length ≤ fuel → (g = [] ∨ ∃ w, g = [(c, w)]) →
    ∃ v : List String, Huffman.loop (fun _ => c) 2 fuel k s g = .ok ([(c, v)], c) ∧ v.length = 2 ∧
      (∀ x ∈ v, x = c ∨ x ∈ s.map Prod.fst) ∧ (3 ≤ s.length ∨ c ∈ s.map Prod.fst → c ∈ v)
  | 0, _, s, _, h, hf, _ => by omega
  | fuel + 1, k, [x], g, h, _, _ => by simp at h
  | fuel + 1, k, x :: y :: s, g, _, hf, hg => by
    set q := (x :: y :: s).insertionSort (fun a b => a.2 ≤ b.2) with hq
    have hp : q.Perm (x :: y :: s) := List.perm_insertionSort _ _
    have hl : q.length = s.length + 2 := by simpa using hp.length_eq
    have hset : ∀ w, Dict.set g c w = [(c, w)] := by
      intro w
      rcases hg with rfl | ⟨w', rfl⟩ <;> simp [Dict.set]
    have step : Huffman.loop (fun _ => c) 2 (fuel + 1) k (x :: y :: s) g =
        Huffman.loop (fun _ => c) 2 fuel (k + 1) ((c, ((q.take 2).map Prod.snd).sum) :: q.drop 2) [(c, (q.take 2).map Prod.fst)] := by
      rw [Huffman.loop, hset]
    rw [step]
    cases s with
    | nil =>
      have hd : q.drop 2 = [] := List.drop_eq_nil_of_le (by simp [hl])
      have ht : q.take 2 = q := List.take_of_length_le (by simp [hl])
      cases fuel with
      | zero => simp at hf
      | succ fuel =>
        refine ⟨(q.take 2).map Prod.fst, by rw [hd]; rfl, by simp [hl], ?_, ?_⟩
        · intro z hz
          rw [ht] at hz
          exact .inr (((hp.map Prod.fst).mem_iff).1 hz)
        · rw [ht]
          intro h
          rcases h with h | h
          · simp at h
          · exact ((hp.map Prod.fst).mem_iff).2 h
    | cons z s =>
      have hdl : (q.drop 2).length = s.length + 1 := by simp [hl]
      obtain ⟨v, e, v1, v2, v3⟩ := loop_const fuel (k + 1) ((c, ((q.take 2).map Prod.snd).sum) :: q.drop 2)
        [(c, (q.take 2).map Prod.fst)] (by simp [hdl]) (by simp at hf; simp [hdl]; omega) (.inr ⟨_, rfl⟩)
      refine ⟨v, e, v1, fun w hw => ?_, fun _ => v3 (.inr (by simp))⟩
      rcases v2 w hw with h | h
      · exact .inl h
      · rw [List.map_cons, List.mem_cons] at h
        rcases h with h | h
        · exact .inl h
        · refine .inr (((hp.map Prod.fst).mem_iff).1 ?_)
          rw [List.mem_map] at h ⊢
          obtain ⟨p, hp1, hp2⟩ := h
          exact ⟨p, List.mem_of_mem_drop hp1, hp2⟩

private theorem loop_pair {c a b : String} (fuel : ℕ) : Huffman.loop (fun _ => c) 2 (fuel + 2) 0 [(a, 1), (b, 1)] [] =
    .ok ([(c, [a, b])], c) := by
  rw [Huffman.loop]
  have : [(a, 1), (b, 1)].insertionSort (fun x y : String × ℕ => x.2 ≤ y.2) = [(a, 1), (b, 1)] := by
    simp [List.insertionSort, List.orderedInsert]
  rw [this]
  rfl

/-- What `_update` does, by the number of leaves. -/
theorem update_cases (graph : Graph) (leaves : List String) (root pre : String) :
    (leaves = [] ∧ updateGraph graph leaves root pre = .error .indexError) ∨
    (∃ a, leaves = [a] ∧ updateGraph graph leaves root pre = .ok graph) ∨
    (∃ a b, leaves = [a, b] ∧ updateGraph graph leaves root pre = .ok (graph.set root [a, b])) ∨
    (3 ≤ leaves.length ∧ ∃ v : List String, updateGraph graph leaves root pre = .ok (graph.set root v) ∧ v.length = 2 ∧ pre ++ "1" ∈ v ∧
      ∀ x ∈ v, x = pre ++ "1" ∨ x ∈ leaves) := by
  have fin : ∀ v : List String, Huffman.huffmanTree leaves (List.replicate leaves.length (1 : ℕ)) (fun _ => pre ++ "1") 2 (leaves.length + 1) =
      .ok ([(pre ++ "1", v)], pre ++ "1") → updateGraph graph leaves root pre = .ok (graph.set root v) := by
    intro v h
    unfold updateGraph
    rw [h]
    simp only [ok_bind, Dict.get?, if_true, Dict.del, Dict.set, update, List.foldl_cons, List.foldl_nil]
    rfl
  match leaves, fin with
  | [], _ => exact .inl ⟨rfl, rfl⟩
  | [a], _ => exact .inr (.inl ⟨a, rfl, rfl⟩)
  | [a, b], fin => exact .inr (.inr (.inl ⟨a, b, rfl, fin _ (loop_pair 1)⟩))
  | a :: b :: d :: l, fin =>
    refine .inr (.inr (.inr ⟨by simp, ?_⟩))
    set leaves := a :: b :: d :: l
    have hz : (leaves.zip (List.replicate leaves.length (1 : ℕ))).map Prod.fst = leaves := List.map_fst_zip (by simp)
    have hl : (leaves.zip (List.replicate leaves.length (1 : ℕ))).length = l.length + 3 := by simp [leaves]
    obtain ⟨v, e, v1, v2, v3⟩ := loop_const (c := pre ++ "1") (leaves.length + 1) 0 (leaves.zip (List.replicate leaves.length (1 : ℕ))) []
      (by omega) (by simp [hl, leaves]) (.inl rfl)
    rw [hz] at v2 v3
    exact ⟨v, fin v e, v1, v3 (.inl (by omega)), v2⟩

/-- The two groups of leaves below `INNER` and `OUTER`. -/
def groups (inner outer : List String) (includingBath : Bool) : List String × List String :=
  if includingBath then (inner, outer) else (inner.take (inner.length / 2), inner.drop (inner.length / 2))

/-- Names used for the nodes of the graph. -/
def reserved : List String := ["ROOT", "INNER", "OUTER", "AI1", "AO1", "AI11", "AI21"]

/-- The prefixes for the two groups. -/
private def prefixes (b : Bool) : String × String := if b then ("AI", "AO") else ("AI1", "AI2")

private theorem autograph_eq (elec : String) (inner outer : List String) (b : Bool) : autograph elec inner outer b = (do
    let g ← updateGraph [("ROOT", [elec, "INNER", "OUTER"])] (groups inner outer b).1 "INNER" (prefixes b).1
    let g ← updateGraph g (groups inner outer b).2 "OUTER" (prefixes b).2
    pure (g, "ROOT")) := by
  cases b <;> rfl

/-- If both groups have exactly two leaves, `autograph` keeps all the leaves. -/
theorem C54_autograph_partial {elec : String} {inner outer : List String} {b : Bool} (h1 : (groups inner outer b).1.length = 2)
    (h2 : (groups inner outer b).2.length = 2)
    (hnd : (elec :: ((groups inner outer b).1 ++ (groups inner outer b).2)).Nodup)
    (hres : ∀ x ∈ elec :: ((groups inner outer b).1 ++ (groups inner outer b).2), x ∉ reserved) :
    ∃ g, autograph elec inner outer b = .ok (g, "ROOT") ∧
      Keeps g (elec :: ((groups inner outer b).1 ++ (groups inner outer b).2)) := by
  rw [autograph_eq]
  rcases update_cases [("ROOT", [elec, "INNER", "OUTER"])] (groups inner outer b).1 "INNER" (prefixes b).1 with
    ⟨e, -⟩ | ⟨a, e, -⟩ | ⟨p, q, e, f⟩ | ⟨e, -⟩
  · simp [e] at h1
  · simp [e] at h1
  · rcases update_cases (Dict.set [("ROOT", [elec, "INNER", "OUTER"])] "INNER" [p, q]) (groups inner outer b).2 "OUTER" (prefixes b).2 with
      ⟨e', -⟩ | ⟨a, e', -⟩ | ⟨r, s, e', f'⟩ | ⟨e', -⟩
    · simp [e'] at h2
    · simp [e'] at h2
    · refine ⟨_, by rw [f, ok_bind, f', ok_bind]; rfl, fun leaf hl => ?_⟩
      rw [e, e'] at hnd hres hl
      have hr := hres leaf hl
      have : (listed (Dict.set (Dict.set [("ROOT", [elec, "INNER", "OUTER"])] "INNER" [p, q]) "OUTER" [r, s])) =
          [elec, "INNER", "OUTER", p, q, r, s] := by
        simp [listed, Dict.set]
      rw [this]
      have h3 : ([elec, "INNER", "OUTER", p, q, r, s]).Perm (["INNER", "OUTER"] ++ (elec :: ([p, q] ++ [r, s]))) := by
        exact (List.Perm.swap _ _ _).trans (List.Perm.cons _ (List.Perm.swap _ _ _))
      rw [h3.count_eq, List.count_append, List.count_eq_one_of_mem hnd hl, List.count_eq_zero_of_not_mem]
      intro h
      apply hr
      simp only [List.mem_cons, List.not_mem_nil, or_false] at h
      rcases h with rfl | rfl <;> simp [reserved]
    · omega
  · omega

/-- In all the other cases `autograph` fails: it raises `IndexError` (a group without leaves) or the graph it returns misses a leaf. -/
theorem C54_autograph_violated {elec : String} {inner outer : List String} {b : Bool}
    (h : ¬ ((groups inner outer b).1.length = 2 ∧ (groups inner outer b).2.length = 2))
    (hnd : (elec :: ((groups inner outer b).1 ++ (groups inner outer b).2)).Nodup)
    (hres : ∀ x ∈ elec :: ((groups inner outer b).1 ++ (groups inner outer b).2), x ∉ reserved) :
    autograph elec inner outer b = .error .indexError ∨ ∃ g, autograph elec inner outer b = .ok (g, "ROOT") ∧
      ∃ leaf ∈ (groups inner outer b).1 ++ (groups inner outer b).2, leaf ∉ listed g := by
  rw [autograph_eq]
  have hpre : (prefixes b).1 ++ "1" ∈ reserved ∧ (prefixes b).2 ++ "1" ∈ reserved := by cases b <;> decide
  set L1 := (groups inner outer b).1
  set L2 := (groups inner outer b).2
  -- the children given to a node, and a leaf that is lost
  have cases' : ∀ (graph : Graph) (leaves : List String) (root pre : String), pre ++ "1" ∈ reserved → leaves.Nodup →
      (updateGraph graph leaves root pre = .error .indexError) ∨
      ∃ v : List String, (updateGraph graph leaves root pre = .ok graph ∧ v = [] ∨ updateGraph graph leaves root pre = .ok (graph.set root v)) ∧
        (∀ x ∈ v, x ∈ reserved ∨ x ∈ leaves) ∧ (leaves.length ≠ 2 → ∃ leaf ∈ leaves, leaf ∉ reserved → leaf ∉ v) := by
    intro graph leaves root pre hp hn
    rcases update_cases graph leaves root pre with ⟨rfl, e⟩ | ⟨a, rfl, e⟩ | ⟨p, q, rfl, e⟩ | ⟨hl, v, e, v1, v2, v3⟩
    · exact .inl e
    · exact .inr ⟨[], .inl ⟨e, rfl⟩, by simp, fun _ => ⟨a, by simp, by simp⟩⟩
    · exact .inr ⟨[p, q], .inr e, fun x hx => .inr hx, by simp⟩
    · refine .inr ⟨v, .inr e, fun x hx => (v3 x hx).imp (fun (h : x = pre ++ "1") => h ▸ hp) id, fun _ => ?_⟩
      by_contra hc
      push Not at hc
      have hsub : leaves.length ≤ v.length := by
        refine List.Subperm.length_le (List.subperm_of_subset hn fun x hx => (hc x hx).2)
      omega
  have n1 : L1.Nodup := (List.nodup_append.1 (List.nodup_cons.1 hnd).2).1
  have n2 : L2.Nodup := (List.nodup_append.1 (List.nodup_cons.1 hnd).2).2.1
  have hdis : ∀ x ∈ L1, x ∉ L2 := fun x h1 h2 => (List.nodup_append.1 (List.nodup_cons.1 hnd).2).2.2 x h1 x h2 rfl
  have hel : ∀ x ∈ L1 ++ L2, x ≠ elec := fun x hx e => (List.nodup_cons.1 hnd).1 (e ▸ hx)
  have hr : ∀ x ∈ L1 ++ L2, x ∉ reserved := fun x hx => hres x (List.mem_cons_of_mem _ hx)
  rcases cases' [("ROOT", [elec, "INNER", "OUTER"])] L1 "INNER" (prefixes b).1 hpre.1 n1 with e | ⟨v, e, v1, v2⟩
  · exact .inl (by rw [e]; rfl)
  · set g0 : Graph := [("ROOT", [elec, "INNER", "OUTER"])]
    obtain ⟨g1, e1, hg1⟩ : ∃ g1, updateGraph g0 L1 "INNER" (prefixes b).1 = .ok g1 ∧
        (g1 = g0 ∧ v = [] ∨ g1 = [("ROOT", [elec, "INNER", "OUTER"]), ("INNER", v)]) := by
      rcases e with ⟨e, hv⟩ | e
      · exact ⟨_, e, .inl ⟨rfl, hv⟩⟩
      · exact ⟨_, e, .inr (by simp [g0, Dict.set])⟩
    rw [e1, ok_bind]
    rcases cases' g1 L2 "OUTER" (prefixes b).2 hpre.2 n2 with e' | ⟨w, e', w1, w2⟩
    · exact .inl (by rw [e']; rfl)
    · right
      obtain ⟨g2, e2, hg2⟩ : ∃ g2, updateGraph g1 L2 "OUTER" (prefixes b).2 = .ok g2 ∧
          ∀ x, x ∈ listed g2 → x = elec ∨ x ∈ reserved ∨ x ∈ v ∨ x ∈ w := by
        rcases e' with ⟨e', hv⟩ | e' <;> refine ⟨_, e', fun x hx => ?_⟩
        · rcases hg1 with ⟨rfl, -⟩ | rfl
          · simp only [listed, g0, List.map_cons, List.map_nil, List.flatten_cons, List.flatten_nil, List.append_nil, List.mem_cons,
              List.not_mem_nil, or_false] at hx
            rcases hx with rfl | rfl | rfl <;> simp [reserved]
          · simp only [listed, List.map_cons, List.map_nil, List.flatten_cons, List.flatten_nil, List.append_nil, List.mem_cons,
              List.not_mem_nil, or_false, List.mem_append] at hx
            rcases hx with (rfl | rfl | rfl) | h <;> simp [reserved, *]
        · rcases hg1 with ⟨rfl, -⟩ | rfl
          · simp only [listed, g0, Dict.set, List.map_cons, List.map_nil, List.flatten_cons, List.flatten_nil, List.append_nil, List.mem_cons,
              List.not_mem_nil, or_false, List.mem_append, String.reduceEq, if_false] at hx
            rcases hx with (rfl | rfl | rfl) | h <;> simp [reserved, *]
          · simp only [listed, Dict.set, List.map_cons, List.map_nil, List.flatten_cons, List.flatten_nil, List.append_nil, List.mem_cons,
              List.not_mem_nil, or_false, List.mem_append, String.reduceEq, if_false] at hx
            rcases hx with (rfl | rfl | rfl) | h | h <;> simp [reserved, *]
      rw [e2, ok_bind]
      refine ⟨g2, rfl, ?_⟩
      by_cases h1 : L1.length = 2
      · obtain ⟨leaf, l1, l2⟩ := w2 (fun h2 => h ⟨h1, h2⟩)
        have hm : leaf ∈ L1 ++ L2 := List.mem_append_right _ l1
        refine ⟨leaf, hm, fun hx => ?_⟩
        rcases hg2 leaf hx with h | h | h | h
        · exact hel leaf hm h
        · exact hr leaf hm h
        · rcases v1 leaf h with h | h
          · exact hr leaf hm h
          · exact hdis leaf h l1
        · exact l2 (hr leaf hm) h
      · obtain ⟨leaf, l1, l2⟩ := v2 h1
        have hm : leaf ∈ L1 ++ L2 := List.mem_append_left _ l1
        refine ⟨leaf, hm, fun hx => ?_⟩
        rcases hg2 leaf hx with h | h | h | h
        · exact hel leaf hm h
        · exact hr leaf hm h
        · exact l2 (hr leaf hm) h
        · rcases w1 leaf h with h | h
          · exact hr leaf hm h
          · exact hdis leaf l1 h

private theorem listed_set {g : Graph} {k : String} {v : List String} {x : String} (h : x ∈ listed (Dict.set g k v)) :
    x ∈ listed g ∨ x ∈ v := by
  induction g with
  | nil => simpa [listed, Dict.set] using h
  | cons p g ih =>
    obtain ⟨k', v'⟩ := p
    simp only [Dict.set] at h
    split_ifs at h
    · simp only [listed, List.map_cons, List.flatten_cons, List.mem_append] at h ⊢
      tauto
    · simp only [listed, List.map_cons, List.flatten_cons, List.mem_append] at h ⊢ ih
      rcases h with h | h
      · exact .inl (.inl h)
      · exact (ih h).imp .inr id

private theorem listed_update {x : String} : ∀ (e g : Graph), x ∈ listed (update g e) → x ∈ listed g ∨ x ∈ listed e
  | [], g, h => .inl h
  | (k, v) :: e, g, h => by
    rcases listed_update e (Dict.set g k v) h with h | h
    · rcases listed_set h with h | h
      · exact .inl h
      · exact .inr (by simp [listed, h])
    · exact .inr (by simp only [listed, List.map_cons, List.flatten_cons, List.mem_append] at h ⊢; exact .inr h)

/-- `autograph_mctdh` loses every vibrational leaf (whose name has more than one character): the children of an inner node are the
characters of the name. -/
theorem C54_mctdh_violated {elec : String} {inner : List String} (hel : elec ∉ inner)
    (hspf : ∀ leaf ∈ inner, leaf ++ "s" ∉ inner) (hlen : ∀ leaf ∈ inner, 2 ≤ leaf.toList.length) :
    ∃ g, autographMctdh elec inner false = .ok (g, "ROOT") ∧ ∀ leaf ∈ inner, leaf ∉ listed g := by
  refine ⟨_, rfl, fun leaf hl h => ?_⟩
  rcases listed_update _ _ h with h | h
  · simp only [listed, List.map_cons, List.map_nil, List.flatten_cons, List.flatten_nil, List.append_nil, List.mem_cons, List.mem_map] at h
    rcases h with rfl | ⟨l, h1, rfl⟩
    · exact hel hl
    · exact hspf l h1 hl
  · simp only [listed, List.mem_flatten, List.mem_map] at h
    obtain ⟨l, ⟨p, hp, rfl⟩, hm⟩ := h
    have := (List.of_mem_zip hp).2
    simp only [List.mem_map] at this
    obtain ⟨w, -, hw⟩ := this
    rw [← hw, List.mem_map] at hm
    obtain ⟨ch, -, rfl⟩ := hm
    have := hlen _ hl
    simp at this

/-- Four modes: kept. Five modes: `I2` is lost, and `AI21` appears as a leaf. -/
example : autograph "ELEC" ["I0", "I1", "I2", "I3"] [] false =
      .ok ([("ROOT", ["ELEC", "INNER", "OUTER"]), ("INNER", ["I0", "I1"]), ("OUTER", ["I2", "I3"])], "ROOT") ∧
    autograph "ELEC" ["I0", "I1", "I2", "I3", "I4"] [] false =
      .ok ([("ROOT", ["ELEC", "INNER", "OUTER"]), ("INNER", ["I0", "I1"]), ("OUTER", ["I4", "AI21"])], "ROOT") := by
  decide +kernel

example : autographMctdh "ELEC" ["I0", "I1"] false =
    .ok ([("ROOT", ["ELEC", "I0s", "I1s"]), ("I0s", ["I", "0"]), ("I1s", ["I", "1"])], "ROOT") := by
  decide +kernel

end SpinBoson
