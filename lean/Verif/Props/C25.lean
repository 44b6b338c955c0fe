import Verif.Model.IterVisitor
import Mathlib.Logic.Relation
import Mathlib.Data.List.Perm.Basic
import Mathlib.Data.List.Nodup
import Mathlib.Algebra.BigOperators.Group.List.Basic
import Mathlib.Algebra.Order.BigOperators.Group.List

/-!
C25: `iter_visitor` yields each vertex reachable from `start` exactly once, `start` first, for both methods and for
every order in which the neighbour sets are iterated.
-/

namespace IterVisitor

open Py

variable {α : Type} [DecidableEq α]

/-- `y` can be reached from `x` through the relation `r`. -/
def Reach (r : α → List α) : α → α → Prop := Relation.ReflTransGen fun x y => y ∈ r x

/-- `ord` is an iteration order: it lists the elements of the set it is given. -/
def IsOrder (ord : List α → List α → List α) : Prop := ∀ v l, (ord v l).Perm l

/-- What remains to be pushed. -/
private def todo (r : α → List α) (V visited : List α) : ℕ :=
  ((V.filter (· ∉ visited)).map fun v => (r v).length).sum

private theorem todo_step (r : α → List α) (V visited : List α) (v : α) (hv : v ∈ V) (hn : v ∉ visited) :
    todo r V (visited ++ [v]) + (r v).length ≤ todo r V visited := by
  induction V with
  | nil => cases hv
  | cons a V ih =>
    have mono : ∀ V : List α, todo r V (visited ++ [v]) ≤ todo r V visited := by
      intro V
      induction V with
      | nil => simp [todo]
      | cons b V ihm =>
        unfold todo at ihm ⊢
        by_cases hb : b ∈ visited
        · rw [List.filter_cons_of_neg (by simp [hb]), List.filter_cons_of_neg (by simp [hb])]; exact ihm
        · by_cases hbv : b = v
          · rw [List.filter_cons_of_neg (by simp [hbv]), List.filter_cons_of_pos (by simp [hb])]
            simp only [List.map_cons, List.sum_cons]; omega
          · rw [List.filter_cons_of_pos (by simp [hb, hbv]), List.filter_cons_of_pos (by simp [hb])]
            simp only [List.map_cons, List.sum_cons]; omega
    by_cases hav : a = v
    · subst hav
      have := mono V
      unfold todo at this ⊢
      rw [List.filter_cons_of_neg (by simp), List.filter_cons_of_pos (by simp [hn])]
      simp only [List.map_cons, List.sum_cons]; omega
    · have hvV : v ∈ V := by
        rcases List.mem_cons.1 hv with q | q
        · exact absurd q.symm hav
        · exact q
      have := ih hvV
      unfold todo at this ⊢
      by_cases ha : a ∈ visited
      · rw [List.filter_cons_of_neg (by simp [ha]), List.filter_cons_of_neg (by simp [ha])]; exact this
      · rw [List.filter_cons_of_pos (by simp [ha, hav]), List.filter_cons_of_pos (by simp [ha])]
        simp only [List.map_cons, List.sum_cons]; omega

private theorem pop_ok {m : Method} (hm : m ≠ .other) (x : α) (xs : List α) :
    ∃ v s, pop m x xs = .ok (v, s) ∧ (v :: s).Perm (x :: xs) := by
  cases m with
  | dfs =>
    refine ⟨_, _, rfl, ?_⟩
    have := List.dropLast_append_getLast (l := x :: xs) (by simp)
    conv_rhs => rw [← this]
    exact (List.perm_append_comm (l₁ := [_])).symm.symm
  | bfs => exact ⟨x, xs, rfl, .refl _⟩
  | other => exact absurd rfl hm

private theorem loop_ok {r : α → List α} {ord : List α → List α → List α} (ho : IsOrder ord) {m : Method}
    (hm : m ≠ .other) {V : List α} (hV : ∀ v ∈ V, ∀ w ∈ r v, w ∈ V) {P : α → Prop} (hP : ∀ v, P v → ∀ w ∈ r v, P w)
    {fuel : ℕ} {stack visited : List α} (hf : stack.length + todo r V visited < fuel)
    (hs : ∀ v ∈ stack, v ∈ V ∧ P v) (hn : visited.Nodup)
    (hc : ∀ v ∈ visited, ∀ w ∈ r v, w ∈ visited ∨ w ∈ stack) :
    ∃ out, loop r ord m fuel stack visited = .ok out ∧ (visited ++ out).Nodup ∧ (∀ v ∈ stack, v ∈ visited ++ out) ∧
      (∀ v ∈ visited ++ out, ∀ w ∈ r v, w ∈ visited ++ out) ∧ ∀ v ∈ out, P v := by
  induction fuel generalizing stack visited with
  | zero => omega
  | succ fuel ih =>
    cases stack with
    | nil => exact ⟨[], rfl, by simpa using hn, by simp, by simpa using hc, by simp⟩
    | cons x xs =>
      obtain ⟨v, s, hp, hperm⟩ := pop_ok hm x xs
      have hlen := hperm.length_eq
      simp only [List.length_cons] at hlen hf
      have hvm := (hs v (hperm.mem_iff.1 (by simp)))
      have hss : ∀ u ∈ s, u ∈ V ∧ P u := fun u hu => hs u (hperm.mem_iff.1 (by simp [hu]))
      unfold loop
      simp only [hp]
      by_cases hvis : v ∈ visited
      · rw [if_pos hvis]
        obtain ⟨out, o1, o2, o3, o4, o5⟩ := ih (stack := s) (visited := visited) (by omega) hss hn (by
          intro u hu w hw
          rcases hc u hu w hw with q | q
          · exact .inl q
          · rcases List.mem_cons.1 (hperm.mem_iff.2 q) with rfl | q
            · exact .inl hvis
            · exact .inr q)
        refine ⟨out, o1, o2, fun u hu => ?_, o4, o5⟩
        rcases List.mem_cons.1 (hperm.mem_iff.2 hu) with rfl | q
        · simp [hvis]
        · exact o3 u q
      · rw [if_neg hvis]
        set l := ord (visited ++ [v]) ((r v).filter (· ∉ visited ++ [v])) with hl
        have hlp : l.Perm ((r v).filter (· ∉ visited ++ [v])) := ho _ _
        have hll : l.length ≤ (r v).length := by rw [hlp.length_eq]; exact List.length_filter_le _ _
        have ht := todo_step r V visited v hvm.1 hvis
        obtain ⟨out, o1, o2, o3, o4, o5⟩ := ih (stack := s ++ l) (visited := visited ++ [v])
          (by rw [List.length_append]; omega) (by
            intro u hu
            rcases List.mem_append.1 hu with q | q
            · exact hss u q
            · have q' := (List.mem_filter.1 (hlp.mem_iff.1 q)).1
              exact ⟨hV v hvm.1 u q', hP v hvm.2 u q'⟩)
          (by
            rw [List.nodup_append]
            exact ⟨hn, by simp, fun a ha b hb => by
              rw [List.mem_singleton] at hb; subst hb; rintro rfl; exact hvis ha⟩) (by
            intro u hu w hw
            by_cases hwv : w ∈ visited ++ [v]
            · exact .inl hwv
            · right
              rcases List.mem_append.1 hu with q | q
              · rcases hc u q w hw with q' | q'
                · exact absurd (by simp [q']) hwv
                · rcases List.mem_cons.1 (hperm.mem_iff.2 q') with rfl | q''
                  · exact absurd (by simp) hwv
                  · exact List.mem_append_left _ q''
              · rw [List.mem_singleton] at q; subst q
                exact List.mem_append_right _ (hlp.mem_iff.2 (List.mem_filter.2 ⟨hw, by simpa using hwv⟩)))
        have e : visited ++ [v] ++ out = visited ++ v :: out := by simp
        rw [e] at o2 o3 o4
        refine ⟨v :: out, by rw [o1], o2, fun u hu => ?_, o4, ?_⟩
        · rcases List.mem_cons.1 (hperm.mem_iff.2 hu) with rfl | q
          · simp
          · exact o3 u (by simp [q])
        · intro u hu
          rcases List.mem_cons.1 hu with rfl | q
          · exact hvm.2
          · exact o5 u q

/-- `r` is a relation on a finite set of vertices `V`. With either method and any iteration order the visitor
terminates, and yields `start` first and then every other vertex reachable from `start`, each once. -/
theorem C25_iter_visitor {r : α → List α} {ord : List α → List α → List α} (ho : IsOrder ord) {m : Method}
    (hm : m ≠ .other) {V : List α} {start : α} (h0 : start ∈ V) (hV : ∀ v ∈ V, ∀ w ∈ r v, w ∈ V) {fuel : ℕ}
    (hf : 1 + (V.map fun v => (r v).length).sum < fuel) :
    ∃ out, iterVisitor r ord m fuel start = .ok out ∧ out.Nodup ∧ out.head? = some start ∧
      ∀ v, v ∈ out ↔ Reach r start v := by
  obtain ⟨out, o1, o2, o3, o4, o5⟩ := loop_ok (P := Reach r start) (stack := [start]) (visited := []) ho hm hV
    (fun v hv w hw => Relation.ReflTransGen.tail hv hw) (fuel := fuel) (by
      have : todo r V [] = (V.map fun v => (r v).length).sum := by
        unfold todo
        rw [List.filter_eq_self.2 (by simp)]
      simp only [List.length_singleton]; omega)
    (by intro v hv; rw [List.mem_singleton] at hv; subst hv; exact ⟨h0, .refl⟩) (by simp) (by simp)
  simp only [List.nil_append] at o2 o3 o4
  refine ⟨out, o1, o2, ?_, fun v => ⟨o5 v, fun hv => ?_⟩⟩
  · obtain ⟨f, rfl⟩ : ∃ f, fuel = f + 1 := ⟨fuel - 1, by omega⟩
    unfold loop at o1
    have hp : pop m start [] = .ok (start, []) := by cases m <;> first | rfl | exact absurd rfl hm
    simp only [hp] at o1
    rw [if_neg (by simp)] at o1
    split at o1
    · cases o1
    · cases o1; rfl
  · induction hv with
    | refl => exact o3 start (by simp)
    | tail _ hw ih => exact o4 _ ih _ hw

/-- An unknown method raises `NotImplementedError` before anything is yielded. -/
theorem C25_unknown_method (r : α → List α) (ord : List α → List α → List α) (fuel : ℕ) (start : α) :
    iterVisitor r ord .other (fuel + 1) start = .error .notImplementedError := rfl

/-! A case: a graph with cycles, and an order that reverses the sets. -/

def exGraph : ℕ → List ℕ
  | 0 => [1, 2]
  | 1 => [2, 0, 3]
  | 2 => [2, 3]
  | 3 => [0]
  | _ => [4]

example : ∃ out, iterVisitor exGraph (fun _ l => l.reverse) .dfs 20 0 = .ok out ∧ out.Nodup ∧ out.head? = some 0 ∧
    ∀ v, v ∈ out ↔ Reach exGraph 0 v :=
  C25_iter_visitor (V := [0, 1, 2, 3]) (fun _ l => List.reverse_perm l) (by decide) (by decide) (by decide) (by decide)

example : iterVisitor exGraph (fun _ l => l) .dfs 20 0 = .ok [0, 2, 3, 1] ∧
    iterVisitor exGraph (fun _ l => l) .bfs 20 0 = .ok [0, 1, 2, 3] := by decide +kernel

end IterVisitor
