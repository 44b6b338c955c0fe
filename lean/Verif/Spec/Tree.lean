import Verif.Model.Heap
import Mathlib.Logic.Relation

/-!
Specification: what it means for an object graph to be a tree.
-/

/-- A list of branches. `cons i j id sub rest`: the parent's axis `i` is linked to axis `j` of
tensor `id`, below which hangs `sub`; `rest` are the further branches of the parent. -/
inductive Forest
  | nil
  | cons (i j id : ℕ) (sub rest : Forest)
  deriving DecidableEq, Repr

namespace Forest

/-- Top-level branches as triples `(i, id, j)`. -/
def heads : Forest → List (ℕ × ℕ × ℕ)
  | nil => []
  | cons i j id _ rest => (i, id, j) :: rest.heads

/-- All tensors, parents before children. -/
def ids : Forest → List ℕ
  | nil => []
  | cons _ _ id sub rest => id :: sub.ids ++ rest.ids

/-- Depth. -/
def depth : Forest → ℕ
  | nil => 0
  | cons _ _ _ sub rest => max (sub.depth + 1) rest.depth

/-- All edges below tensor `a`, from the near end to the far end. -/
def edges (a : ℕ) : Forest → List (ℕ × ℕ × ℕ × ℕ)
  | nil => []
  | cons i j id sub rest => (a, i, id, j) :: sub.edges id ++ rest.edges a

/-- Below each tensor of the forest the heap has exactly the branches of the forest. -/
def RepIn {R : Type} (h : Heap R) : Forest → Prop
  | nil => True
  | cons _ j id sub rest => h.children id (some j) true = sub.heads ∧ sub.RepIn h ∧ rest.RepIn h

/-- Leaves have nothing below them. -/
def LeafEnd {R : Type} (h : Heap R) : Forest → Prop
  | nil => True
  | cons _ _ id sub rest => (h.isLeaf id = true → sub = nil) ∧ sub.LeafEnd h ∧ rest.LeafEnd h

end Forest

/-- The object graph `h`, seen from tensor `a` (entered through `axis`, or from nowhere), is the
tree with branches `F`: finite, without repetition, and ending at leaves. -/
structure IsTree {R : Type} (h : Heap R) (a : ℕ) (axis : Option ℕ) (F : Forest) : Prop where
  heads : h.children a axis true = F.heads
  rep : F.RepIn h
  nodup : (a :: F.ids).Nodup
  leafEnd : F.LeafEnd h

/-- `y` can be reached from `x` through links. -/
def Linked {R : Type} (h : Heap R) : ℕ → ℕ → Prop :=
  Relation.ReflTransGen fun x y => ∃ i j, h.acc x i = some (y, j)

/-- A walk along directed links `(t1, i, t2, j)` from `x` to `y`. -/
def IsWalk : ℕ → List (ℕ × ℕ × ℕ × ℕ) → ℕ → Prop
  | x, [], y => x = y
  | x, (t1, _, t2, _) :: w, y => x = t1 ∧ IsWalk t2 w y
