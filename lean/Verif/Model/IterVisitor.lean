import Verif.Py.Basic
import Mathlib.Data.Nat.Notation

/-!
`minitn/lib/tools.py`, lines 89-112: `iter_visitor`.
-/

namespace IterVisitor

open Py

/-- The `method` argument: `'DFS'`, `'BFS'`, or any other value. -/
inductive Method
  | dfs
  | bfs
  | other
  deriving DecidableEq

variable {α : Type} [DecidableEq α]

/-- tools.py 103-108: take the next vertex off the (nonempty) stack `x :: xs`: `stack.pop()` or
`stack[0], stack[1:]`. -/
def pop (m : Method) (x : α) (xs : List α) : Res (α × List α) :=
  match m with
  | .dfs => .ok ((x :: xs).getLast (by simp), (x :: xs).dropLast)
  | .bfs => .ok (x, xs)
  | .other => .error .notImplementedError

/-- tools.py 102-112: the loop; the result is the list of values yielded. `r v` lists the set returned by the
relation. `ord` gives the order in which Python iterates over the set `r(vertex) - visited`; it may depend on the
history (`visited`) and the set in any way. `fuel` bounds the number of iterations. -/
def loop (r : α → List α) (ord : List α → List α → List α) (m : Method) : ℕ → List α → List α → Res (List α)
  | 0, _, _ => .error .outOfFuel
  | _ + 1, [], _ => .ok []
  | fuel + 1, x :: xs, visited =>
    match pop m x xs with
    | .error e => .error e
    | .ok (vertex, stack) =>
      if vertex ∈ visited then loop r ord m fuel stack visited
      else
        let visited' := visited ++ [vertex]
        match loop r ord m fuel (stack ++ ord visited' ((r vertex).filter (· ∉ visited'))) visited' with
        | .error e => .error e
        | .ok out => .ok (vertex :: out)

/-- tools.py 89-112: `list(iter_visitor(start, r, method))`. -/
def iterVisitor (r : α → List α) (ord : List α → List α → List α) (m : Method) (fuel : ℕ) (start : α) : Res (List α) :=
  loop r ord m fuel [start] []

end IterVisitor
