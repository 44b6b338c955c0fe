import Verif.Py.Basic
import Mathlib.Order.Defs.LinearOrder
import Mathlib.Data.List.Sort
import Mathlib.Algebra.Group.Defs

/-!
`minitn/lib/tools.py`, lines 126-152: `huffman_tree`.
-/

namespace Huffman

open Py

variable {α K : Type} [DecidableEq α] [LinearOrder K] [AddCommMonoid K]

/-- tools.py 142-152: the loop. `new k` is what the `k`-th call of `obj_new` returns (names are made by a stateful
function in the code), `k` counts the calls made so far. `list.sort` is stable, as `insertionSort` is. `n_branch` is a
natural number here (negative values are not modelled). `fuel` bounds the number of iterations. -/
def loop (new : ℕ → α) (n : ℕ) : ℕ → ℕ → List (α × K) → Dict α (List α) → Res (Dict α (List α) × α)
  | 0, _, _, _ => .error .outOfFuel
  | _ + 1, _, [], _ => .error .indexError
  | _ + 1, _, [x], graph => .ok (graph, x.1)
  | fuel + 1, k, x :: y :: s, graph =>
    let sequence := (x :: y :: s).insertionSort fun a b => a.2 ≤ b.2
    let branch := sequence.take n
    let p := (branch.map Prod.snd).sum
    loop new n fuel (k + 1) ((new k, p) :: sequence.drop n) (Dict.set graph (new k) (branch.map Prod.fst))

/-- tools.py 126-152: `huffman_tree(sources, importances, obj_new, n_branch)`. Pairs are made with `zip`, which
stops at the shorter list. -/
def huffmanTree (sources : List α) (importances : List K) (new : ℕ → α) (n fuel : ℕ) :
    Res (Dict α (List α) × α) :=
  loop new n fuel 0 (sources.zip importances) []

/-- tools.py 133-138: the default `obj_new`: a fresh call of `counter` starts from `x = 0` again, so it returns 1
every time. -/
def counter : ℕ → ℕ := fun _ => 0 + 1

end Huffman
