import Verif.Py.Basic
import Mathlib.Data.Nat.Notation

/-!
`unzip` of `minitn/lib/tools.py`, lines 32-49, with the shared buffers of `itertools.tee`.
-/

namespace Unzip

open Py

variable {A B S : Type}

/-- The iterators returned by one call of `itertools.tee`: the iterator below them and, for each of them, the queue of the values that others
have drawn and it has not (the equivalent program in the documentation of `itertools`). -/
structure Tee (S A : Type) where
  src : S
  queues : List (List A)

/-- `next` of the iterator number `k`; `none` is `StopIteration`. An empty queue draws one value from below and hands it to all. `draw` is
`next` of the iterator below. -/
def Tee.next (draw : S → Option A × S) (k : ℕ) (t : Tee S A) : Option A × Tee S A :=
  match t.queues[k]? with
  | none => (none, t)
  | some (x :: xs) => (some x, { t with queues := t.queues.set k xs })
  | some [] =>
    match draw t.src with
    | (none, s) => (none, { t with src := s })
    | (some x, s) =>
      let qs := t.queues.map (· ++ [x])
      (some x, ⟨s, qs.set k (qs[k]?.getD []).tail⟩)

/-- `next` of the argument of `unzip`: an iterator over the rows of a list -/
def drawList : List A → Option A × List A
  | [] => (none, [])
  | x :: xs => (some x, xs)

/-- What remains of the argument, the pair `_tmp, iterable`, and the iterators `iters` -/
abbrev Columns (A : Type) := Tee (Tee (List (List A)) (List A)) (List A)

/-- tools.py 47-49. The generator of the result is unpacked at once, as in numerical.py 316. -/
def unzip (rows : List (List A)) : Res (Columns A) :=
  let pair : Tee (List (List A)) (List A) := ⟨rows, [[], []]⟩
  match pair.next drawList 0 with
  | (none, _) => .error .stopIteration
  | (some first, pair) => .ok ⟨pair, List.replicate first.length []⟩

/-- `next` of the object `map(itemgetter(i), it)`, tools.py 49 -/
def Columns.next (i : ℕ) (c : Columns A) : Res A × Columns A :=
  match Tee.next (Tee.next drawList 1) i c with
  | (none, c) => (.error .stopIteration, c)
  | (some row, c) =>
    match row[i]? with
    | some a => (.ok a, c)
    | none => (.error .indexError, c)

/-- Calls of `next` on the columns in any order -/
def Columns.run : List ℕ → Columns A → List (Res A) × Columns A
  | [], c => ([], c)
  | i :: is, c =>
    let (x, c) := c.next i
    let (xs, c) := run is c
    (x :: xs, c)

/-- The rows that have not been drawn from the argument -/
def Columns.unread (c : Columns A) : List (List A) := c.src.src

end Unzip
