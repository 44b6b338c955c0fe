import Verif.Py.Basic
import Mathlib.Data.Nat.Notation
import Mathlib.Algebra.BigOperators.Group.List.Basic

/-!
`minitn/lib/numerical.py`, lines 423-448: `triangular` (the same code is in `minitn/algorithms/ml.py`, lines 165-191,
and `minitn/heom/propagate.py`, lines 167-192).
-/

namespace Triangular

/-- numerical.py 427-430: `prod_list`, the running products, starting with 1. -/
def prodList (nl : List ℕ) : List ℕ := nl.foldl (fun l n => l ++ [l.getLastD 0 * n]) [1]

/-- numerical.py 432-433: `key`. -/
def key (nl : List ℕ) (case : List ℕ) : ℕ := (((prodList nl).zip case).map fun x => x.1 * x.2).sum

/-- numerical.py 438-442: `permutation`, for the cases of the previous level. -/
def permutation (nl : List ℕ) (prev : List (List ℕ)) : List (List ℕ) :=
  prev.flatMap fun case => (List.range nl.length).filterMap fun j =>
    if case.getD j 0 + 1 < nl.getD j 0 then some (case.take j ++ [case.getD j 0 + 1] ++ case.drop (j + 1)) else none

/-- numerical.py 443-446: drop repetitions, keeping the first occurrence. -/
def unique (cases : List (List ℕ)) : List (List ℕ) :=
  cases.foldl (fun acc case => if case ∈ acc then acc else acc ++ [case]) []

/-- numerical.py 435-446: `combinations[m]`. The dictionary is filled in the order of `m`, each entry from the one
before, and no entry is changed afterwards, so it is modelled as a function of `m`. -/
def level (nl : List ℕ) : ℕ → List (List ℕ)
  | 0 => [List.replicate nl.length 0]
  | m + 1 => unique (permutation nl (level nl m))

/-- numerical.py 423-448: the values yielded by `triangular(n_list)`. -/
def triangular (nl : List ℕ) : List ℕ :=
  (List.range ((prodList nl).getLastD 0)).flatMap fun m => (level nl m).map (key nl)

end Triangular
