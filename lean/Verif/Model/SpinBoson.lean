import Verif.Model.Huffman
import Verif.Nd.Ops
import Mathlib.Algebra.Order.Ring.Nat

/-!
`minitn/models/spinboson.py`: the network graphs of the model (`autograph*`, `_update`) and `collect_electric_terms`.
-/

namespace SpinBoson

open Py

/-- A graph as `Tensor.generate` reads it: the children of every inner node. -/
abbrev Graph := Dict String (List String)

/-- `d.update(e)` -/
def update {κ ν : Type} [DecidableEq κ] (d e : Dict κ ν) : Dict κ ν := e.foldl (fun d p => d.set p.1 p.2) d

/-- `_update`, spinboson.py 118-131. `obj_new` is called without arguments, so it starts from `x = 0` every time and returns the prefix
followed by 1; `huffman_tree` is called with its default `n_branch = 2`, the argument `n_branch` is not used. -/
def updateGraph (graph : Graph) (leaves : List String) (root pre : String) : Res Graph := do
  let (subtree, r) ← Huffman.huffmanTree leaves (List.replicate leaves.length (1 : ℕ)) (fun _ => pre ++ "1") 2 (leaves.length + 1)
  match subtree.get? r with
  | none => pure graph
  | some v => pure (update graph ((subtree.del r).set root v))

/-- `autograph`, spinboson.py 86-95, for a model with the electronic leaf `elec`, the inner leaves `inner` and the outer leaves `outer`. -/
def autograph (elec : String) (inner outer : List String) (includingBath : Bool) : Res (Graph × String) := do
  let graph : Graph := [("ROOT", [elec, "INNER", "OUTER"])]
  if includingBath then
    let graph ← updateGraph graph inner "INNER" "AI"
    let graph ← updateGraph graph outer "OUTER" "AO"
    pure (graph, "ROOT")
  else
    let mid := inner.length / 2
    let graph ← updateGraph graph (inner.take mid) "INNER" "AI1"
    let graph ← updateGraph graph (inner.drop mid) "OUTER" "AI2"
    pure (graph, "ROOT")

/-- `autograph_full`, spinboson.py 79-84 -/
def autographFull (elec : String) (inner : List String) (includingBath : Bool) : Res (Graph × String) :=
  if includingBath then .error .notImplementedError else .ok ([("ROOT", elec :: inner)], "ROOT")

/-- `autograph_mctdh`, spinboson.py 70-77. The values for the inner nodes are strings instead of lists; iterating over a string gives
its characters, so these are the children which `Tensor.generate` sees. -/
def autographMctdh (elec : String) (inner : List String) (includingBath : Bool) : Res (Graph × String) :=
  if includingBath then .error .notImplementedError
  else
    let spfs := inner.map (· ++ "s")
    .ok (update [("ROOT", elec :: spfs)] (spfs.zip (inner.map fun s => s.toList.map String.singleton)), "ROOT")

section Terms

variable {R : Type} [Ring R]

/-- A term of a Hamiltonian: leaves with matrices. -/
abbrev Term (R : Type) := List (String × Nd R)

/-- `sum(arrays)`: 0 if there are none. -/
def sumArrays : List (Nd R) → Res (Nd R)
  | [] => .ok ⟨[], [0]⟩
  | a :: l => l.foldlM Nd.add a

/-- spinboson.py 136-137: `condition` -/
def isElec (elec : String) (term : Term R) : Bool :=
  match term with
  | [(leaf, _)] => leaf == elec
  | _ => false

/-- `collect_electric_terms`, spinboson.py 133-154: the new `h_list` and the terms of `f_list`, as functions of time. `field` is what
`td_electron_hamiltionian()` returns, evaluated (159-163); with `ti_array` that array is added (164-165). Making the closure cannot raise
`AttributeError`, so the handler (151-153) is never reached. -/
def collectElectricTerms {T : Type} (elec : String) (field : T → Res (Nd R)) (hList : List (Term R)) (absorbed : Bool) :
    Res (List (Term R) × List (List (String × (T → Res (Nd R))))) := do
  let elecList := hList.filter (isElec elec)
  let elecArray ← sumArrays ((elecList.map fun term => term.map Prod.snd).flatten)
  let leftList := hList.filter fun term => !isElec elec term
  if absorbed then
    pure (leftList, [[(elec, fun t => do (← field t).add elecArray)]])
  else
    pure ([(elec, elecArray)] :: leftList, [[(elec, field)]])

end Terms

end SpinBoson
