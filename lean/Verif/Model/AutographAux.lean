import Verif.Model.SpinBoson

/-!
`minitn/models/spinboson.py`: `autograph_with_aux`, the network graph in which every degree of freedom is paired with a mirror of it, as a
density matrix or a thermal state needs.
-/

namespace SpinBoson

open Py

/-- `name[:-1]` -/
def dropLastChar (s : String) : String := String.ofList s.toList.dropLast

/-- `autograph_with_aux`, spinboson.py 97-116, for a model with the leaves `leaves`, of which `inner` and `outer` are vibrations, and the
dictionary `dims` of their dimensions. The result is the graph, the name of its root and the new `self.dimensions`. -/
def autographWithAux (leaves inner outer : List String) (dims : Dict String ℕ) (includingBath : Bool) :
    Res (Graph × String × Dict String ℕ) := do
  let graph : Graph := [("ROOT", ["ELECs", "INNER", "OUTER"])]
  let mid := inner.length / 2
  let innerSpfs := (if includingBath then inner else inner.take mid).map (· ++ "s")
  let outerSpfs := (if includingBath then outer else inner.drop mid).map (· ++ "s")
  let graph ← updateGraph graph innerSpfs "INNER" "AI"
  let graph ← updateGraph graph outerSpfs "OUTER" "AO"
  let spfs := leaves.map (· ++ "s")
  let auxLeaves := leaves.map (· ++ "'")
  let aux := (spfs.zip (leaves.zip auxLeaves)).map fun t => (t.1, [t.2.1, t.2.2])
  let graph := update graph aux
  let new ← auxLeaves.mapM fun name => do
    let d ← dims.get! (dropLastChar name)
    pure (name, d)
  pure (graph, "ROOT", update dims new)

end SpinBoson
