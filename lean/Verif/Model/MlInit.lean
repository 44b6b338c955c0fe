import Verif.Model.MultiLayer

/-!
`MultiLayer.__init__` of `minitn/algorithms/ml.py` (98-146; the same text in `minitn/heom/propagate.py` 99-148). The terms are lists that the
caller owns: they are objects in a store, so that what happens to them can be seen from outside.
-/

open Py

namespace ML

/-- The first item of a pair of a term: a Leaf, or anything else, given by its `str()`. -/
inductive Label
  | leaf (l : ℕ)
  | other (s : List Char)

/-- `isinstance(x, Leaf)` -/
def Label.isLeaf : Label → Bool
  | .leaf _ => true
  | .other _ => false

/-- A list that holds a term. -/
abbrev TermList (T R : Type) : Type := List (Label × TermOp T R)

/-- The lists of the caller. -/
abbrev Store (T R : Type) : Type := ℕ → TermList T R

variable {T R : Type}

/-- `str(x)`. For a Leaf it is the text of `Leaf.__repr__`, `minitn/tensor.py:849-851`; `hexId` is `hex(id(·))`. -/
def Label.str (h : Heap R) (hexId : ℕ → List Char) : Label → List Char
  | .leaf l => ['L', 'e', 'a', 'f', '_'] ++ (h.node l).name.getD (hexId l)
  | .other s => s

/-- The checks of a pair of `h_list`, ml.py 124-127. `np.array` of a function has no dimension. -/
def checkH (useStrName : Bool) (p : Label × TermOp T R) : Res Unit :=
  if !p.1.isLeaf && !useStrName then .error .typeError else
  match p.2 with
  | .mat a => if a.ndim ≠ 2 then .error .typeError else .ok ()
  | .fn _ => .error .typeError

/-- The checks of a pair of `f_list`, ml.py 131-134. -/
def checkF (useStrName : Bool) (p : Label × TermOp T R) : Res Unit :=
  if !p.1.isLeaf && !useStrName then .error .typeError else
  match p.2 with
  | .mat _ => .error .typeError
  | .fn _ => .ok ()

/-- `{leaf.name: leaf for leaf in root.leaves()}`, ml.py 137 -/
def leavesDict (h : Heap R) (leaves : List ℕ) : Dict (Option (List Char)) ℕ :=
  leaves.foldl (fun d l => d.set (h.node l).name l) []

/-- ml.py 139-141, `m` passes: `pop(0)`, then `append`. If the name is not found, the pair that was taken out is lost. -/
def bindTerm (h : Heap R) (hexId : ℕ → List Char) (d : Dict (Option (List Char)) ℕ) : ℕ → TermList T R → Res Unit × TermList T R
  | 0, t => (.ok (), t)
  | _ + 1, [] => (.error .indexError, [])
  | m + 1, (fst, snd) :: t => match d.get? (some (fst.str h hexId)) with
    | some l => bindTerm h hexId d m (t ++ [(.leaf l, snd)])
    | none => (.error .keyError, t)

/-- ml.py 138-141 -/
def bindAll (h : Heap R) (hexId : ℕ → List Char) (d : Dict (Option (List Char)) ℕ) : List ℕ → Store T R → Res Unit × Store T R
  | [], st => (.ok (), st)
  | r :: rs, st =>
    match bindTerm h hexId d (st r).length (st r) with
    | (.ok (), t) => bindAll h hexId d rs (Function.update st r t)
    | (.error e, t) => (.error e, Function.update st r t)

/-- `MultiLayer.__init__`, ml.py 98-146: whether it fails, and the lists afterwards. `h_list` and `f_list` are lists of lists. -/
def initLists (fuel : ℕ) (h : Heap R) (hexId : ℕ → List Char) (root : ℕ) (hList : List ℕ) (fList : Option (List ℕ)) (useStrName : Bool)
    (st : Store T R) : Res Unit × Store T R :=
  match hList.forM fun r => (st r).forM (checkH useStrName) with
  | .error e => (.error e, st)
  | .ok () =>
    match (fList.getD []).forM fun r => (st r).forM (checkF useStrName) with
    | .error e => (.error e, st)
    | .ok () =>
      if useStrName then
        match h.leaves fuel root with
        | .error e => (.error e, st)
        | .ok ls => bindAll h hexId (leavesDict h ls) (hList ++ fList.getD []) st
      else (.ok (), st)

end ML
