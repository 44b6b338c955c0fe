import Verif.Model.Env

/-!
Model of `MultiLayer` in `minitn/algorithms/ml.py`: the terms of the Hamiltonian and the operators they put on the leaves
(`term_visitor` 280-323, `matrix_element` 325-332, `expection` 334-344, `dense_hamiltonian` 419-437).
-/

open Py

/-- `np.kron` of two matrices. -/
def Nd.kron {R : Type} [CommRing R] (a b : Nd R) : Nd R :=
  Nd.ofFn [a.dim 0 * b.dim 0, a.dim 1 * b.dim 1] fun p =>
    a.get [p.getD 0 0 / b.dim 0, p.getD 1 0 / b.dim 1] * b.get [p.getD 0 0 % b.dim 0, p.getD 1 0 % b.dim 1]

/-- `np.identity(n)` -/
def Nd.identity {R : Type} [CommRing R] (n : ℕ) : Nd R :=
  Nd.ofFn [n, n] fun p => if p.getD 0 0 = p.getD 1 0 then 1 else 0

namespace Heap

variable {R : Type}

/-- `Tensor.reset`, `minitn/tensor.py:108-109`, and `Leaf.reset`, `:864-865`. -/
def reset (h : Heap R) (t : ℕ) : Heap R :=
  h.upd t fun n => if n.isLeaf then { n with array := none } else { n with penv := [] }

/-- `Tensor.load_cache`, `minitn/tensor.py:111-113`. -/
def loadCache (h : Heap R) (t i : ℕ) (v : Option (Nd R)) : Heap R :=
  h.upd t fun n => { n with penv := n.penv.set i v }

end Heap

namespace ML

/-- The operator in a pair of a term: an array or a function of the time. -/
inductive TermOp (T R : Type)
  | mat (a : Nd R)
  | fn (f : T → Nd R)

/-- `if callable(array): array = array(time)`, ml.py 314-315 -/
def TermOp.at {T R : Type} (time : T) : TermOp T R → Nd R
  | .mat a => a
  | .fn f => f time

/-- A term: pairs of a Leaf and an operator. -/
abbrev Term (T R : Type) : Type := List (ℕ × TermOp T R)

/-- The fields of a `MultiLayer` object that matter here, and the objects it refers to. `env` is `env_`. -/
structure Obj (T R : Type) where
  heap : Heap R
  root : ℕ
  hList : List (Term T R)
  fList : Option (List (Term T R))
  time : Option T
  env : Dict (ℕ × ℕ × ℕ) (Option (Nd R))

variable {T R A : Type} [Zero T] [CommRing R] [StarRing R]

/-- ml.py 310-312: load the cached mean field of term `n` for the link `x` of `t`, if there is one. -/
def loadLink (env : Dict (ℕ × ℕ × ℕ) (Option (Nd R))) (n t : ℕ) (h : Heap R) (x : ℕ × ℕ × ℕ) : Heap R :=
  match env.get? (n, x.2.1, x.2.2) with
  | some v => h.loadCache t x.1 v
  | none => h

/-- ml.py 307-312: empty the cache of a tensor, and load the cached mean fields of term `n`. -/
def loadTensor (useCache : Bool) (env : Dict (ℕ × ℕ × ℕ) (Option (Nd R))) (n : ℕ) (h : Heap R) (t : ℕ) : Heap R :=
  let h := h.reset t
  if useCache then (h.linkages t).foldl (loadLink env n t) h else h

/-- ml.py 313-319 -/
def setTerm (time : T) (term : Term T R) (h : Heap R) : Res (Heap R) :=
  term.foldlM (fun h p => if h.isLeaf p.1 then .ok (h.setArray p.1 (some (p.2.at time))) else .error .runtimeError) h

/-- The terms that are visited, ml.py 297-303. -/
def Obj.allTerms (s : Obj T R) (op : Option (List (Term T R))) : List (Term T R) :=
  match op with
  | some o => o
  | none => match s.fList with
    | some f => s.hList ++ f
    | none => s.hList

/-- One pass of the loop of `term_visitor`, ml.py 305-322; `body n` is what the caller does for `yield n`; `root` is the root at
the start. -/
def termPass (fuel root : ℕ) (useCache : Bool) (time : T) (body : ℕ → Obj T R × A → Res (Obj T R × A)) (n : ℕ) (term : Term T R)
    (x : Obj T R × A) : Res (Obj T R × A) := do
  let ts ← x.1.heap.visitor fuel root none false
  let h := ts.foldl (loadTensor useCache x.1.env n) x.1.heap
  let h ← setTerm time term h
  let (s, a) ← body n ({ x.1 with heap := h }, x.2)
  pure ({ s with heap := term.foldl (fun h p => h.reset p.1) s.heap }, a)

/-- `for n in self.term_visitor(use_cache, op, only_td): body`, ml.py 280-323. -/
def termVisitor (fuel : ℕ) (useCache : Bool) (op : Option (List (Term T R))) (onlyTd : Bool)
    (body : ℕ → Obj T R × A → Res (Obj T R × A)) (s : Obj T R) (a : A) : Res (Obj T R × A) := do
  let time := s.time.getD 0
  let ts ← s.heap.visitor fuel s.root none true
  let root := s.root
  let all := s.allTerms op
  all.zipIdx.foldlM (fun x p =>
    if op.isNone && onlyTd && decide (p.2 < x.1.hList.length) then pure x
    else termPass fuel root useCache time body p.2 p.1 x) ({ s with heap := ts.foldl Heap.reset s.heap }, a)

/-- A number that is returned as an array of shape `()`. -/
def scalar (ans : Option (Nd R)) : Res R :=
  match ans with
  | some ⟨[], [v]⟩ => .ok v
  | _ => .error .typeError

/-- `matrix_element`, ml.py 325-332 -/
def matrixElement (fuel : ℕ) (op : Option (List (Term T R))) (s : Obj T R) : Res (Obj T R × R) :=
  termVisitor fuel false op false (fun _ x => do
    let (h, ans) ← Heap.matrixElement fuel x.1.heap x.1.root
    let v ← scalar ans
    pure ({ x.1 with heap := h }, x.2 + v)) s 0

/-- `expection` without its last two lines (the check that the imaginary part is almost 0, and `np.real`), ml.py 334-342;
`inv` is the division of numbers. -/
def expection (fuel : ℕ) (inv : R → R) (normalized : Bool) (op : Option (List (Term T R))) (s : Obj T R) :
    Res (Obj T R × R) := do
  let (s, ans) ← termVisitor fuel false op false (fun _ x => do
    let (h, ans) ← Heap.expection fuel x.1.heap x.1.root
    let v ← scalar ans
    pure ({ x.1 with heap := h }, x.2 + v)) s 0
  if normalized then
    let (h, sq) ← Heap.globalSquare fuel s.heap s.root
    let v ← scalar sq
    pure ({ s with heap := h }, ans * inv v)
  else pure (s, ans)

/-- `dims[l]`, ml.py 425-427. Simplification: errors of `l[0]` and of a missing array are `KeyError` and `TypeError`. -/
def leafDim (h : Heap R) (l : ℕ) : Res ℕ := do
  let (t, i) ← (h.access l).get! 0
  h.shapeAt t i

/-- `term_.get(l, np.identity(dims[l]))` with `term_ = dict(term)`, ml.py 431-433: of several pairs with the same Leaf the last
one counts. Only arrays occur here, as `f_list` is `None`; a function is evaluated at `0`. -/
def termMat (term : Term T R) (l d : ℕ) : Nd R :=
  match (term.foldl (fun (dct : Dict ℕ (TermOp T R)) p => dct.set p.1 p.2) ([] : Dict ℕ (TermOp T R))).get? l with
  | some o => o.at 0
  | none => Nd.identity d

/-- ml.py 430-434: the Kronecker product over the leaves; the number `1` is the matrix of shape `(1, 1)`. -/
def denseTerm (leaves : List (ℕ × ℕ)) (term : Term T R) : Nd R :=
  leaves.foldl (fun h p => h.kron (termMat term p.1 p.2)) ⟨[1, 1], [1]⟩

/-- `dense_hamiltonian`, ml.py 419-437; `none` is the number `0.` that is returned if there is no term. -/
def denseHamiltonian (fuel : ℕ) (s : Obj T R) : Res (Option (Nd R)) := do
  if s.fList.isSome then throw .notImplementedError
  let leaves ← s.heap.leaves fuel s.root
  let dims ← leaves.mapM fun l => do pure (l, ← leafDim s.heap l)
  s.hList.foldlM (fun ans term => match ans with
    | none => .ok (some (denseTerm dims term))
    | some m => (m.add (denseTerm dims term)).map some) none

end ML
