import Verif.Spec.Eom
import Verif.Spec.Normalize
import Verif.Model.DirectSolve

/-!
Specification for `direct_step` with a solver of `scipy.integrate`.
-/

open Py

namespace DirectSolve

open ML (Obj IsGradient IsForce IsDensity)

variable {K T R Z : Type} [Zero T] [Field R] [StarRing R]

/-- The vector `y` lists the entries of the arrays `p t`, one for every tensor of the network in the order of a walk from the root, with the shapes of
the arrays of the network. -/
structure Parts (h : Heap R) (r : ℕ) (F : Forest) (y : List R) (p : ℕ → Nd R) : Prop where
  flat : y = (h.tensors r F).flatMap fun t => (p t).data
  wf : ∀ t ∈ h.tensors r F, (p t).Wf
  shape : ∀ t ∈ h.tensors r F, ∀ A, h.array t = some A → (p t).shape = A.shape

/-- The number of entries of all arrays. -/
def size (h : Heap R) (r : ℕ) (F : Forest) : ℕ :=
  ((h.tensors r F).map fun t => match h.array t with | none => 0 | some A => A.shape.prod).sum

/-- The object `s'` has the network, the terms and the root of `s`; the arrays of the tensors may differ, but not their shapes. Nothing is said about
`aux`, the cached contractions, the operators on the leaves and the stored mean fields. -/
structure SameShape (s s' : Obj T R) : Prop where
  root : s'.root = s.root
  hList : s'.hList = s.hList
  fList : s'.fList = s.fList
  next : s'.heap.next = s.heap.next
  access : ∀ t, s'.heap.access t = s.heap.access t
  leaf : ∀ t, s'.heap.isLeaf t = s.heap.isLeaf t
  axis : ∀ t, (s'.heap.node t).axis = (s.heap.node t).axis
  mark : ∀ t, (s'.heap.node t).normalized = (s.heap.node t).normalized
  name : ∀ t, (s'.heap.node t).name = (s.heap.node t).name
  shape : ∀ t, s.heap.isLeaf t = false → (s'.heap.array t).map Nd.shape = (s.heap.array t).map Nd.shape

/-- … and the arrays stay well-formed. -/
structure Kin (s s' : Obj T R) : Prop extends SameShape s s' where
  wf : ∀ c A, s.heap.isLeaf c = false → s.heap.array c = some A → A.Wf → ∃ B, s'.heap.array c = some B ∧ B.Wf ∧ B.shape = A.shape

/-- As `SameShape`, and the arrays of all tensors are the same. -/
structure SameNet (s s' : Obj T R) : Prop extends SameShape s s' where
  array : ∀ t, s.heap.isLeaf t = false → s'.heap.array t = s.heap.array t

/-- `inv` holds the inverses (as computed) of the densities of `s`. -/
def Inverses (lin : ML.Linalg R) (s : Obj T R) (F : Forest) (inv : Dict ℕ (Nd R)) : Prop :=
  ∀ e ∈ s.heap.bonds s.root F, ∃ d M, inv.get? e.2.2.1 = some M ∧ IsDensity s e.2.2.1 e.2.2.2 d ∧
    lin.invert (some d) (s.heap.hdim (e.2.2.1, e.2.2.2)) = .ok M

/-- `d` is the right-hand side of the equations of motion for the arrays in `y`, with the mean fields and the inverse densities `inv` of the object
`s`: for the array `A` of `y` for tensor `t`, `G` is the gradient of the energy of the network `s` in which the array of `t`, and no other, is
replaced by `A`. -/
def Frozen (s : Obj T R) (F : Forest) (inv : Dict ℕ (Nd R)) (coef : R) (initEnergy : Option R) (y d : List R) : Prop :=
  ∃ p q, Parts s.heap s.root F y p ∧ Parts s.heap s.root F d q ∧ ∀ t ∈ s.heap.tensors s.root F, ∃ G X,
    G.shape = (p t).shape ∧ X.shape = (p t).shape ∧ IsForce (p t) (s.heap.node t).axis (inv.get? t) G X ∧
    IsGradient { s with heap := s.heap.setArray t (some (p t)) } F t (p t) (s.allTerms none) G ∧
    ∀ w, Valid (p t).shape w → (q t).get w = X.get w / coef - (if t = s.root then initEnergy.getD 0 * (p t).get w else 0)

/-- `B` is the array `A` of a tensor with the given axis, normalized: without an axis, `A` divided by its norm; otherwise its slices are orthonormal and the first
`j` of them span the same space as the first `j` slices of `A`, for all `j`. -/
def Normalized (A B : Nd R) (axis : Option ℕ) : Prop :=
  match axis with
  | none => ∃ c, c * c = sumIdx A.shape (fun w => A.get w * star (A.get w)) ∧ c ≠ 0 ∧ ∀ w, Valid A.shape w → B.get w = A.get w / c
  | some k =>
    (∀ i < A.shape.getD k 1, ∀ j < A.shape.getD k 1, sumIdx (A.shape.eraseIdx k) (fun q =>
      B.get (q.insertIdx k i) * star (B.get (q.insertIdx k j))) = if i = j then 1 else 0) ∧
    ∀ j ≤ A.shape.getD k 1, Submodule.span R {x | ∃ i < j, x = Heap.slice (A.shape.eraseIdx k) B k i} =
      Submodule.span R {x | ∃ i < j, x = Heap.slice (A.shape.eraseIdx k) A k i}

/-- The array can be normalized: it is not zero, or its slices are linearly independent. -/
def Regular (A : Nd R) (axis : Option ℕ) : Prop :=
  match axis with
  | none => sumIdx A.shape (fun w => A.get w * star (A.get w)) ≠ 0
  | some k => LinearIndependent R fun i : Fin (A.shape.getD k 1) => Heap.slice (A.shape.eraseIdx k) A k i

/-- `s'` is `s` with the arrays of the vector `y`, normalized at the tensors that are marked as normalized. -/
def Updated (s : Obj T R) (F : Forest) (y : List R) (s' : Obj T R) : Prop :=
  Kin s s' ∧ s'.time = s.time ∧ ∃ p, Parts s.heap s.root F y p ∧ ∀ t ∈ s.heap.tensors s.root F, ∃ B, s'.heap.array t = some B ∧ B.Wf ∧
    B.shape = (p t).shape ∧
      (if (s.heap.node t).normalized then Normalized (p t) B (s.heap.node t).axis else B = p t)

/-- The time of the object at an evaluation at time `t`: there is none in imaginary time. -/
def clock (c : Config T R) (t : T) : Option T := match c.imaginary with
  | true => none
  | false => some t

/-- What a log says, for the object `cur` before it, the object at the last `reformer()` with the inverse densities, and the object `fin` after it. -/
def Follows (c : Config T R) (F : Forest) : Obj T R → Option (Obj T R × Dict ℕ (Nd R)) → List (Event T R) → Obj T R → Prop
  | cur, _, [], fin => SameNet cur fin ∧ fin.time = cur.time
  | cur, _, .reform s inv :: log, fin => SameNet cur s ∧ s.time = cur.time ∧ Inverses c.lin s F inv ∧ Follows c F s (some (s, inv)) log fin
  | cur, last, .eval t y d :: log, fin =>
    (∃ s inv, last = some (s, inv) ∧ Frozen s F inv (c.coef (clock c t)) c.initEnergy y d) ∧
      Follows c F { cur with time := clock c t } last log fin
  | cur, last, .update y s :: log, fin => Updated cur F y s ∧ Follows c F s last log fin

/-- What is assumed of the object before `direct_step`: as in `DirectReady`, without orthonormal slices; the operators fit at all times. -/
structure Ready (s : Obj T R) (F : Forest) : Prop where
  ttn : s.heap.IsTTN s.root F
  rooted : s.heap.Rooted s.root F
  norm : ∀ t ∈ s.heap.tensors s.root F, (s.heap.node t).axis ≠ none → s.heap.MarkOk t
  axes : ∀ l ∈ F.ids, s.heap.isLeaf l = true → (s.heap.node l).axis = none
  leaf : ∀ term ∈ s.allTerms none, ∀ p ∈ term, s.heap.isLeaf p.1 = true
  fits : ∀ time, ∀ term ∈ s.allTerms none, ∀ p ∈ s.heap.leafList s.root F, Heap.OpFits (ML.opOn time term p.1) p.2 p.2
  terms : s.allTerms none ≠ []

/-- `lin` inverts every square matrix, in whatever way. -/
def Total (lin : ML.Linalg R) : Prop := ∀ n (d : Nd R), d.Wf → d.shape = [n, n] → ∃ M, lin.invert (some d) n = .ok M ∧ M.shape = [n, n]

/-- A program of the solver asks for derivatives at vectors of length `n` only, ends in states in `P` and raises exceptions in `E`, provided that the
derivatives it is given have length `n`. -/
def Evals.Fits (n : ℕ) (P : Z → Prop) (E : Err → Prop) : Evals T R Z → Prop
  | .ret z => P z
  | .raise e => E e
  | .eval _ y next => y.length = n ∧ ∀ d, d.length = n → (next d).Fits n P E

/-- The solver works with vectors of the right length, and the vectors it returns can be normalized where the tensors of `s` are marked as normalized (no
condition if there are no marks). `P` is a set of states that it does not leave, `E` are the exceptions it may raise. -/
structure Solver.Fits (o : Solver K T R Z) (s : Obj T R) (F : Forest) (P : Z → Prop) (E : Err → Prop) : Prop where
  init : ∀ t y tau, y.length = size s.heap s.root F → (o.init t y tau).Fits (size s.heap s.root F) P E
  step : ∀ z, P z → (o.step z).Fits (size s.heap s.root F) P E
  length : ∀ z, P z → (o.y z).length = size s.heap s.root F
  regular : ∀ z, P z → ∀ p, Parts s.heap s.root F (o.y z) p → ∀ t ∈ s.heap.tensors s.root F, (s.heap.node t).normalized = true →
    Regular (p t) (s.heap.node t).axis

/-- What a program of the solver does when it is given the derivatives in the log, and how it ends: the log has its evaluations in order. -/
inductive Evals.Trace : Evals T R Z → List (Event T R) → Res Z → Prop
  | ret (z : Z) : Trace (.ret z) [] (.ok z)
  | raise (e : Err) : Trace (.raise e) [] (.error e)
  | eval (t : T) (y d : List R) {next : List R → Evals T R Z} {log : List (Event T R)} {r : Res Z} :
    Trace (next d) log r → Trace (.eval t y next) (.eval t y d :: log) r

/-- The log begins with a `reformer()`, and nothing else, before pass `n` of the loop if `n` is a multiple of `cmf`. -/
def Refresh (cmf n : ℕ) (log : List (Event T R)) : Prop :=
  if n % cmf = 0 then ∃ s inv, log = [.reform s inv] else log = []

/-- What the loop does with a solver in the state `z` before pass `n`, and how it ends: `reformer()` every `cmf` passes, then one `step()` and
`updater(y)` with the vector of the solver, as long as it is running; a warning at a multiple of `cmf` from `maxSteps` on. (The model may run out of fuel.) -/
inductive Solver.Drives (o : Solver K T R Z) (cmf : ℕ) (maxSteps : ℤ) : ℕ → Z → List (Event T R) → Res Unit → Prop
  | finished (n : ℕ) {z : Z} : o.status z ≠ .running → Drives o cmf maxSteps n z [] (.ok ())
  | fuel (n : ℕ) (z : Z) : Drives o cmf maxSteps n z [] (.error .outOfFuel)
  | limit {n : ℕ} {z : Z} : o.status z = .running → n % cmf = 0 → maxSteps ≤ n → Drives o cmf maxSteps n z [] (.error .runtimeWarning)
  | raise {n : ℕ} {z : Z} {a l : List (Event T R)} {e : Err} : o.status z = .running → (n % cmf = 0 → n < maxSteps) → Refresh cmf n a →
    (o.step z).Trace l (.error e) → Drives o cmf maxSteps n z (a ++ l) (.error e)
  | step {n : ℕ} {z z' : Z} {a l m : List (Event T R)} {s : Obj T R} {r : Res Unit} : o.status z = .running → (n % cmf = 0 → n < maxSteps) →
    Refresh cmf n a → (o.step z).Trace l (.ok z') → Drives o cmf maxSteps (n + 1) z' m r →
    Drives o cmf maxSteps n z (a ++ l ++ .update (o.y z') s :: m) r

/-- The log of `direct_step`: `reformer()`, the constructor of the solver with the present time and the arrays of the network, and the loop. -/
def Solver.Session (o : Solver K T R Z) (c : Config T R) (F : Forest) (s : Obj T R) (tau : K) (log : List (Event T R)) (r : Res Unit) : Prop :=
  ∃ inv y p, Parts s.heap s.root F y p ∧ (∀ t ∈ s.heap.tensors s.root F, s.heap.array t = some (p t)) ∧
    ((∃ l e, (o.init (s.time.getD 0) y tau).Trace l (.error e) ∧ log = .reform s inv :: l ∧ r = .error e) ∨
      ∃ l m z, (o.init (s.time.getD 0) y tau).Trace l (.ok z) ∧ o.Drives c.cmfSteps c.maxOdeSteps 1 z m r ∧ log = .reform s inv :: (l ++ m))

end DirectSolve
