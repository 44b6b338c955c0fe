import Verif.Py.Lemmas
import Mathlib.Data.Fintype.BigOperators
import Mathlib.Algebra.BigOperators.Fin
import Mathlib.Analysis.Real.Sqrt

/-!
`minitn/lib/numerical.py`, lines 131-376: `DavidsonAlgorithm`.

Numbers are exact reals (`_submatrix` has the dtype `'d'`), and all vectors have one length `N`. `scipy.linalg.orth` and
`scipy.linalg.eigh` are parameters (`orth`, `eigh`). The division by the norm of a zero vector and by a zero denominator of the
preconditioner, for which numpy gives `inf` or `nan` with a warning, is a `ZeroDivisionError` here. The messages for `logging` are not
modelled, nor is the change, in search mode, of the caller's start vectors in place.
-/

open Py
open scoped BigOperators

noncomputable section

/-- An array of shape `(N,)`. -/
abbrev Vec (N : ℕ) := Fin N → ℝ

namespace Davidson

variable {N : ℕ}

/-- `np.dot(np.conj(u), v)`, for real vectors -/
def dot (u v : Vec N) : ℝ := ∑ i, u i * v i

/-- `norm(v)` -/
def norm (v : Vec N) : ℝ := Real.sqrt (dot v v)

/-- `c * v` -/
def scale (c : ℝ) (v : Vec N) : Vec N := fun i => c * v i

/-- A preconditioner: `precondition(residual, ritz_val, ritz_vec)`. -/
abbrev Precond (N : ℕ) := Vec N → ℝ → Vec N → Res (Vec N)

/-- The class attributes, lines 142-145: `tol`, `max_cycle`, `max_space`, `lin_dep_lim`. -/
structure Config where
  tol : ℝ
  maxCycle : ℕ
  maxSpace : ℕ
  linDepLim : ℝ

/-- The functions of `scipy.linalg` the class calls. `eigh m a k` is `eigh(a[:m, :m], eigvals=(0, k - 1))`: the eigenvalues and the rows of
the transposed matrix of eigenvectors. -/
structure Lib (N : ℕ) where
  orth : List (Vec N) → List (Vec N)
  eigh : ℕ → (ℕ → ℕ → ℝ) → ℕ → Res (List ℝ × List (List ℝ))

/-- The attributes of an instance. `_get_ritz_vecs` and `_get_col_ritz_vecs` are given by the coefficients `v` they close over; they are
evaluated with the present search and column space, as in the code. -/
structure State (N : ℕ) where
  matvec : Vec N → Vec N
  nVals : ℕ
  precond : Option (Precond N)
  trial : List (Vec N)
  search : List (Vec N)
  column : List (Vec N)
  maxSpace : ℕ
  sub : ℕ → ℕ → ℝ
  lastRitz : Option (List ℝ)
  ritzVals : Option (List ℝ)
  coefs : Option (List (List ℝ))
  residuals : List (Vec N)
  residualNorms : List ℝ
  convergence : List Bool

variable (cfg : Config) (lib : Lib N)

/-- `__init__`, lines 167-189 -/
def init (matvec : Vec N → Vec N) (initVecs : List (Vec N)) (nVals : ℕ) (precond : Option (Precond N)) : State N where
  matvec := matvec
  nVals := nVals
  precond := precond
  trial := initVecs
  search := []
  column := []
  maxSpace := cfg.maxSpace + 3 * nVals
  sub := fun _ _ => 0
  lastRitz := none
  ritzVals := none
  coefs := none
  residuals := []
  residualNorms := []
  convergence := []

/-- `_trans_vec`, lines 292-294: `sum(map(lambda x, y: x * y, vec, basis))`, which stops at the shorter one -/
def transVec (vec : List ℝ) (basis : List (Vec N)) : Vec N := (List.zipWith scale vec basis).foldl (fun a b i => a i + b i) fun _ => 0

/-- `self._get_ritz_vecs()` and `self._get_col_ritz_vecs()`, lines 302-307; `None` is not callable. -/
def ritzVecs (s : State N) : Res (List (Vec N)) :=
  match s.coefs with
  | none => .error .typeError
  | some v => .ok (v.map fun x => transVec x s.search)
def colRitzVecs (s : State N) : Res (List (Vec N)) :=
  match s.coefs with
  | none => .error .typeError
  | some v => .ok (v.map fun x => transVec x s.column)

/-- `_restart`, lines 191-200: the preconditioner is not passed on. -/
def restart (s : State N) : Res (State N) := do
  let vecs ← ritzVecs s
  pure { init cfg s.matvec vecs s.nVals none with ritzVals := s.ritzVals }

/-- The loop body of lines 265-270: orthogonalise against the vectors kept so far, and keep the normalised vector if its norm is larger
than `1.e-7`. -/
def keep (vecs : List (Vec N)) (v : Vec N) : List (Vec N) :=
  let w := vecs.foldl (fun v u i => v i - u i * dot u v) v
  if norm w > 1 / 10000000 then vecs ++ [scale (1 / norm w) w] else vecs

/-- `_orthonormalize`, lines 258-272 -/
def orthonormalize (useSvd : Bool) (s : State N) : State N :=
  if useSvd && !s.trial.isEmpty then { s with trial := lib.orth s.trial }
  else if !s.trial.isEmpty then { s with trial := s.trial.foldl keep [] }
  else s

/-- `self._submatrix[i, j] = x` -/
def setItem (n : ℕ) (a : ℕ → ℕ → ℝ) (i j : ℕ) (x : ℝ) : Res (ℕ → ℕ → ℝ) :=
  if i < n ∧ j < n then .ok (fun p q => if p = i ∧ q = j then x else a p q) else .error .indexError

/-- `self._submatrix[i, j]` -/
def getItem (n : ℕ) (a : ℕ → ℕ → ℝ) (i j : ℕ) : Res ℝ := if i < n ∧ j < n then .ok (a i j) else .error .indexError

/-- Lines 282-283 and 286-287: `_submatrix[i, j] = np.dot(np.conj(v[i]), a_v[j])`, `_submatrix[j, i] = np.conj(_submatrix[i, j])` -/
def setPair (n : ℕ) (v av : List (Vec N)) (a : ℕ → ℕ → ℝ) (i j : ℕ) : Res (ℕ → ℕ → ℝ) := do
  let a ← setItem n a i j (dot (v.getD i 0) (av.getD j 0))
  let x ← getItem n a i j
  setItem n a j i x

/-- Lines 285-288: the row `i` of the new block -/
def setRow (n : ℕ) (v av : List (Vec N)) (head : ℕ) (a : ℕ → ℕ → ℝ) (i : ℕ) : Res (ℕ → ℕ → ℝ) := do
  let a ← (List.range' head (i - head)).foldlM (fun a j => setPair n v av a i j) a
  setItem n a i i (dot (v.getD i 0) (av.getD i 0))

/-- `_extend_space`, lines 274-289 -/
def extendSpace (s : State N) : Res (State N) := do
  let head := s.search.length
  let v := s.search ++ s.trial
  let av := s.column ++ s.trial.map s.matvec
  let tail := v.length
  let a ← (List.range head).foldlM
    (fun a i => (List.range' head (tail - head)).foldlM (fun a j => setPair s.maxSpace v av a i j) a) s.sub
  let a ← (List.range' head (tail - head)).foldlM (fun a i => setRow s.maxSpace v av head a i) a
  pure { s with search := v, column := av, sub := a }

/-- `_calc_ritz_pairs`, lines 291-308. `eigh` rejects an empty range of eigenvalues. -/
def calcRitzPairs (s : State N) : Res (State N) := do
  let nSpace := s.search.length
  let nState := min nSpace s.nVals
  if nState = 0 then throw .valueError
  let (vals, v) ← lib.eigh nSpace s.sub nState
  pure { s with ritzVals := some vals, coefs := some v }

/-- `_calc_residual_norms`, lines 310-321 -/
def calcResidualNorms (s : State N) : Res (State N) := do
  let vals ← match s.ritzVals with | none => Except.error Err.typeError | some vals => Except.ok vals
  let us ← ritzVecs s
  let aus ← colRitzVecs s
  let residuals := List.zipWith (fun (theta : ℝ) (p : Vec N × Vec N) => (fun i => p.2 i - theta * p.1 i : Vec N)) vals (us.zip aus)
  if residuals = [] then throw .stopIteration
  pure { s with residuals := residuals, residualNorms := residuals.map norm }

/-- `_is_converged`, lines 233-256; `_last_convergence` is only used for messages. -/
def isConverged (s : State N) : Res (State N × Bool) := do
  let vals ← match s.ritzVals with | none => Except.error Err.typeError | some vals => Except.ok vals
  match s.lastRitz with
  | none => pure ({ s with convergence := List.replicate vals.length false }, false)
  | some last =>
    if last.length ≠ vals.length then pure ({ s with convergence := List.replicate vals.length false }, false)
    else
      let diff := List.zipWith (fun a b : ℝ => |a - b|) last vals
      let conv := List.zipWith (fun nrm d : ℝ => decide (nrm ^ 2 < cfg.tol ∧ d < cfg.tol)) s.residualNorms diff
      pure ({ s with convergence := conv }, conv.all id)

/-- `davidson_precondition`, lines 356-376 -/
def davidsonPrecondition (matvec : Vec N → Vec N) : Precond N := fun residual ritzVal _ =>
  let noise := Real.sqrt cfg.tol
  let diag : Vec N := fun i => matvec (fun j => if j = i then 1 else 0) i
  if ∀ i, ritzVal - diag i + noise ≠ 0 then .ok fun i => residual i / (ritzVal - diag i + noise) else .error .zeroDivisionError

/-- The loop body of lines 339-353 for one residual: the new trial vector, if any. -/
def trialVec (s : State N) (precond : Precond N) (ritzVal : ℝ) (residual : Vec N) (nrm : ℝ) (ritzVec : Vec N) (conv : Bool) :
    Res (Option (Vec N)) := do
  if nrm ^ 2 > cfg.linDepLim ∧ conv = false then
    let vec ← precond residual ritzVal ritzVec
    if norm vec = 0 then throw .zeroDivisionError
    let vec := scale (1 / norm vec) vec
    let vec := s.search.foldl (fun v (base : Vec N) i => v i - dot base v * base i) vec
    if (norm vec) ^ 2 > cfg.linDepLim then
      if norm vec = 0 then throw .zeroDivisionError
      pure (some (scale (1 / norm vec) vec))
    else pure none
  else pure none

/-- `_calc_trial_vecs`, lines 323-354 -/
def calcTrialVecs (s : State N) : Res (State N) := do
  let precond := s.precond.getD (davidsonPrecondition cfg s.matvec)
  if s.search = [] then throw .indexError
  let vals ← match s.ritzVals with | none => Except.error Err.typeError | some vals => Except.ok vals
  let us ← ritzVecs s
  let zipped := (s.residuals.zip s.residualNorms).zip (us.zip s.convergence)
  let trial ← zipped.foldlM (fun acc p => do
    let val ← match vals with | [] => Except.error Err.indexError | val :: _ => Except.ok val
    let v ← trialVec cfg s precond val p.1.1 p.1.2 p.2.1 p.2.2
    pure (acc ++ v.toList)) []
  pure { s with precond := some precond, trial := trial }

/-- Lines 212-213 of `kernel` -/
def grow (searchMode : Bool) (s : State N) : Res (State N) := extendSpace (orthonormalize lib (!searchMode) s)

/-- One cycle of `kernel`, lines 212-224; the flag tells whether the loop is left. -/
def cycle (searchMode : Bool) (s : State N) : Res (State N × Bool) := do
  let s ← grow lib searchMode s
  if searchMode && decide (s.search.length ≥ s.nVals) then pure (s, true)
  else
    let s ← calcRitzPairs lib s
    let s ← calcResidualNorms s
    let (s, conv) ← isConverged cfg s
    if conv then pure (s, true)
    else
      let next := (s.ritzVals.getD []).length + s.search.length
      if next > s.maxSpace then
        let s ← restart cfg s
        pure (s, false)
      else
        let s ← calcTrialVecs cfg s
        pure (s, false)

/-- `for _ in range(k)`: at most `k` cycles. The flag tells whether the loop was left by `break`; the number is the number of cycles begun. -/
def loop (searchMode : Bool) : ℕ → State N → Res (State N × Bool × ℕ)
  | 0, s => .ok (s, false, 0)
  | k + 1, s => do
    let (s, stop) ← cycle cfg lib searchMode s
    if stop then pure (s, true, 1)
    else
      let (s, stop, c) ← loop searchMode k s
      pure (s, stop, c + 1)

/-- `kernel()`, lines 202-231: the eigenvalues and eigenvectors -/
def kernel (s : State N) : Res (List ℝ × List (Vec N)) := do
  let (s, _, _) ← loop cfg lib false cfg.maxCycle s
  let vecs ← ritzVecs s
  match s.ritzVals with
  | none => throw .typeError
  | some vals => pure (vals, vecs)

/-- `kernel(search_mode=True)`: the search space -/
def kernelSearch (s : State N) : Res (List (Vec N)) := do
  let (s, _, _) ← loop cfg lib true cfg.maxCycle s
  pure s.search

end Davidson
