import Verif.Py.Basic
import Mathlib.Analysis.Complex.Trigonometric
import Mathlib.Analysis.SpecialFunctions.Trigonometric.Basic

/-!
`minitn/heom/corr.py` (19-206): the bath correlation functions `Correlation`, `Drude`, `Brownian`; `minitn/models/bath.py` (60-95):
`generate_BCF`.

Numbers are exact complex numbers. A division by zero, for which numpy gives `inf` or `nan` and a warning, is modelled as
`ZeroDivisionError`.
-/

open Py

namespace Corr

noncomputable section

open Classical in
/-- Division. -/
def div (a b : ℂ) : Res ℂ := if b = 0 then .error .zeroDivisionError else .ok (a / b)

/-- `Correlation`, corr.py 22-42 -/
structure Correlation where
  kMax : ℕ
  beta : Option ℝ
  coeff : List ℂ
  conjCoeff : List ℂ
  derivative : List ℂ

/-- corr.py 86-89: the loop over the poles. -/
def drudePoles (gamma lam beta : ℝ) : List (ℂ × ℂ) → Res (List ℂ × List ℂ)
  | [] => .ok ([], [])
  | (pole, res) :: rest => do
    let p ← div pole beta
    let r ← div res beta
    let c ← div (-4 * p * r * gamma * lam) (gamma ^ 2 - p ^ 2)
    let (cs, gs) ← drudePoles gamma lam beta rest
    pure (c :: cs, -p :: gs)

/-- corr.py 67-89: `c` and `g`. -/
def drudeTerms (gamma lam : ℝ) (decomp : ℕ → Res (List ℂ × List ℂ)) : ℕ → Option ℝ → Res (List ℂ × List ℂ)
  | 0, _ => .ok ([], [])
  | k + 1, none => .ok ((-Complex.I * gamma * lam) :: List.replicate k 0, (-(gamma : ℂ)) :: List.replicate k 0)
  | k + 1, some b => do
    let (poles, residues) ← decomp k
    let f ← div 1 (1 - Complex.exp (-(-Complex.I * gamma * b)))
    let (cs, gs) ← drudePoles gamma lam b (poles.zip residues)
    pure ((-2 * Complex.I * lam * gamma * f) :: cs, (-(gamma : ℂ)) :: gs)

/-- `Drude.__init__`, corr.py 57-101; `decomp` is `decompmethod`. -/
def drude (gamma lam : ℝ) (kMax : ℕ) (beta : Option ℝ) (decomp : ℕ → Res (List ℂ × List ℂ)) : Res Correlation := do
  let (c, g) ← drudeTerms gamma lam decomp kMax beta
  pure ⟨kMax, beta, c, c.map (starRingEnd ℂ), g⟩

/-- `Drude.matsubara`, corr.py 103-108 -/
def matsubara (n : ℕ) : Res (List ℂ × List ℂ) :=
  .ok ((List.range n).map fun i : ℕ => 2 * ((i : ℂ) + 1) * (Real.pi : ℂ), List.replicate n 1)

open Classical in
/-- Division of real numbers. -/
def rdiv (a b : ℝ) : Res ℝ := if b = 0 then .error .zeroDivisionError else .ok (a / b)

/-- An item of an array. -/
def item (l : List ℝ) (i : ℕ) : Res ℝ := match l[i]? with
  | some x => .ok x
  | none => .error .indexError

/-- corr.py 142-143 and 146-147: `(roots_p[j] - roots_q[i]) / (roots_q[k] - roots_q[i])`. -/
def padeFactor (rootsP rootsQ : List ℝ) (i j k : ℕ) : Res ℝ := do
  let p ← item rootsP j
  let q ← item rootsQ i
  let d ← item rootsQ k
  rdiv (p - q) (d - q)

/-- corr.py 138-148: `residues[i]`. -/
def padeResidue (n : ℕ) (rootsP rootsQ : List ℝ) (i : ℕ) : Res ℝ := do
  let res : ℝ := 0.5 * n * (2 * n + 3)
  let res ← if i < n - 1 then (do let f ← padeFactor rootsP rootsQ i i (n - 1); pure (res * f)) else pure res
  (List.range (n - 1)).foldlM (fun res j =>
    if j ≠ i then (do let f ← padeFactor rootsP rootsQ i j j; pure (res * f)) else pure res) res

/-- `Drude.pade`, corr.py 110-151. `eigvals diag subdiag` stands for the eigenvalues of the symmetric tridiagonal matrix, sorted from the
largest to the smallest (115-117). -/
def pade (eigvals : List ℝ → List ℝ → List ℝ) (n : ℕ) : Res (List ℂ × List ℂ) :=
  if n = 0 then .ok ([], [])
  else do
    let subdiagQ := (List.range (2 * n - 1)).map fun i : ℕ => 1 / Real.sqrt ((3 + 2 * i) * (5 + 2 * i))
    let poles ← ((eigvals (List.replicate (2 * n) 0) subdiagQ).take n).mapM (rdiv 2)
    let rootsQ := poles.map (· ^ 2)
    let subdiagP := (List.range (2 * n - 2)).map fun i : ℕ => 1 / Real.sqrt ((5 + 2 * i) * (7 + 2 * i))
    let invP ← ((eigvals (List.replicate (2 * n - 1) 0) subdiagP).take (n - 1)).mapM (rdiv 2)
    let rootsP := invP.map (· ^ 2)
    let residues ← (List.range n).mapM (padeResidue n rootsP rootsQ)
    pure (poles.map (fun x : ℝ => (x : ℂ)), residues.map (fun x : ℝ => (x : ℂ)))

/-- `SpectralDensityFactory.brownian`, corr.py 249-255 -/
def brownianDensity (lam omega gamma w : ℝ) : ℝ :=
  4 * lam * omega ^ 2 * gamma * w / ((w ^ 2 - omega ^ 2) ^ 2 + (2 * gamma * w) ^ 2)

/-- corr.py 168-172: `coth1` and `coth2`. -/
def coths (w1 gamma : ℝ) : Option ℝ → Res (ℂ × ℂ)
  | none => .ok (1, 1)
  | some b => do
    let c1 ← div 1 (Complex.tanh (b * (w1 - Complex.I * gamma) / 2))
    let c2 ← div 1 (Complex.tanh (b * (w1 + Complex.I * gamma) / 2))
    pure (c1, c2)

/-- corr.py 186-192: the pairs `(dk, -vk)`. -/
def brownianTerms (lam omega gamma : ℝ) (kMax : ℕ) : Option ℝ → Res (List (ℂ × ℂ))
  | none => .ok []
  | some b => (List.range (kMax - 1)).mapM fun k : ℕ => do
    let vk ← div (2 * Real.pi * (k + 1)) b
    let dk ← div (-2 * brownianDensity lam omega gamma (2 * Real.pi * (k + 1) / b)) b
    pure (dk, -vk)

/-- `Brownian.__init__`, corr.py 160-201. For `gamma > omega` numpy's square root is `nan`; `Real.sqrt` is 0 then, which is rejected like
`gamma = omega`. -/
def brownian (lam omega gamma : ℝ) (kMax : ℕ) (beta : Option ℝ) : Res Correlation := do
  let w1 : ℝ := Real.sqrt (omega ^ 2 - gamma ^ 2)
  let (coth1, coth2) ← coths w1 gamma beta
  let a ← div (lam * omega ^ 2) (2 * w1)
  let coeff := [a * (coth1 + 1), a * (coth2 - 1)]
  let conjCoeff := [a * (starRingEnd ℂ coth2 - 1), a * (starRingEnd ℂ coth1 + 1)]
  let derivative : List ℂ := [-gamma - Complex.I * w1, -gamma + Complex.I * w1]
  let ks ← brownianTerms lam omega gamma kMax beta
  pure ⟨kMax + 2, beta, coeff ++ ks.map Prod.fst, conjCoeff ++ ks.map Prod.fst, derivative ++ ks.map Prod.snd⟩

/-- bath.py 72-73: `temp_factor` -/
def tempFactor (omega : ℝ) : Option ℝ → Res ℂ
  | none => .ok 1
  | some b => div 1 ((Real.tanh (b * omega / 2) : ℝ) : ℂ)

/-- bath.py 71-80: the contribution of one mode `(omega, g)`. -/
def mode (beta : Option ℝ) (p : ℝ × ℝ) : Res (List ℂ × List ℂ × List ℂ) := do
  let (omega, g) := p
  let t ← tempFactor omega beta
  pure ([g ^ 2 / 2 * (t + 1), g ^ 2 / 2 * (t - 1)], [g ^ 2 / 2 * (t - 1), g ^ 2 / 2 * (t + 1)],
    [-Complex.I * omega, Complex.I * omega])

/-- `generate_BCF`, bath.py 60-95 -/
def generateBCF (ph : List (ℝ × ℝ)) (bathCorr : Option Correlation) (beta : Option ℝ) : Res Correlation := do
  let modes ← ph.mapM (mode beta)
  let coeff := (modes.map fun m => m.1).flatten
  let conjCoeff := (modes.map fun m => m.2.1).flatten
  let derivative := (modes.map fun m => m.2.2).flatten
  let (coeff, conjCoeff, derivative) := match bathCorr with
    | none => (coeff, conjCoeff, derivative)
    | some c => (coeff ++ c.coeff, conjCoeff ++ c.conjCoeff, derivative ++ c.derivative)
  pure ⟨coeff.length, beta, coeff, conjCoeff, derivative⟩

end

end Corr
