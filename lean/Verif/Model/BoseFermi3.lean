import Verif.Model.BoseFermi

/-!
`minitn/heom/bosefermi.py` 69-107: `PSD` with `pade=3`.

Numbers are exact. The arrays `d` and `sumd2` are functions: they are read only at indices below their lengths `2 N + 2` and `N + 1`.
-/

open Py

namespace BoseFermi

noncomputable section

/-- bosefermi.py 76: `d[2 * i - 1]`. -/
def coefOdd (temp i : ℝ) : ℝ := -4 * i * i * (temp + 2 * i - 2) * (temp + 2 * i - 2) * (temp + 4 * i - 2)

/-- bosefermi.py 77: `d[2 * i]`. -/
def coefEven (temp i : ℝ) : ℝ := -0.25 * (temp + 4 * i) / i / (i + 1) / (temp + 2 * i - 2) / (temp + 2 * i)

/-- bosefermi.py 71-77: the array `d`, for `temp` and `N`. -/
def coefs (temp : ℝ) (N k : ℕ) : ℝ :=
  if k = 0 then 0.25 / temp
  else if k = 2 * N + 1 then -4 * ((N : ℝ) + 1) * (N + 1) * (temp + 2 * N) * (temp + 2 * N) * (temp + 4 * N + 2)
  else if k % 2 = 1 then coefOdd temp ((k + 1) / 2 : ℕ)
  else coefEven temp (k / 2 : ℕ)

/-- bosefermi.py 78-81: the array `sumd2`. -/
def sumd2 (d : ℕ → ℝ) : ℕ → ℝ
  | 0 => d 1
  | i + 1 => sumd2 d i + d (2 * (i + 1) + 1)

/-- bosefermi.py 83: a term of `rn`. -/
def rnTerm (d : ℕ → ℝ) (N : ℕ) (tn : ℝ) (i : ℕ) : ℝ :=
  if i > 0 then d (2 * i) * (4 * tn * (sumd2 d N - sumd2 d (i - 1))) ^ 2 else d (2 * i)

/-- bosefermi.py 86: `doff`. -/
def doff3 (d : ℕ → ℝ) (N : ℕ) : List ℝ := (List.range (2 * N)).map fun i => 1 / Real.sqrt (d (i + 1) * d (i + 2))

/-- The variables `r0, t1, eta0, eta1, eta2` of the loop. -/
structure Eta where
  r0 : ℝ
  t1 : ℝ
  eta0 : ℝ
  eta1 : ℝ
  eta2 : ℝ

/-- bosefermi.py 94: `r1`. -/
def etaRaw (N : ℕ) (pole : List ℝ) (j : ℕ) (scaling t1 : ℝ) (i : ℕ) : Res ℝ :=
  if i = j ∨ i = N then .ok t1 else do
    let p ← Corr.item pole i
    Corr.rdiv t1 (p * p - scaling)

/-- bosefermi.py 104-105: `t1` for the next pass. -/
def etaNext (d : ℕ → ℝ) (N : ℕ) (t1 : ℝ) (i : ℕ) : Res ℝ := if i ≠ N then Corr.rdiv (sumd2 d i) (sumd2 d (i + 1)) else .ok t1

/-- bosefermi.py 93-105: one pass of the loop over `i`. -/
def etaStep (d : ℕ → ℝ) (N : ℕ) (pole : List ℝ) (j : ℕ) (scaling : ℝ) (s : Eta) (i : ℕ) : Res Eta := do
  let r ← etaRaw N pole j scaling s.t1 i
  let r2 := if r > 0 then 2 * Real.sqrt |r| else -2 * Real.sqrt |r|
  let r1 := 2 * Real.sqrt |r|
  let first := d (2 * i) * r1 * s.eta1 - 0.25 * r1 * s.r0 * scaling * s.eta0
  let second := d (2 * i + 1) * r2 * first - 0.25 * r2 * r1 * scaling * s.eta1
  let t1 ← etaNext d N s.t1 i
  pure ⟨r2, t1, first, second, second⟩

/-- bosefermi.py 90-106: `resi[j]`. -/
def residue3 (d : ℕ → ℝ) (N : ℕ) (pole : List ℝ) (j : ℕ) : Res ℝ := do
  let p ← Corr.item pole j
  let scaling := p * p
  let t1 ← Corr.rdiv 0.25 (d 1)
  let s ← (List.range (N + 1)).foldlM (etaStep d N pole j scaling) ⟨0, t1, 0, 0.5, 0⟩
  pure s.eta2

/-- bosefermi.py 69-107. -/
def third (eigvals : List ℝ → List ℝ → List ℝ) (N boseFermi : ℕ) : Res (List ℝ × List ℝ × ℝ × ℝ) := do
  let d := coefs (if boseFermi = 1 then 3 else 1) N
  let tn ← Corr.rdiv 0.25 (sumd2 d N)
  let rn := ((List.range (N + 1)).map (rnTerm d N tn)).sum
  let pole ← ((eigvals (List.replicate (2 * N + 1) 0) (doff3 d N)).take N).mapM (Corr.rdiv 2)
  let resi ← (List.range N).mapM (residue3 d N pole)
  pure (pole, resi, rn, tn)

end

end BoseFermi
