import Verif.Model.Corr

/-!
`minitn/heom/bosefermi.py`: `MSD` (13-23) and `PSD` (26-67) with `pade` 0, 1 and 2: the Matsubara and the Padé spectrum decompositions of the Bose
and the Fermi function.

Numbers are exact. The scheme `pade=3` (69-107) is the parameter `third`, which is modelled in `Model/BoseFermi3.lean`. `eigvals diag doff` stands for `tseig` (8-10): the
eigenvalues of the symmetric tridiagonal matrix, the largest first.
-/

open Py

namespace BoseFermi

noncomputable section

/-- bosefermi.py 13-23. The result is `pole, resi, rn, tn`. -/
def msd (N boseFermi : ℕ) : Res (List ℝ × List ℝ × ℝ × ℝ) :=
  if boseFermi = 1 then .ok ((List.range N).map fun i : ℕ => 2 * ((i : ℝ) + 1) * Real.pi, List.replicate N 1, 0, 0)
  else if boseFermi = 2 then .ok ((List.range N).map fun i : ℕ => (2 * (i : ℝ) + 1) * Real.pi, List.replicate N 1, 0, 0)
  else .error .assertionError

/-- bosefermi.py 38 and 44: `doff`, for a matrix with `M` rows. -/
def doff (temp : ℝ) (M : ℕ) : List ℝ := (List.range (M - 1)).map fun i : ℕ => 1 / Real.sqrt ((temp + 2 * i) * (temp + 2 * (i + 1)))

/-- bosefermi.py 47-51: `scaling`. -/
def scaling (N boseFermi pade : ℕ) : ℝ :=
  if boseFermi = 1 then if pade = 1 then N * (2 * N + 3) else 1 / (4 * (N + 1) * (2 * N + 3))
  else if boseFermi = 2 then if pade = 1 then N * (2 * N + 1) else 1 / (4 * (N + 1) * (2 * N + 1))
  else 0

/-- bosefermi.py 54-60: `temp` before the loop over `k`. -/
def start (N pade : ℕ) (scaling : ℝ) (eig2 pol2 : List ℝ) (j : ℕ) : Res ℝ :=
  if pade = 2 then do
    let e ← Corr.item eig2 j
    let p ← Corr.item pol2 j
    pure (0.5 * scaling * (e - p))
  else if j = N - 1 then pure (0.5 * scaling)
  else do
    let e ← Corr.item eig2 j
    let p ← Corr.item pol2 j
    let q ← Corr.item pol2 (N - 1)
    Corr.rdiv (0.5 * scaling * (e - p)) (q - p)

/-- bosefermi.py 62: the factor of the loop over `k`. -/
def factor (eig2 pol2 : List ℝ) (j k : ℕ) : Res ℝ :=
  if k ≠ j then do
    let e ← Corr.item eig2 k
    let p ← Corr.item pol2 j
    let q ← Corr.item pol2 k
    Corr.rdiv (e - p) (q - p)
  else pure 1

/-- bosefermi.py 53-63: `resi[j]`. `M` is the number of entries of `eig2`. -/
def residue (N M pade : ℕ) (scaling : ℝ) (eig2 pol2 : List ℝ) (j : ℕ) : Res ℝ := do
  let temp ← start N pade scaling eig2 pol2 j
  (List.range M).foldlM (fun temp k => do
    let f ← factor eig2 pol2 j k
    pure (temp * f)) temp

/-- bosefermi.py 34-63: `pole` and `resi` for `pade` 1 and 2. -/
def poles (eigvals : List ℝ → List ℝ → List ℝ) (N boseFermi pade : ℕ) : Res (List ℝ × List ℝ) :=
  if N = 0 then .ok ([], [])
  else do
    let M := 2 * N + pade / 2
    let pole ← ((eigvals (List.replicate M 0) (doff (if boseFermi = 1 then 3 else 1) M)).take N).mapM (Corr.rdiv 2)
    let pol2 := pole.map fun x => x * x
    let M' := M - 1
    let inv ← ((eigvals (List.replicate M' 0) (doff (if boseFermi = 1 then 5 else 3) M')).take (M' / 2)).mapM (Corr.rdiv 2)
    let eig2 := inv.map (· ^ 2)
    let resi ← (List.range N).mapM (residue N (M' / 2) pade (scaling N boseFermi pade) eig2 pol2)
    pure (pole, resi)

/-- bosefermi.py 26-67. -/
def psd (eigvals : List ℝ → List ℝ → List ℝ) (third : ℕ → ℕ → Res (List ℝ × List ℝ × ℝ × ℝ)) (N boseFermi pade : ℕ) :
    Res (List ℝ × List ℝ × ℝ × ℝ) :=
  if ¬ ((boseFermi = 1 ∨ boseFermi = 2) ∧ pade < 4) then .error .assertionError
  else if pade = 0 then msd N boseFermi
  else if pade = 1 ∨ pade = 2 then do
    let (pole, resi) ← poles eigvals N boseFermi pade
    let rn : ℝ := if boseFermi = 1 ∧ pade = 2 then 1 / (4 * ((N : ℝ) + 1) * (2 * N + 3)) else 0
    pure (pole, resi, rn, 0)
  else third N boseFermi

end

end BoseFermi
