import Verif.Model.Mctdh

/-!
Notions for C65 - C67: the state that an MCTDH vector represents, Hamiltonians that are sums of products, and energies.
-/

open Py
open scoped BigOperators

namespace Mctdh

variable {R : Type} [CommRing R] [StarRing R]

/-- `i` is the imaginary unit; `re` and `im` give the real and the imaginary part. -/
structure Cartesian (i : R) (re im : R → R) : Prop where
  split : ∀ z, z = re z + i * im z
  reReal : ∀ z, star (re z) = re z
  imReal : ∀ z, star (im z) = im z
  iStar : star i = -i
  iSquare : i * i = -1
  reOf : ∀ x y, star x = x → star y = y → re (x + i * y) = x
  imOf : ∀ x y, star x = x → star y = y → im (x + i * y) = y

/-- Block number `i`. -/
def block (cs : List (Nd R)) (i : ℕ) : Nd R := cs.getD i ⟨[], []⟩

/-- The amplitude at grid point `x` of the state with single-particle functions `cs` and coefficients `a`: the sum over all
configurations `j` of the product of the single-particle functions `j 0`, `j 1`, ..., each at its coordinate, times the
coefficient of `j`. -/
def amplitude (cs : List (Nd R)) (a : Nd R) (x : List ℕ) : R :=
  sumIdx a.shape fun j => (∏ i ∈ Finset.range cs.length, (block cs i).get [x.getD i 0, j.getD i 0]) * a.get j

/-- The matrix `p.2` acting on coordinate `p.1` of a function of the grid points. -/
def actOn (p : ℕ × Nd R) (f : List ℕ → R) (x : List ℕ) : R :=
  ∑ k ∈ Finset.range (p.2.dim 1), p.2.get [x.getD p.1 0, k] * f (x.set p.1 k)

/-- A product of such operators (the first one acts first). -/
def actTerm (term : Term R) (f : List ℕ → R) : List ℕ → R := term.foldl (fun f p => actOn p f) f

/-- The expectation value of a sum of products in the state `f` (which need not be normalized). -/
def energy (grid : List ℕ) (terms : List (Term R)) (f : List ℕ → R) : R :=
  (terms.map fun term => sumIdx grid fun x => star (f x) * actTerm term f x).sum

/-- The blocks of a vector: one matrix for each coordinate, with as many columns as the corresponding axis of the coefficient
tensor is long; no axis is empty. -/
structure Blocks (cs : List (Nd R)) (a : Nd R) : Prop where
  wf : ∀ c ∈ cs, c.Wf
  wfA : a.Wf
  shape : ∀ c ∈ cs, ∃ n m, 0 < n ∧ 0 < m ∧ c.shape = [n, m]
  shapeA : a.shape = cs.map fun c => c.dim 1

/-- The matrices of a term are square and belong to different coordinates. -/
structure TermOk (cs : List (Nd R)) (term : Term R) : Prop where
  coord : ∀ p ∈ term, p.1 < cs.length
  shape : ∀ p ∈ term, p.2.shape = [(block cs p.1).dim 0, (block cs p.1).dim 0]
  nodup : (term.map Prod.fst).Nodup

/-- The columns are orthonormal. -/
def Orthonormal (c : Nd R) : Prop := ∀ j < c.dim 1, ∀ k < c.dim 1,
  (∑ x ∈ Finset.range (c.dim 0), star (c.get [x, j]) * c.get [x, k]) = if j = k then 1 else 0

/-- All entries are real. -/
def IsReal (im : R → R) (c : Nd R) : Prop := ∀ z ∈ c.data, im z = 0

/-- The overlap of the function `f` of the grid points with configuration `j` (a product of single-particle functions). -/
def project (cs : List (Nd R)) (f : List ℕ → R) (j : List ℕ) : R :=
  sumIdx (cs.map fun c => c.dim 0) fun y => (∏ l ∈ Finset.range cs.length, star ((block cs l).get [y.getD l 0, j.getD l 0])) * f y

/-- The same, except that at coordinate `i` it is not the single-particle function number `j i` but the grid point `j i`. -/
def projectAt (cs : List (Nd R)) (i : ℕ) (f : List ℕ → R) (j : List ℕ) : R :=
  sumIdx (cs.map fun c => c.dim 0) fun y => (∏ l ∈ Finset.range cs.length,
    if l = i then (if j.getD l 0 = y.getD l 0 then 1 else 0) else star ((block cs l).get [y.getD l 0, j.getD l 0])) * f y

/-- The mean field of `f` for coordinate `i`: its overlaps with the products of grid point `x` of coordinate `i` and the state of the other
coordinates that belongs to single-particle function `k`. -/
def meanField (cs : List (Nd R)) (a : Nd R) (i : ℕ) (f : List ℕ → R) (x k : ℕ) : R :=
  sumIdx (a.shape.eraseIdx i) fun j => projectAt cs i f (j.insertIdx i x) * star (a.get (j.insertIdx i k))

/-- The density matrix of coordinate `i`, plus `err` on the diagonal. -/
def density (a : Nd R) (err : R) (i k l : ℕ) : R :=
  (sumIdx (a.shape.eraseIdx i) fun j => a.get (j.insertIdx i k) * star (a.get (j.insertIdx i l))) + if k = l then err else 0

/-- The density matrix as an array: what is inverted. -/
def densityArray (a : Nd R) (err : R) (i : ℕ) : Nd R :=
  Nd.ofFn [a.shape.getD i 0, a.shape.getD i 0] fun p => density a err i (p.getD 0 0) (p.getD 1 0)

/-- `inv` gives a left inverse of the matrix `d`. -/
def Inverts (inv : Nd R → Res (Nd R)) (d : Nd R) : Prop := ∃ e, inv d = .ok e ∧ e.shape = d.shape ∧
  ∀ p < d.dim 0, ∀ q < d.dim 0, (∑ k ∈ Finset.range (d.dim 0), e.get [p, k] * d.get [k, q]) = if p = q then 1 else 0

/-- A sum of products acting on a function of the grid points. -/
def actSum (terms : List (Term R)) (f : List ℕ → R) (x : List ℕ) : R := (terms.map fun term => actTerm term f x).sum

/-- The part of the function `g` of the grid points of one coordinate that is orthogonal to the columns of `c`, if they are orthonormal. -/
def outside (c : Nd R) (g : ℕ → R) (x : ℕ) : R :=
  g x - ∑ j ∈ Finset.range (c.dim 1), c.get [x, j] * ∑ y ∈ Finset.range (c.dim 0), star (c.get [y, j]) * g y

/-- The equations of motion of MCTDH, without the factor `-i`, at the state with single-particle functions `cs` and coefficients `a`: `ds` are
the derivatives of the single-particle functions and `da` that of the coefficients.

* The derivative of coefficient `j` is the overlap of `H Ψ` with configuration `j`.
* The derivatives of the single-particle functions are orthogonal to all single-particle functions of the same coordinate.
* Multiplied by the density matrix, they are the part of the mean field of `H Ψ` outside the single-particle functions. -/
structure Equations (cs : List (Nd R)) (a : Nd R) (err : R) (terms : List (Term R)) (ds : List (Nd R)) (da : Nd R) : Prop where
  shapes : (ds ++ [da]).map Nd.shape = (cs ++ [a]).map Nd.shape
  wf : ∀ d ∈ ds ++ [da], d.Wf
  coefficients : ∀ j, Valid a.shape j → da.get j = project cs (actSum terms (amplitude cs a)) j
  gauge : ∀ i < cs.length, ∀ j < (block cs i).dim 1, ∀ k < (block cs i).dim 1,
    (∑ x ∈ Finset.range ((block cs i).dim 0), star ((block cs i).get [x, j]) * (block ds i).get [x, k]) = 0
  functions : ∀ i < cs.length, ∀ x < (block cs i).dim 0, ∀ q < (block cs i).dim 1,
    (∑ k ∈ Finset.range ((block cs i).dim 1), (block ds i).get [x, k] * density a err i k q) =
      outside (block cs i) (fun y => meanField cs a i (actSum terms (amplitude cs a)) y q) x

end Mctdh
