import Verif.Model.Dmrg

/-!
What a matrix product state and a matrix product operator stand for.
-/

open scoped BigOperators

namespace Dmrg

variable {R : Type} [CommRing R]

/-- `mps` is a list of matrices with the physical dimensions `ds`, from the bond dimension `i` on the left to `j` on the right. -/
def IsMps : List ℕ → ℕ → ℕ → List (Nd R) → Prop
  | [], i, j, [] => i = j
  | d :: ds, i, j, A :: mps => ∃ m, A.shape = [d, i, m] ∧ IsMps ds m j mps
  | _, _, _, _ => False

/-- `mpo` is a list of operator matrices with the physical dimensions `ds` and `es`, from the bond dimension `a` on the left to `b`
on the right. -/
def IsMpo : List ℕ → List ℕ → ℕ → ℕ → List (Nd R) → Prop
  | [], [], a, b, [] => a = b
  | d :: ds, e :: es, a, b, W :: mpo => ∃ m, W.shape = [a, m, d, e] ∧ IsMpo ds es m b mpo
  | _, _, _, _, _ => False

/-- The entry `(i, j)` of the product of the matrices `A₀[σ₀] A₁[σ₁] ⋯` selected by the configuration `σ`. -/
def mpsProd : List (Nd R) → List ℕ → ℕ → ℕ → R
  | [], _, i, j => if i = j then 1 else 0
  | A :: mps, σ, i, j => ∑ m ∈ Finset.range (A.dim 2), A.get [σ.headD 0, i, m] * mpsProd mps σ.tail m j

/-- The entry `(a, b)` of the product of the matrices `W₀[σ₀, τ₀] W₁[σ₁, τ₁] ⋯`. -/
def mpoProd : List (Nd R) → List ℕ → List ℕ → ℕ → ℕ → R
  | [], _, _, a, b => if a = b then 1 else 0
  | W :: mpo, σ, τ, a, b =>
    ∑ m ∈ Finset.range (W.dim 1), W.get [a, m, σ.headD 0, τ.headD 0] * mpoProd mpo σ.tail τ.tail m b

/-- The sum over all configurations `σ`, `τ` of the products of matrices of `mps1`, `mpo` and `mps2`, between the bond indices
`p = [a, i, k]` of `mpo`, `mps1`, `mps2` on the left and `q` on the right. -/
def chain (ds es : List ℕ) (mps1 mpo mps2 : List (Nd R)) (p q : List ℕ) : R :=
  sumIdx ds fun σ => sumIdx es fun τ =>
    mpsProd mps1 σ (p.getD 1 0) (q.getD 1 0) * mpoProd mpo σ τ (p.getD 0 0) (q.getD 0 0) *
      mpsProd mps2 τ (p.getD 2 0) (q.getD 2 0)

/-- The same without operator, `p = [i, k]`. -/
def overlap (ds : List ℕ) (mps1 mps2 : List (Nd R)) (p q : List ℕ) : R :=
  sumIdx ds fun σ => mpsProd mps1 σ (p.getD 0 0) (q.getD 0 0) * mpsProd mps2 σ (p.getD 1 0) (q.getD 1 0)

/-- `L` is the contraction of the matrices of `mps`, of the operator and of `mps` again, of the sites left of `i`. -/
def LeftEnv (ds : List ℕ) (mpo mps : List (Nd R)) (i : ℕ) (L : Nd R) : Prop :=
  ∃ c b, IsMps (ds.take i) 1 b (mps.take i) ∧ IsMpo (ds.take i) (ds.take i) 1 c (mpo.take i) ∧ L.Wf ∧ L.shape = [c, b, b] ∧
    ∀ q, Valid [c, b, b] q → L.get q = chain (ds.take i) (ds.take i) (mps.take i) (mpo.take i) (mps.take i) [0, 0, 0] q

/-- `Rt` is the contraction of the matrices of `mps`, of the operator and of `mps` again, of the sites `i`, `i + 1`, ... -/
def RightEnv (ds : List ℕ) (mpo mps : List (Nd R)) (i : ℕ) (Rt : Nd R) : Prop :=
  ∃ c b, IsMps (ds.drop i) b 1 (mps.drop i) ∧ IsMpo (ds.drop i) (ds.drop i) c 1 (mpo.drop i) ∧ Rt.Wf ∧ Rt.shape = [c, b, b] ∧
    ∀ p, Valid [c, b, b] p → Rt.get p = chain (ds.drop i) (ds.drop i) (mps.drop i) (mpo.drop i) (mps.drop i) p [0, 0, 0]

/-- The shapes of what `np.linalg.svd(a, full_matrices=0)` returns. -/
def SvdShape (svd : SvdFn R) : Prop :=
  ∀ (a : Nd R) (m n : ℕ), a.Wf → a.shape = [m, n] → (svd a).2.1.length = min m n ∧
    (svd a).1.Wf ∧ (svd a).1.shape = [m, min m n] ∧ (svd a).2.2.Wf ∧ (svd a).2.2.shape = [min m n, n]

/-- The product of the factors is the matrix. -/
def SvdExact (svd : SvdFn R) : Prop :=
  ∀ (a : Nd R) (m n : ℕ), a.Wf → a.shape = [m, n] → ∀ x < m, ∀ y < n,
    ∑ z ∈ Finset.range (min m n), (svd a).1.get [x, z] * (svd a).2.1.getD z 0 * (svd a).2.2.get [z, y] = a.get [x, y]

/-- The columns of `U` and the rows of `V` are orthonormal. -/
def SvdIso (svd : SvdFn R) : Prop :=
  ∀ (a : Nd R) (m n : ℕ), a.Wf → a.shape = [m, n] → ∀ z < min m n, ∀ w < min m n,
    ∑ x ∈ Finset.range m, (svd a).1.get [x, z] * (svd a).1.get [x, w] = (if z = w then 1 else 0) ∧
    ∑ y ∈ Finset.range n, (svd a).2.2.get [z, y] * (svd a).2.2.get [w, y] = (if z = w then 1 else 0)

/-- The eigenvector has the size of the start vector. -/
def EigSize (eig : EigFn R) : Prop :=
  ∀ (L W Rt v : Nd R), (eig L W Rt v).Wf ∧ (eig L W Rt v).shape.prod = v.shape.prod

end Dmrg
