import Verif.Model.Split
import Mathlib.Order.Defs.LinearOrder
import Mathlib.Algebra.Order.Ring.Int
import Mathlib.Algebra.Algebra.Defs

/-!
`minitn/lib/numerical.py`, lines 403-421: `compressed_svd`.

`K` is the type of the (real) singular values, `R` the type of the matrix entries (an algebra over `K`).
-/

namespace CompressedSvd

open Py

variable {K : Type} [CommRing K] [LinearOrder K] {R : Type} [CommRing R] [Algebra K R]

/-- numerical.py 406-411: the loop `for n, s_i in reversed(list(enumerate(s)))`, over the reversed list of pairs;
`none` if the loop ends without `break`. -/
def errLoop (err : K) : List (K × ℕ) → K → Option ℤ
  | [], _ => none
  | (si, n) :: rest, total =>
    let total := total + si
    if err < total then some (n + 1) else errLoop err rest total

/-- numerical.py 405-413: the rank after the treatment of `err`. -/
def finalRank (s : List K) (rank : Option ℤ) (err : Option K) : Option ℤ :=
  match err with
  | none => rank
  | some e =>
    match errLoop e s.zipIdx.reverse 0 with
    | some r => some r
    | none => match rank with
      | none => some 1
      | some r => some r

/-- `np.diag(s)` -/
def diag (s : List K) : Nd R :=
  Nd.ofFn [s.length, s.length] fun idx =>
    if idx.getD 0 0 = idx.getD 1 0 then algebraMap K R (s.getD (idx.getD 0 0) 0) else 0

/-- `u[:, :k]` for a matrix -/
def takeCols (u : Nd R) (k : ℕ) : Nd R := Nd.ofFn [u.dim 0, min k (u.dim 1)] u.get

/-- `vh[:k, :]` for a matrix -/
def takeRows (v : Nd R) (k : ℕ) : Nd R := Nd.ofFn [min k (v.dim 0), v.dim 1] v.get

/-- numerical.py 403-421: `compressed_svd(a, rank, err)`, given what `svd(a, full_matrices=False)` returned. -/
def compress (usv : Nd R × List K × Nd R) (rank : Option ℤ) (err : Option K) : Res (Nd R × Nd R × Nd R) :=
  let (u, s, vh) := usv
  match finalRank s rank err with
  | none => .ok (u, diag s, vh)
  | some r =>
    if r ≤ 0 then .error .runtimeError
    else if r ≤ s.length then .ok (takeCols u r.toNat, diag (s.take r.toNat), takeRows vh r.toNat)
    else .ok (u, diag s, vh)

/-- numerical.py 403-421 -/
def compressedSvd (svd : Nd R → Nd R × List K × Nd R) (rank : Option ℤ) (err : Option K) : Heap.Svd R :=
  fun a => compress (svd a) rank err

end CompressedSvd
