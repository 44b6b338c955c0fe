import Verif.Model.Dmrg

/-!
Model of the fourth result of `compress_svd`, `minitn/algorithms/dmrg.py`.
-/

namespace Dmrg

variable {R : Type} [CommRing R]

/-- `compress_svd(U, S, V, m)[3]`, the compress error, dmrg.py 249-250 -/
def compressError (S : List R) (m : ℕ) : R :=
  let dim := min S.length m
  (S.drop dim).sum

end Dmrg
