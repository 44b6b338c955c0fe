import Verif.Model.Heom

/-!
What a sum of products does to an extended density, and the hierarchical equations of motion.
-/

open scoped BigOperators
open Py

namespace Heom

noncomputable section

/-- A term acts by `partial_product`, each matrix on its axis ("acting on 0-th index", hierachy.py 139). -/
def applyTerm (rho : Nd ℂ) (t : Term) : Res (Nd ℂ) :=
  t.foldlM (fun a m => Tensor.partialProduct a m.1 (some m.2) 0) rho

/-- The derivative of the extended density: the sum of what the terms give. -/
def derivativeOf (terms : List Term) (rho : Nd ℂ) : Res (Nd ℂ) :=
  terms.foldlM (fun acc t => do acc.add (← applyTerm rho t)) (Nd.ofFn rho.shape fun _ => 0)

/-- The member `n` of the hierarchy, its entry `(a, b)`. -/
def tier (rho : Nd ℂ) (n : List ℕ) (a b : ℕ) : ℂ := rho.get (n ++ [a, b])

/-- The member below in mode `k`: zero if there is none. -/
def below (rho : Nd ℂ) (n : List ℕ) (k a b : ℕ) : ℂ :=
  if n.getD k 0 = 0 then 0 else tier rho (n.set k (n.getD k 0 - 1)) a b

/-- The member above in mode `k`: zero if the hierarchy is truncated there. -/
def above (dims : List ℕ) (rho : Nd ℂ) (n : List ℕ) (k a b : ℕ) : ℂ :=
  if n.getD k 0 + 1 < dims.getD k 0 then tier rho (n.set k (n.getD k 0 + 1)) a b else 0

/-- The hierarchical equations of motion: the right-hand side for the member `n`, entry `(a, b)`:
`-i [h, ρ_n] + Σ_k (γ_k n_k ρ_n - i (q X_k - X'_k q))` with `X_k = c_k down(n_k) ρ_{n - e_k} + up(n_k) ρ_{n + e_k}` and `X'_k` the same
with `c'_k`. -/
def heomRhs (d : ℕ) (dims : List ℕ) (h q : ℕ → ℕ → ℂ) (γ c c' : ℕ → ℂ) (down up : ℕ → ℂ) (rho : Nd ℂ) (n : List ℕ) (a b : ℕ) : ℂ :=
  let X := fun (c : ℕ → ℂ) k a b => c k * down (n.getD k 0) * below rho n k a b + up (n.getD k 0) * above dims rho n k a b;
  -Complex.I * ((∑ s ∈ Finset.range d, h a s * tier rho n s b) - ∑ s ∈ Finset.range d, tier rho n a s * h s b)
  + ∑ k ∈ Finset.range dims.length,
    (γ k * n.getD k 0 * tier rho n a b
      - Complex.I * ((∑ s ∈ Finset.range d, q a s * X c k s b) - ∑ s ∈ Finset.range d, X c' k a s * q s b))

/-- The entries of a matrix. -/
def entries (M : Nd ℂ) (a b : ℕ) : ℂ := M.get [a, b]

/-- The trace of the physical density matrix (the zeroth member). -/
def physicalTrace (d : ℕ) (dims : List ℕ) (rho : Nd ℂ) : ℂ :=
  ∑ s ∈ Finset.range d, tier rho (List.replicate dims.length 0) s s

/-- Every member of the hierarchy is Hermitian. -/
def AllHermitian (d : ℕ) (dims : List ℕ) (rho : Nd ℂ) : Prop :=
  ∀ n, Valid dims n → ∀ a b, a < d → b < d → tier rho n b a = (starRingEnd ℂ) (tier rho n a b)

end

end Heom
