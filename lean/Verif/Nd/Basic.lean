import Mathlib.Algebra.BigOperators.Group.Finset.Basic
import Mathlib.Algebra.BigOperators.Group.List.Basic
import Mathlib.Algebra.Ring.Defs
import Verif.Py.Basic

/-!
Model of numpy's dense arrays: a shape and a flat list of entries in row-major (C) order.
Numpy itself is not part of `/repo`; these definitions state the documented meaning of the
numpy functions that `/repo` calls.
-/

open scoped BigOperators

/-- Row-major position of a multi-index. -/
def ravel : List ℕ → List ℕ → ℕ
  | _ :: ds, i :: is => i * ds.prod + ravel ds is
  | _, _ => 0

/-- Multi-index of a row-major position. -/
def unravel : List ℕ → ℕ → List ℕ
  | [], _ => []
  | _ :: ds, k => (k / ds.prod) :: unravel ds (k % ds.prod)

/-- `idx` is a valid multi-index for `shape`. -/
def Valid (shape idx : List ℕ) : Prop := List.Forall₂ (fun i d => i < d) idx shape

instance (shape idx : List ℕ) : Decidable (Valid shape idx) := by unfold Valid; infer_instance

/-- Sum over all multi-indices of a shape. -/
def sumIdx {α : Type*} [AddCommMonoid α] : List ℕ → (List ℕ → α) → α
  | [], f => f []
  | d :: ds, f => ∑ k ∈ Finset.range d, sumIdx ds (fun is => f (k :: is))

/-- A dense array. -/
structure Nd (α : Type*) where
  shape : List ℕ
  data : List α
  deriving DecidableEq, Repr

namespace Nd

variable {α : Type*}

/-- `a.ndim` -/
abbrev ndim (a : Nd α) : ℕ := a.shape.length

/-- The representation invariant of an ndarray: as many entries as the shape says. -/
def Wf (a : Nd α) : Prop := a.data.length = a.shape.prod

/-- `a.shape[i]` (total: 1 out of range; uses are guarded) -/
def dim (a : Nd α) (i : ℕ) : ℕ := a.shape.getD i 1

/-- `a[idx]` for a full multi-index (0 outside; uses are guarded by `Valid`). -/
def get [Zero α] (a : Nd α) (idx : List ℕ) : α := a.data.getD (ravel a.shape idx) 0

/-- Array with given entries. -/
def ofFn (shape : List ℕ) (f : List ℕ → α) : Nd α :=
  ⟨shape, (List.range shape.prod).map (fun k => f (unravel shape k))⟩

end Nd
