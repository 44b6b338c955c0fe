import Verif.Spec.Tree

/-!
Specification: a dictionary of lists of names describes a finite tree.
-/

open Py

/-- A list of named branches: `cons n sub rest` is a branch named `n` with branches `sub`,
followed by the branches `rest`. -/
inductive NForest (κ : Type)
  | nil
  | cons (n : κ) (sub rest : NForest κ)

namespace NForest

variable {κ : Type}

/-- Names of the top-level branches. -/
def heads : NForest κ → List κ
  | nil => []
  | cons n _ rest => n :: rest.heads

/-- All names. -/
def names : NForest κ → List κ
  | nil => []
  | cons n sub rest => n :: sub.names ++ rest.names

/-- The dictionary lists below every key the names of its branches, and names that are not keys
have no branches. -/
def Describes [DecidableEq κ] (graph : Dict κ (List κ)) : NForest κ → Prop
  | nil => True
  | cons n sub rest =>
    ((Dict.get? graph n = none ∧ sub = nil) ∨ Dict.get? graph n = some sub.heads) ∧
      sub.Describes graph ∧ rest.Describes graph

/-- The tensors below some tensor, from its axis `k` on, are those described: one per name, in
the listed order on consecutive axes, each hanging by its axis 0, a Leaf iff the name is not a
key, its own branches starting at axis 1. -/
def Shape {R : Type} [DecidableEq κ] (nm : κ → List Char) (graph : Dict κ (List κ)) (h : Heap R) :
    NForest κ → ℕ → Forest → Prop
  | nil, _, F => F = .nil
  | cons n sub rest, k, F => ∃ id F₁ F₂, F = .cons k 0 id F₁ F₂ ∧
      (h.node id).name = some (nm n) ∧
      (h.isLeaf id = true ↔ Dict.get? graph n = none) ∧
      (h.isLeaf id = false → (h.node id).axis = some 0) ∧
      (h.array id = none) ∧
      Shape nm graph h sub 1 F₁ ∧ Shape nm graph h rest (k + 1) F₂

end NForest
