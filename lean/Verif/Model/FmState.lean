import Verif.Model.Dmrg

/-!
The start states of dmrg.py.
-/

namespace Dmrg

variable {R : Type} [CommRing R]

/-- `up`, dmrg.py 55-56 -/
def up : Nd R := ⟨[2, 1, 1], [1, 0]⟩

/-- `down`, dmrg.py 57-58 -/
def down : Nd R := ⟨[2, 1, 1], [0, 1]⟩

/-- `fm_state(N, anti)`, dmrg.py 39-63; `int(N / 2)` is `N / 2` rounded down (exact for `N < 2 ** 53`). The list holds the same two
arrays many times; nothing writes to them. -/
def fmState (N : ℕ) (anti : Bool) : List (Nd R) :=
  if anti then (List.replicate (N / 2) [up, down]).flatten else List.replicate N up

end Dmrg
