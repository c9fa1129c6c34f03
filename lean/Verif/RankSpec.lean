import Verif.Spec

/-
What the bytes a move to front coder writes mean, without a table.
-/

namespace Hrk

/-- The bytes `L`, `2 L`, `3 L`, ... places in front of place `i`, the nearest first. -/
def before (L : Nat) (src : List Byte) (i : Nat) : List Byte := (List.range (i / L)).map fun m => src.getD (i - L * (m + 1)) 0

/-- How many byte values are more recent than `x`: if `x` is among the earlier bytes (the nearest first) those that came after it, otherwise
all that came at all and all that are smaller than `x`. -/
def rank (earlier : List Byte) (x : Byte) : Nat :=
  ((List.range 256).filter fun v => decide (b8 v ∈ earlier.takeWhile (· ≠ x) ∨ (x ∉ earlier ∧ v < x.toNat))).length

end Hrk
