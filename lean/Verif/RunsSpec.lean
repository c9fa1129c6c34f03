import Verif.Spec

/-
What the table of a low entropy stream is about, written without the code that makes it: the runs of a list of bytes.
-/

namespace Hrk

/-- The runs of a list of bytes: each maximal stretch of equal bytes, as the byte and its length. -/
def runsOf : List Byte → List (Byte × Nat)
  | [] => []
  | b :: r =>
    match runsOf r with
    | [] => [(b, 1)]
    | (c, k) :: t => if b = c then (c, k + 1) :: t else (b, 1) :: (c, k) :: t

/-- In how many pieces the runs of `v` are stored when a piece is at most about `blk` bytes long: `length / blk + 1` each, summed up. -/
def allPieces (blk : Nat) (v : Byte) : List (Byte × Nat) → Nat
  | [] => 0
  | (c, k) :: t => (if c = v then k / blk + 1 else 0) + allPieces blk v t

/-- The same, but the last run of the list counts as one piece however long it is. -/
def pieces (blk : Nat) (v : Byte) : List (Byte × Nat) → Nat
  | [] => 0
  | [(c, _)] => if c = v then 1 else 0
  | (c, k) :: y :: t => (if c = v then k / blk + 1 else 0) + pieces blk v (y :: t)

example : runsOf [7, 7, 7, 1, 7, 7] = [(7, 3), (1, 1), (7, 2)] := by decide
example : allPieces 2 7 (runsOf [7, 7, 7, 1, 7, 7]) = 4 ∧ pieces 2 7 (runsOf [7, 7, 7, 1, 7, 7]) = 3 := by decide

end Hrk
