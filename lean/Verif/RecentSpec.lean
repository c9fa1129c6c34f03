import Verif.Basic

/-
What it means that a stream leaves out the symbols that were used recently, written without the codecs.
-/

namespace Hrk

/-- The first `N` different entries of a list. -/
def firstDistinct {α : Type} [DecidableEq α] : Nat → List α → List α
  | 0, _ => []
  | _ + 1, [] => []
  | N + 1, x :: l => x :: firstDistinct N (l.filter fun y => y ≠ x)

/-- A record of a stream: some bytes as they are, then a run of `count` bytes, the symbol repeated. -/
structure Rec where
  lits : List Byte
  sym : List Byte
  count : Nat

/-- What a record stands for. -/
def Rec.plain (r : Rec) : List Byte := r.lits ++ runBytes r.sym r.count

/-- How records are stored: each as a header of `hd count (number of literals)` bytes and the literals; within the header there is the
symbol, unless it is one of the `N` different symbols that were used last. `seen`: the symbols used so far, the last one first, and behind
them those the codec starts with. -/
def Stored (hd : Nat → Nat → Nat) (N : Nat) : List (List Byte) → List Rec → List Byte → Prop
  | _, [], b => b = []
  | seen, r :: rs, b => ∃ h₁ h₂ b', b = (h₁ ++ (if r.sym ∈ firstDistinct N seen then [] else r.sym) ++ h₂) ++ r.lits ++ b' ∧
      h₁.length + h₂.length = hd r.count r.lits.length ∧ Stored hd N (r.sym :: seen) rs b'

example : firstDistinct 3 [5, 5, 7, 5, 1, 7, 2] = [5, 7, 1] := by decide

end Hrk
