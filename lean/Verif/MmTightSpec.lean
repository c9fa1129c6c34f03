import Verif.MmWords

/-
What it means that rle8_mmtf128 spends no more bits than it has to, written down for the sections of a stream.
-/

namespace Hrk

/-- Bits per index. -/
def MmKind.bits : MmKind → Nat
  | .plain => 8
  | .four => 4
  | .three => 3
  | .two => 2

/-- The blocks of the section could not be packed with fewer bits per index. -/
def MmSec.Tight : MmSec → Prop
  | .copy _ kind count body => 0 < count → ∀ k : MmKind,
      (∀ b ∈ kind.blocks count body, ∀ x ∈ b, x.toNat < 2 ^ k.bits) → kind.bits ≤ k.bits
  | .rep _ _ _ => True

/-- A header takes four bytes only if one is too short for the count, and a block made of one index is never in
a copy section. -/
def MmSec.Proper : MmSec → Prop
  | .copy wide kind count body => (wide = true → 32 ≤ count) ∧ ∀ b ∈ kind.blocks count body, ∀ x, b ≠ List.replicate 16 x
  | .rep wide count _ => wide = true → 128 ≤ count

/-- Two repeat sections with no block between them have different indices. -/
def MmApart (secs : List MmSec) : Prop :=
  ∀ (A B : List MmSec) (w1 : Bool) (c1 : Nat) (i1 : Byte) (w2 : Bool) (k : MmKind) (b : List Byte) (w3 : Bool) (c3 : Nat) (i3 : Byte),
    secs = A ++ [.rep w1 c1 i1, .copy w2 k 0 b, .rep w3 c3 i3] ++ B → i1 ≠ i3

end Hrk
