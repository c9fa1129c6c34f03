import Verif.WholeSpec

/-
What it means that no run is stored at a loss, for the records a decompressor reads.
-/

namespace Hrk

/-- Like `ReadsRecs`, and each record takes, without its literals, at most as many bytes as its run has, and `more l` on top of that if there
are `l` literals in front of the run. -/
def PaysRecs {σ : Type} (more : Nat → Nat) (hdr : σ → List Byte → Option (Hdr σ)) : σ → List Byte → List Rec → σ → List Byte → Prop
  | fs, src, [], fs', src' => fs = fs' ∧ src = src'
  | fs, src, r :: rs, fs', src' => ∃ f t, hdr fs src = some (.go r.lits.length r.sym (some r.count) f (r.lits ++ t)) ∧
      src.length ≤ r.count + more r.lits.length + (r.lits ++ t).length ∧ PaysRecs more hdr f t rs fs' src'

/-- What the decompressor (`start`: the bytes in front of the records, `hdr`: the header of a record) reads in every output of a compressor are
records and a last piece that stand for the input and at most `S` bytes behind it, and the records pay. -/
def RunsPay {σ : Type} (S : Nat) (more : Nat → Nat) (start : List Byte → Option (Option (σ × List Byte)))
    (hdr : σ → List Byte → Option (Hdr σ)) (comp : Compress) : Prop :=
  ∀ inp n outSize ret out, n ≤ maxInput → comp (some inp) n true outSize = .ok ret out →
    ∃ fs src rs fs' src' rest T, start (out.drop 8) = some (some (fs, src)) ∧ PaysRecs more hdr fs src rs fs' src' ∧ LastPiece hdr fs' src' rest ∧
      rs.flatMap Rec.plain ++ rest = rd inp 0 T ∧ n ≤ T ∧ T ≤ n + S

/-- Nothing on top. -/
def noMore (_ : Nat) : Nat := 0

/-- `e` bytes on top behind `L` literals or more. -/
def moreFrom (L e : Nat) (l : Nat) : Nat := if L ≤ l then e else 0

/-- What a run may cost on top of its bytes in the codecs with a table of `N` symbols of `S` bytes: 48 and 64 bit symbols nothing, the others
behind 65534 literals 1 (8 bit), 2 (16 and 32 bit) or 3 (24 bit) bytes, and 24 bit symbols 1 byte behind 126 literals (table of 3) or 62
(table of 7). -/
def slMore (N S l : Nat) : Nat :=
  if S = 6 ∨ S = 8 then 0
  else if 65534 ≤ l then if S = 1 then 1 else if S = 3 then 3 else 2
  else if S = 3 ∧ (if N = 3 then 126 else 62) ≤ l then 1
  else 0

end Hrk
