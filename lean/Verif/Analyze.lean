import Verif.Basic

/-
`AnalyzeData` (src/main.c:1246-1688): the statistics about runs the tool prints with `--analyze`. The
loop over the file updates sixteen records, one per symbol length `j`, each with a part for runs that
start anywhere and a part for runs at multiples of `j`. The records do not interact, so the model
follows one part of one record over the whole file. Printing is not modelled.
-/

namespace Hrk.Analyze

/-- `t[i]++` in an array (e.g. src/main.c:1309, 1332, 1362): `none` outside of it. -/
def bump (t : List Nat) (i : Nat) : Option (List Nat) :=
  if i < t.length then some (t.modify i (· + 1)) else none

/-- `63 - __builtin_clz(x)` (src/main.c:1329): `__builtin_clz` takes a 32 bit number and is undefined for
0. -/
def topBit (x : Nat) : Option Nat :=
  let y := x % 4294967296
  if y = 0 then none else some (63 - (31 - Nat.log2 y))

/-- One part of `rle_data_t` (src/main.c:1251-1273). -/
structure Rec where
  rleBits : List Nat := List.replicate 64 0
  rleExact : List Nat := List.replicate 64 0
  emptyBits : List Nat := List.replicate 64 0
  emptyExact : List Nat := List.replicate 64 0
  lastSymbol : List (List Byte)
  recurring : List Nat := List.replicate 16 0
  rleCount : Nat := 0
  rleLength : Nat := 0
  emptyLength : Nat := 0
  current : Nat := 0
  currentNon : Nat := 0
  lastLength : Nat := 0
  lastNon : Nat := 0
  lastNonDiff : Int := 0
  copyBits : List Nat := List.replicate 256 0
  copyDiff : List Nat := List.replicate 1024 0

/-- `max(0, min(x, hi))` as an array index (src/main.c:1377, 1382). -/
def clamp (x hi : Int) : Nat := (max 0 (min x hi)).toNat

/-- Finding the symbol among the last sixteen and moving it to the front (src/main.c:1303-1318):
the table of references and the new list. -/
def recall (r : Rec) (sym : List Byte) : Option (List Nat × List (List Byte)) :=
  let i := r.lastSymbol.idxOf sym
  if i < 16 then (bump r.recurring i).map fun t => (t, sym :: (r.lastSymbol.take i ++ r.lastSymbol.drop (i + 1)))
  else some (r.recurring, sym :: r.lastSymbol.take 15)

/-- The end of a stretch without repetition (src/main.c:1323-1342); nothing if there is none. -/
def endNon (r : Rec) : Option Rec :=
  if r.currentNon = 0 then some r
  else
    (topBit r.currentNon).bind fun index =>
    (bump r.emptyBits index).bind fun eb =>
    (if r.currentNon ≤ 64 then bump r.emptyExact (r.currentNon - 1) else some r.emptyExact).bind fun ee =>
    some { r with
      emptyBits := eb, emptyExact := ee, emptyLength := r.emptyLength + r.currentNon,
      lastNonDiff := (r.currentNon : Int) - r.lastLength, lastNon := r.currentNon, currentNon := 0 }

/-- The end of a run (src/main.c:1353-1386); nothing if there is none. -/
def endRun (r : Rec) : Option Rec :=
  if r.current = 0 then some r
  else
    (topBit r.current).bind fun index =>
    (bump r.rleBits index).bind fun rb =>
    (if r.current ≤ 64 then bump r.rleExact (r.current - 1) else some r.rleExact).bind fun re =>
    (topBit r.lastNon).bind fun nonBits =>
    (bump r.copyBits (clamp ((nonBits : Int) - 1) 15 * 16 + clamp ((index : Int) - 1) 15)).bind fun cb =>
    (bump r.copyDiff (clamp (r.lastNonDiff + 15) 31 * 32 + clamp ((r.current : Int) - r.lastLength + 15) 31)).bind fun cd =>
    some { r with
      rleBits := rb, rleExact := re, rleLength := r.rleLength + r.current, rleCount := r.rleCount + 1,
      copyBits := cb, copyDiff := cd, lastLength := r.current, current := 0 }

/-- One position (src/main.c:1299-1389, and 1391-1481 for the aligned part): `first` is the length a run
has after its first match, `j` or 1. -/
def step (first : Nat) (r : Rec) (isMatch : Bool) (sym : List Byte) : Option Rec :=
  if isMatch then
    if r.current = 0 then
      (recall r sym).bind fun (t, l) =>
      (endNon { r with recurring := t, lastSymbol := l }).map fun r => { r with current := first }
    else some { r with current := r.current + 1 }
  else (endRun r).map fun r => { r with currentNon := r.currentNon + 1 }

/-- After the file (src/main.c:1498-1530, and 1532-1564 for the aligned part): the last stretch or run is counted. -/
def finish (r : Rec) : Option Rec :=
  if r.currentNon ≠ 0 then
    (topBit r.currentNon).bind fun index =>
    (bump r.emptyBits index).bind fun eb =>
    (if r.currentNon ≤ 64 then bump r.emptyExact (r.currentNon - 1) else some r.emptyExact).bind fun ee =>
    some { r with emptyBits := eb, emptyExact := ee, emptyLength := r.emptyLength + r.currentNon }
  else if r.current ≠ 0 then
    (topBit r.current).bind fun index =>
    (bump r.rleBits index).bind fun rb =>
    (if r.current ≤ 64 then bump r.rleExact (r.current - 1) else some r.rleExact).bind fun re =>
    some { r with rleBits := rb, rleExact := re, rleLength := r.rleLength + r.current, rleCount := r.rleCount + 1 }
  else some r

/-- `memcmp(pData + i, pData + i - j, j) == 0` (src/main.c:1295). At the end of the file it looks at up to
`j - 1` bytes behind it. -/
def isMatch (inp : Mem) (j i : Nat) : Bool := (List.range j).all fun k => inp (i + k) == inp (i + k - j)

/-- The symbol at position `i`: the `j` bytes at `pData + i` (src/main.c:1307, 1318). -/
def symAt (inp : Mem) (j i : Nat) : List Byte := (List.range j).map fun k => inp (i + k)

/-- A pass over some positions (the loop of src/main.c:1286-1490 as one record sees it). -/
def pass (first j : Nat) (inp : Mem) : List Nat → Rec → Option Rec
  | [], r => some r
  | i :: is, r => (step first r (isMatch inp j i) (symAt inp j i)).bind fun r => pass first j inp is r

/-- The positions a part looks at (src/main.c:1286-1293, 1391): all from `j` on, or the multiples of `j` among
them. -/
def positions (aligned : Bool) (j n : Nat) : List Nat :=
  (List.range n).filter fun i => !decide (i < j) && (!aligned || i % j == 0)

/-- The record for `j` after the analysis of the first `n` bytes of `inp` (src/main.c:1279-1564); `none` if something undefined
happened. -/
def analyze (aligned : Bool) (j : Nat) (inp : Mem) (n : Nat) : Option Rec :=
  (pass (if aligned then 1 else j) j inp (positions aligned j n)
    { lastSymbol := List.replicate 16 (List.replicate j 0) }).bind finish

/-- `hist` (src/main.c:1288). -/
def hist (inp : Mem) (n : Nat) : Byte → Nat :=
  (List.range n).foldl (fun h i => fun v => if v = inp i then h v + 1 else h v) fun _ => 0

end Hrk.Analyze
