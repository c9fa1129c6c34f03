import Verif.Basic

/-! # The report of a mismatch

When a decompressor gives back the wrong bytes, the benchmark (`Validate`, src/main.c:1132-1219) and the fuzzer
(src/rle_fuzz.c:645-743) print where the first wrong byte is and both buffers around it. The text is a list of
characters; a read outside a buffer is `none`. -/

namespace Hrk.Report

/-- A digit of `%X`. -/
def hexDigit (d : Nat) : Char := Char.ofNat (if d < 10 then 48 + d else 55 + d)

/-- `%02X` of a byte (src/main.c:1171, 1179, src/rle_fuzz.c:697, 705). -/
def hex2 (b : Byte) : List Char := [hexDigit (b.toNat / 16), hexDigit (b.toNat % 16)]

/-- `%X` (src/main.c:1142, src/rle_fuzz.c:669). -/
def hexU (n : Nat) : List Char := (Nat.toDigits 16 n).map Char.toUpper

/-- `%u` (src/main.c:1142, 1147, src/rle_fuzz.c:669, 674). -/
def decU (n : Nat) : List Char := Nat.toDigits 10 n

/-- `for (int64_t j = from; j < from + k; j++)`, with what is printed for each `j` (src/main.c:1170-1207,
src/rle_fuzz.c:696-733). -/
def cells (f : Nat → Option (List Char)) : Nat → Nat → Option (List Char)
  | _, 0 => some []
  | j, k + 1 => do
    let c ← f j
    let r ← cells f (j + 1) k
    some (c ++ r)

/-- `pUncompressedData[j] != pDecompressedData[j]` (src/main.c:1157, 1188, 1201, src/rle_fuzz.c:684, 714, 727). -/
def differ (a b : List Byte) (j : Nat) : Option Bool := do
  let x ← a[j]?
  let y ← b[j]?
  some (x != y)

/-- `different`, a loop that ends at the first difference (src/main.c:1153-1162, src/rle_fuzz.c:680-689). -/
def anyDiffers (a b : List Byte) : Nat → Nat → Option Bool
  | _, 0 => some false
  | j, k + 1 => do
    let d ← differ a b j
    if d then some true else anyDiffers a b (j + 1) k

/-- `printf("%02X ", p[j])` (src/main.c:1171, 1179). -/
def byteCell (p : List Byte) (j : Nat) : Option (List Char) := do
  let x ← p[j]?
  some (hex2 x ++ [' '])

/-- `"~~ "` or three blanks (src/main.c:1188-1191, 1201-1204). -/
def markCell (a b : List Byte) (j : Nat) : Option (List Char) := do
  let d ← differ a b j
  some (if d then ['~', '~', ' '] else [' ', ' ', ' '])

/-- Three blanks for each `j` in `[context_end, context + 16)` (src/main.c:1173-1174, 1194-1195). -/
def padding : Nat → List Char
  | 0 => []
  | k + 1 => [' ', ' ', ' '] ++ padding k

/-- One round of the loop over `context` (src/main.c:1149-1209, src/rle_fuzz.c:676-735). -/
def contextLine (a b : List Byte) (stop context : Nat) : Option (List Char) := do
  let contextEnd := min stop (context + 16)
  let k := contextEnd - context
  let different ← anyDiffers a b context k
  let left ← cells (byteCell a) context k
  let right ← cells (byteCell b) context k
  let data := (if different then ['!', '!', ' '] else [' ', ' ', ' ']) ++ left ++ padding (context + 16 - contextEnd) ++
    [' ', '|', ' ', ' '] ++ right ++ ['\n']
  if different then
    let marks ← cells (markCell a b) context k
    some (data ++ ([' ', ' ', ' '] ++ marks ++ padding (context + 16 - contextEnd) ++ [' ', ' ', ' ', ' '] ++ marks) ++ ['\n'])
  else some (data ++ ['\n'])

/-- `for (int64_t context = start; context < end; context += 16)` (src/main.c:1149, src/rle_fuzz.c:676); at most `fuel`
rounds, `none` if there are more. -/
def contextLines (a b : List Byte) (stop : Nat) : Nat → Nat → Option (List Char)
  | 0, _ => none
  | fuel + 1, context =>
    if context < stop then do
      let l ← contextLine a b stop context
      let r ← contextLines a b stop fuel (context + 16)
      some (l ++ r)
    else some []

/-- The two `printf`s before the lines (src/main.c:1142, 1147, src/rle_fuzz.c:669, 674). -/
def heading (i : Nat) (x y : Byte) (start stop : Nat) : List Char :=
  "First invalid char at ".toList ++ decU i ++ " [0x".toList ++ hexU i ++ "] (0x".toList ++ hexU x.toNat ++ " != 0x".toList ++
    hexU y.toNat ++ ").\n".toList ++ "\nContext: (".toList ++ decU start ++ " to ".toList ++ decU stop ++
    ")\n\n   Expected:                                        |  Actual Output:\n\n".toList

/-- The loop over `i` (src/main.c:1138-1213, src/rle_fuzz.c:665-740): `k` positions from `i` on are left. `start` is
`max(0, i - 64)`, where the subtraction of `Nat` gives 0 already. -/
def findFirst (a b : List Byte) (size : Nat) : Nat → Nat → Option (List Char)
  | _, 0 => some []
  | i, k + 1 => do
    let x ← a[i]?
    let y ← b[i]?
    if x ≠ y then do
      let start := i - 64
      let stop := min size (i + 64)
      let l ← contextLines a b stop (stop + 1) start
      some (heading i x y start stop ++ l)
    else findFirst a b size (i + 1) k

/-- `memcmp(a, b, size) != 0` (src/main.c:1134). All `size` bytes of both have to be readable. -/
def memcmpNe (a b : List Byte) (size : Nat) : Option Bool :=
  if size ≤ a.length ∧ size ≤ b.length then some (a.take size != b.take size) else none

/-- `Validate`: what it returns and prints (src/main.c:1132-1219). -/
def validate (a b : List Byte) (size : Nat) : Option (Bool × List Char) := do
  let ne ← memcmpNe a b size
  if ne then do
    let t ← findFirst a b size 0 size
    some (false, "Validation Failed.\n".toList ++ t)
  else some (true, [])

end Hrk.Report
