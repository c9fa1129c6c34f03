import Verif.LowEntropy

/-! # The low entropy codecs in pieces

`src/rle.h` also publishes the parts the low entropy codecs are made of: making a symbol table, writing and reading it,
and packing or unpacking one block with a table that is already there. These are the same loops as in
`Verif.LowEntropy`; the functions below add the checks of the arguments each of them makes for itself. -/

namespace Hrk

/-- `rle8_low_entropy_get_compress_info` (src/rle8_low_entropy_cpu.c:254-257 and the rest to 338),
`..._only_max_frequency` (340-343, to 439) and the short versions (src/rle8_low_entropy_short_cpu.c:536-539, 622-625).
`none`: returned `false`. -/
def getInfoApi (c : LeCfg) (pIn : Option Mem) (inSize : Nat) (pInfo : Bool) : Option LeInfo :=
  match pIn with
  | none => none
  | some inp => if inSize = 0 ∨ pInfo = false then none else some (c.info inp inSize)

/-- `rle8_low_entropy_write_compress_info` (src/rle8_low_entropy_cpu.c:441-472). `.fail`: returned 0. -/
def writeInfoApi (x : Option LeInfo) (pOut : Bool) (outSize : Nat) : CRes :=
  match x with
  | none => .fail
  | some x =>
    if pOut = false ∨ outSize < 256 / 8 + 256 + 1 then .fail
    else if (writeInfo x).length ≤ outSize then .ok (writeInfo x).length (writeInfo x) else .ub

/-- `rle8_low_entropy_compress_with_info` (src/rle8_low_entropy_cpu.c:474-543) and
`rle8_low_entropy_short_compress_with_info` (src/rle8_low_entropy_short_cpu.c:128-197). Nothing but the check against
`inSize` at the start looks at `outSize`. -/
def compressWithApi (short : Bool) (pIn : Option Mem) (inSize : Nat) (x : Option LeInfo) (pOut : Bool) (outSize : Nat) :
    CRes :=
  match pIn, x with
  | none, _ => .fail
  | _, none => .fail
  | some inp, some x =>
    if inSize = 0 ∨ pOut = false ∨ outSize < inSize then .fail
    else
      match leEncode (if short then 32 else 255) x inp inSize with
      | none => .hang
      | some d => if d.length ≤ outSize then .ok (d.length % 4294967296) d else .ub

/-- Outcome of reading a table. -/
inductive RIRes where
  /-- Returned 0. -/
  | fail
  /-- Read behind the source. -/
  | ub
  /-- Returned `used` and filled the table. -/
  | ok (used : Nat) (y : LeDInfo)

/-- `rle8_low_entropy_read_decompress_info` (src/rle8_low_entropy_cpu.c:545-606). `pIn` is the whole source buffer;
`inSize` is compared with 0 and not used again. -/
def readInfoApi (pIn : Option (List Byte)) (inSize : Nat) (pInfo : Bool) : RIRes :=
  match pIn with
  | none => .fail
  | some src =>
    if pInfo = false ∨ inSize = 0 then .fail
    else
      match readInfo src with
      | none => .ub
      | some (y, rest) => .ok (src.length - rest.length) y

/-- `rle8_low_entropy_decompress_with_info` (src/rle8_low_entropy_cpu.c:930-1022) and
`rle8_low_entropy_short_decompress_with_info` (src/rle8_low_entropy_short_cpu.c:440-532), with `pIn` at `pos` and `pEnd`
at `pEnd` of the source buffer `src`, and `pOut` at `o` of an output buffer of `cap` bytes that starts at address
`aOut`. -/
def decompressWithApi (short : Bool) (cpu : Cpu) (y : LeDInfo) (src : List Byte) (pos pEnd aOut cap o expOut : Nat)
    (m : Mem) : DRes :=
  match leDecode short cpu y (fun k => src.getD k 0) src.length pos pEnd aOut cap o expOut m with
  | none => .hang
  | some none => .ub
  | some (some m') => .ok expOut m'

end Hrk
