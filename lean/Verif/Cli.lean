import Verif.Table
import Verif.Detect

/-
The command line of the benchmark tool (src/main.c): how its arguments are read, which codecs they
select and which vector extensions they switch off.
-/

namespace Hrk.Cli

/-- `codec_t` (src/codec_funcs.h:4-133) without the final `CodecCount`. -/
inductive CodecT where
  | Extreme8 | Extreme8Short | Extreme8Packed | Extreme8_1SLShort | Extreme8_3SL | Extreme8_3SLShort
  | Extreme8_7SL | Extreme8_7SLShort | Extreme8Single | Extreme8SingleShort | Extreme8PackedSingle
  | Extreme16Sym | Extreme16SymShort | Extreme16SymPacked | Extreme16Sym_1SLShort | Extreme16Sym_3SL
  | Extreme16Sym_3SLShort | Extreme16Sym_7SL | Extreme16Sym_7SLShort | Extreme16Byte | Extreme16ByteShort
  | Extreme16BytePacked | Extreme16Byte_1SLShort | Extreme16Byte_1SLShortGreedy | Extreme16Byte_3SL
  | Extreme16Byte_3SLShort | Extreme16Byte_3SLShortGreedy | Extreme16Byte_7SL | Extreme16Byte_7SLShort
  | Extreme16Byte_7SLShortGreedy | Extreme24Sym | Extreme24SymShort | Extreme24SymPacked
  | Extreme24Sym_1SLShort | Extreme24Sym_3SL | Extreme24Sym_3SLShort | Extreme24Sym_7SL
  | Extreme24Sym_7SLShort | Extreme24Byte | Extreme24ByteShort | Extreme24BytePacked | Extreme24Byte_1SLShort
  | Extreme24Byte_1SLShortGreedy | Extreme24Byte_3SL | Extreme24Byte_3SLShort | Extreme24Byte_3SLShortGreedy
  | Extreme24Byte_7SL | Extreme24Byte_7SLShort | Extreme24Byte_7SLShortGreedy | Extreme32Sym
  | Extreme32SymShort | Extreme32SymPacked | Extreme32Sym_1SLShort | Extreme32Sym_3SL | Extreme32Sym_3SLShort
  | Extreme32Sym_7SL | Extreme32Sym_7SLShort | Extreme32Byte | Extreme32ByteShort | Extreme32BytePacked
  | Extreme32Byte_1SLShort | Extreme32Byte_1SLShortGreedy | Extreme32Byte_3SL | Extreme32Byte_3SLShort
  | Extreme32Byte_3SLShortGreedy | Extreme32Byte_7SL | Extreme32Byte_7SLShort | Extreme32Byte_7SLShortGreedy
  | Extreme48Sym | Extreme48SymShort | Extreme48SymPacked | Extreme48Sym_1SLShort | Extreme48Sym_3SL
  | Extreme48Sym_3SLShort | Extreme48Sym_7SL | Extreme48Sym_7SLShort | Extreme48Byte | Extreme48ByteShort
  | Extreme48BytePacked | Extreme48Byte_1SLShort | Extreme48Byte_1SLShortGreedy | Extreme48Byte_3SL
  | Extreme48Byte_3SLShort | Extreme48Byte_3SLShortGreedy | Extreme48Byte_7SL | Extreme48Byte_7SLShort
  | Extreme48Byte_7SLShortGreedy | Extreme64Sym | Extreme64SymShort | Extreme64SymPacked
  | Extreme64Sym_1SLShort | Extreme64Sym_3SL | Extreme64Sym_3SLShort | Extreme64Sym_7SL
  | Extreme64Sym_7SLShort | Extreme64Byte | Extreme64ByteShort | Extreme64BytePacked | Extreme64Byte_1SLShort
  | Extreme64Byte_1SLShortGreedy | Extreme64Byte_3SL | Extreme64Byte_3SLShort | Extreme64Byte_3SLShortGreedy
  | Extreme64Byte_7SL | Extreme64Byte_7SLShort | Extreme64Byte_7SLShortGreedy | Extreme128Sym
  | Extreme128SymPacked | Extreme128Byte | Extreme128BytePacked | Rle8SH | Extreme8MultiMTF128 | LowEntropy
  | LowEntropySingle | LowEntropyShort | LowEntropyShortSingle | MultiMTF128 | MultiMTF256 | BitMultiMTF8
  | BitMultiMTF16 | MemCopy
  deriving DecidableEq, Repr

/-- The enumerators as written in the source, in order (src/codec_funcs.h:4-133). -/
def CodecT.name : CodecT → String
  | .Extreme8 => "Extreme8"
  | .Extreme8Short => "Extreme8Short"
  | .Extreme8Packed => "Extreme8Packed"
  | .Extreme8_1SLShort => "Extreme8_1SLShort"
  | .Extreme8_3SL => "Extreme8_3SL"
  | .Extreme8_3SLShort => "Extreme8_3SLShort"
  | .Extreme8_7SL => "Extreme8_7SL"
  | .Extreme8_7SLShort => "Extreme8_7SLShort"
  | .Extreme8Single => "Extreme8Single"
  | .Extreme8SingleShort => "Extreme8SingleShort"
  | .Extreme8PackedSingle => "Extreme8PackedSingle"
  | .Extreme16Sym => "Extreme16Sym"
  | .Extreme16SymShort => "Extreme16SymShort"
  | .Extreme16SymPacked => "Extreme16SymPacked"
  | .Extreme16Sym_1SLShort => "Extreme16Sym_1SLShort"
  | .Extreme16Sym_3SL => "Extreme16Sym_3SL"
  | .Extreme16Sym_3SLShort => "Extreme16Sym_3SLShort"
  | .Extreme16Sym_7SL => "Extreme16Sym_7SL"
  | .Extreme16Sym_7SLShort => "Extreme16Sym_7SLShort"
  | .Extreme16Byte => "Extreme16Byte"
  | .Extreme16ByteShort => "Extreme16ByteShort"
  | .Extreme16BytePacked => "Extreme16BytePacked"
  | .Extreme16Byte_1SLShort => "Extreme16Byte_1SLShort"
  | .Extreme16Byte_1SLShortGreedy => "Extreme16Byte_1SLShortGreedy"
  | .Extreme16Byte_3SL => "Extreme16Byte_3SL"
  | .Extreme16Byte_3SLShort => "Extreme16Byte_3SLShort"
  | .Extreme16Byte_3SLShortGreedy => "Extreme16Byte_3SLShortGreedy"
  | .Extreme16Byte_7SL => "Extreme16Byte_7SL"
  | .Extreme16Byte_7SLShort => "Extreme16Byte_7SLShort"
  | .Extreme16Byte_7SLShortGreedy => "Extreme16Byte_7SLShortGreedy"
  | .Extreme24Sym => "Extreme24Sym"
  | .Extreme24SymShort => "Extreme24SymShort"
  | .Extreme24SymPacked => "Extreme24SymPacked"
  | .Extreme24Sym_1SLShort => "Extreme24Sym_1SLShort"
  | .Extreme24Sym_3SL => "Extreme24Sym_3SL"
  | .Extreme24Sym_3SLShort => "Extreme24Sym_3SLShort"
  | .Extreme24Sym_7SL => "Extreme24Sym_7SL"
  | .Extreme24Sym_7SLShort => "Extreme24Sym_7SLShort"
  | .Extreme24Byte => "Extreme24Byte"
  | .Extreme24ByteShort => "Extreme24ByteShort"
  | .Extreme24BytePacked => "Extreme24BytePacked"
  | .Extreme24Byte_1SLShort => "Extreme24Byte_1SLShort"
  | .Extreme24Byte_1SLShortGreedy => "Extreme24Byte_1SLShortGreedy"
  | .Extreme24Byte_3SL => "Extreme24Byte_3SL"
  | .Extreme24Byte_3SLShort => "Extreme24Byte_3SLShort"
  | .Extreme24Byte_3SLShortGreedy => "Extreme24Byte_3SLShortGreedy"
  | .Extreme24Byte_7SL => "Extreme24Byte_7SL"
  | .Extreme24Byte_7SLShort => "Extreme24Byte_7SLShort"
  | .Extreme24Byte_7SLShortGreedy => "Extreme24Byte_7SLShortGreedy"
  | .Extreme32Sym => "Extreme32Sym"
  | .Extreme32SymShort => "Extreme32SymShort"
  | .Extreme32SymPacked => "Extreme32SymPacked"
  | .Extreme32Sym_1SLShort => "Extreme32Sym_1SLShort"
  | .Extreme32Sym_3SL => "Extreme32Sym_3SL"
  | .Extreme32Sym_3SLShort => "Extreme32Sym_3SLShort"
  | .Extreme32Sym_7SL => "Extreme32Sym_7SL"
  | .Extreme32Sym_7SLShort => "Extreme32Sym_7SLShort"
  | .Extreme32Byte => "Extreme32Byte"
  | .Extreme32ByteShort => "Extreme32ByteShort"
  | .Extreme32BytePacked => "Extreme32BytePacked"
  | .Extreme32Byte_1SLShort => "Extreme32Byte_1SLShort"
  | .Extreme32Byte_1SLShortGreedy => "Extreme32Byte_1SLShortGreedy"
  | .Extreme32Byte_3SL => "Extreme32Byte_3SL"
  | .Extreme32Byte_3SLShort => "Extreme32Byte_3SLShort"
  | .Extreme32Byte_3SLShortGreedy => "Extreme32Byte_3SLShortGreedy"
  | .Extreme32Byte_7SL => "Extreme32Byte_7SL"
  | .Extreme32Byte_7SLShort => "Extreme32Byte_7SLShort"
  | .Extreme32Byte_7SLShortGreedy => "Extreme32Byte_7SLShortGreedy"
  | .Extreme48Sym => "Extreme48Sym"
  | .Extreme48SymShort => "Extreme48SymShort"
  | .Extreme48SymPacked => "Extreme48SymPacked"
  | .Extreme48Sym_1SLShort => "Extreme48Sym_1SLShort"
  | .Extreme48Sym_3SL => "Extreme48Sym_3SL"
  | .Extreme48Sym_3SLShort => "Extreme48Sym_3SLShort"
  | .Extreme48Sym_7SL => "Extreme48Sym_7SL"
  | .Extreme48Sym_7SLShort => "Extreme48Sym_7SLShort"
  | .Extreme48Byte => "Extreme48Byte"
  | .Extreme48ByteShort => "Extreme48ByteShort"
  | .Extreme48BytePacked => "Extreme48BytePacked"
  | .Extreme48Byte_1SLShort => "Extreme48Byte_1SLShort"
  | .Extreme48Byte_1SLShortGreedy => "Extreme48Byte_1SLShortGreedy"
  | .Extreme48Byte_3SL => "Extreme48Byte_3SL"
  | .Extreme48Byte_3SLShort => "Extreme48Byte_3SLShort"
  | .Extreme48Byte_3SLShortGreedy => "Extreme48Byte_3SLShortGreedy"
  | .Extreme48Byte_7SL => "Extreme48Byte_7SL"
  | .Extreme48Byte_7SLShort => "Extreme48Byte_7SLShort"
  | .Extreme48Byte_7SLShortGreedy => "Extreme48Byte_7SLShortGreedy"
  | .Extreme64Sym => "Extreme64Sym"
  | .Extreme64SymShort => "Extreme64SymShort"
  | .Extreme64SymPacked => "Extreme64SymPacked"
  | .Extreme64Sym_1SLShort => "Extreme64Sym_1SLShort"
  | .Extreme64Sym_3SL => "Extreme64Sym_3SL"
  | .Extreme64Sym_3SLShort => "Extreme64Sym_3SLShort"
  | .Extreme64Sym_7SL => "Extreme64Sym_7SL"
  | .Extreme64Sym_7SLShort => "Extreme64Sym_7SLShort"
  | .Extreme64Byte => "Extreme64Byte"
  | .Extreme64ByteShort => "Extreme64ByteShort"
  | .Extreme64BytePacked => "Extreme64BytePacked"
  | .Extreme64Byte_1SLShort => "Extreme64Byte_1SLShort"
  | .Extreme64Byte_1SLShortGreedy => "Extreme64Byte_1SLShortGreedy"
  | .Extreme64Byte_3SL => "Extreme64Byte_3SL"
  | .Extreme64Byte_3SLShort => "Extreme64Byte_3SLShort"
  | .Extreme64Byte_3SLShortGreedy => "Extreme64Byte_3SLShortGreedy"
  | .Extreme64Byte_7SL => "Extreme64Byte_7SL"
  | .Extreme64Byte_7SLShort => "Extreme64Byte_7SLShort"
  | .Extreme64Byte_7SLShortGreedy => "Extreme64Byte_7SLShortGreedy"
  | .Extreme128Sym => "Extreme128Sym"
  | .Extreme128SymPacked => "Extreme128SymPacked"
  | .Extreme128Byte => "Extreme128Byte"
  | .Extreme128BytePacked => "Extreme128BytePacked"
  | .Rle8SH => "Rle8SH"
  | .Extreme8MultiMTF128 => "Extreme8MultiMTF128"
  | .LowEntropy => "LowEntropy"
  | .LowEntropySingle => "LowEntropySingle"
  | .LowEntropyShort => "LowEntropyShort"
  | .LowEntropyShortSingle => "LowEntropyShortSingle"
  | .MultiMTF128 => "MultiMTF128"
  | .MultiMTF256 => "MultiMTF256"
  | .BitMultiMTF8 => "BitMultiMTF8"
  | .BitMultiMTF16 => "BitMultiMTF16"
  | .MemCopy => "MemCopy"

/-- `_Args` (src/main.c:70-82). -/
structure Args where
  hasMode : Bool := false
  isModeExtreme : Bool := false
  isModeLowEntropy : Bool := false
  isModeSH : Bool := false
  isModeRleMMTF : Bool := false
  isModeMMTF : Bool := false
  hasShortMode : Bool := false
  isShortMode : Bool := false
  hasSingleMode : Bool := false
  isSingleMode : Bool := false
  hasAlignment : Bool := false
  isAlignmentByte : Bool := false
  hasPackedMode : Bool := false
  isPacked : Bool := false
  hasGreedyMode : Bool := false
  isGreedy : Bool := false
  hasLutSize : Bool := false
  lutSize : Nat := 0
  hasBitCount : Bool := false
  bitCount : Nat := 0

/-! ### CodecMatchesArgs -/

/-- The block `hasMode` (src/main.c:1692-1708); enumerators are compared by position. -/
def modeOk (a : Args) (c : CodecT) : Bool :=
  !(a.isModeExtreme && (decide (c.ctorIdx > CodecT.Extreme128BytePacked.ctorIdx) || decide (c.ctorIdx < CodecT.Extreme8.ctorIdx))) &&
  !(a.isModeLowEntropy && (decide (c.ctorIdx < CodecT.LowEntropy.ctorIdx) || decide (c.ctorIdx > CodecT.LowEntropyShortSingle.ctorIdx))) &&
  !(a.isModeMMTF && (c != .MultiMTF128 && c != .MultiMTF256 && c != .BitMultiMTF8 && c != .BitMultiMTF16)) &&
  !(a.isModeSH && c != .Rle8SH) &&
  !(a.isModeRleMMTF && c != .Extreme8MultiMTF128)

/-- The block `hasAlignment` (src/main.c:1710-1824). -/
def alignOk (isAlignmentByte : Bool) : CodecT → Bool
  | .Extreme16Sym | .Extreme16SymShort | .Extreme16SymPacked | .Extreme16Sym_1SLShort | .Extreme16Sym_3SL
  | .Extreme16Sym_3SLShort | .Extreme16Sym_7SL | .Extreme16Sym_7SLShort | .Extreme24Sym | .Extreme24SymShort
  | .Extreme24SymPacked | .Extreme24Sym_1SLShort | .Extreme24Sym_3SL | .Extreme24Sym_3SLShort
  | .Extreme24Sym_7SL | .Extreme24Sym_7SLShort | .Extreme32Sym | .Extreme32SymShort | .Extreme32SymPacked
  | .Extreme32Sym_1SLShort | .Extreme32Sym_3SL | .Extreme32Sym_3SLShort | .Extreme32Sym_7SL
  | .Extreme32Sym_7SLShort | .Extreme48Sym | .Extreme48SymShort | .Extreme48SymPacked
  | .Extreme48Sym_1SLShort | .Extreme48Sym_3SL | .Extreme48Sym_3SLShort | .Extreme48Sym_7SL
  | .Extreme48Sym_7SLShort | .Extreme64Sym | .Extreme64SymShort | .Extreme64SymPacked
  | .Extreme64Sym_1SLShort | .Extreme64Sym_3SL | .Extreme64Sym_3SLShort | .Extreme64Sym_7SL
  | .Extreme64Sym_7SLShort | .Extreme128Sym | .Extreme128SymPacked => !isAlignmentByte
  | .Extreme16Byte | .Extreme16ByteShort | .Extreme16BytePacked | .Extreme16Byte_1SLShort
  | .Extreme16Byte_1SLShortGreedy | .Extreme16Byte_3SL | .Extreme16Byte_3SLShort
  | .Extreme16Byte_3SLShortGreedy | .Extreme16Byte_7SL | .Extreme16Byte_7SLShort
  | .Extreme16Byte_7SLShortGreedy | .Extreme24Byte | .Extreme24ByteShort | .Extreme24BytePacked
  | .Extreme24Byte_1SLShort | .Extreme24Byte_1SLShortGreedy | .Extreme24Byte_3SL | .Extreme24Byte_3SLShort
  | .Extreme24Byte_3SLShortGreedy | .Extreme24Byte_7SL | .Extreme24Byte_7SLShort
  | .Extreme24Byte_7SLShortGreedy | .Extreme32Byte | .Extreme32ByteShort | .Extreme32BytePacked
  | .Extreme32Byte_1SLShort | .Extreme32Byte_1SLShortGreedy | .Extreme32Byte_3SL | .Extreme32Byte_3SLShort
  | .Extreme32Byte_3SLShortGreedy | .Extreme32Byte_7SL | .Extreme32Byte_7SLShort
  | .Extreme32Byte_7SLShortGreedy | .Extreme48Byte | .Extreme48ByteShort | .Extreme48BytePacked
  | .Extreme48Byte_1SLShort | .Extreme48Byte_1SLShortGreedy | .Extreme48Byte_3SL | .Extreme48Byte_3SLShort
  | .Extreme48Byte_3SLShortGreedy | .Extreme48Byte_7SL | .Extreme48Byte_7SLShort
  | .Extreme48Byte_7SLShortGreedy | .Extreme64Byte | .Extreme64ByteShort | .Extreme64BytePacked
  | .Extreme64Byte_1SLShort | .Extreme64Byte_1SLShortGreedy | .Extreme64Byte_3SL | .Extreme64Byte_3SLShort
  | .Extreme64Byte_3SLShortGreedy | .Extreme64Byte_7SL | .Extreme64Byte_7SLShort
  | .Extreme64Byte_7SLShortGreedy | .Extreme128Byte | .Extreme128BytePacked => isAlignmentByte
  | _ => false

/-- The block `hasSingleMode` (src/main.c:1826-1850). -/
def singleOk (isSingleMode : Bool) : CodecT → Bool
  | .Extreme8Single | .Extreme8SingleShort | .Extreme8PackedSingle | .LowEntropySingle
  | .LowEntropyShortSingle => isSingleMode
  | .Rle8SH | .Extreme8MultiMTF128 | .MultiMTF128 | .MultiMTF256 => false
  | _ => !isSingleMode

/-- The block `hasPackedMode` (src/main.c:1852-1879). -/
def packedOk (isPacked : Bool) : CodecT → Bool
  | .Extreme8Packed | .Extreme8PackedSingle | .Extreme16SymPacked | .Extreme16BytePacked
  | .Extreme24SymPacked | .Extreme24BytePacked | .Extreme32SymPacked | .Extreme32BytePacked
  | .Extreme48SymPacked | .Extreme48BytePacked | .Extreme64SymPacked | .Extreme64BytePacked
  | .Extreme128SymPacked | .Extreme128BytePacked => isPacked
  | _ => !isPacked

/-- The block `hasShortMode` (src/main.c:1881-1956). -/
def shortOk (isShortMode : Bool) : CodecT → Bool
  | .Extreme8Short | .Extreme8_1SLShort | .Extreme8_3SLShort | .Extreme8_7SLShort | .Extreme8SingleShort
  | .Extreme16SymShort | .Extreme16Sym_1SLShort | .Extreme16Sym_3SLShort | .Extreme16Sym_7SLShort
  | .Extreme16ByteShort | .Extreme16Byte_1SLShort | .Extreme16Byte_1SLShortGreedy | .Extreme16Byte_3SLShort
  | .Extreme16Byte_3SLShortGreedy | .Extreme16Byte_7SLShort | .Extreme16Byte_7SLShortGreedy
  | .Extreme24SymShort | .Extreme24Sym_1SLShort | .Extreme24Sym_3SLShort | .Extreme24Sym_7SLShort
  | .Extreme24ByteShort | .Extreme24Byte_1SLShort | .Extreme24Byte_1SLShortGreedy | .Extreme24Byte_3SLShort
  | .Extreme24Byte_3SLShortGreedy | .Extreme24Byte_7SLShort | .Extreme24Byte_7SLShortGreedy
  | .Extreme32SymShort | .Extreme32Sym_1SLShort | .Extreme32Sym_3SLShort | .Extreme32Sym_7SLShort
  | .Extreme32ByteShort | .Extreme32Byte_1SLShort | .Extreme32Byte_1SLShortGreedy | .Extreme32Byte_3SLShort
  | .Extreme32Byte_3SLShortGreedy | .Extreme32Byte_7SLShort | .Extreme32Byte_7SLShortGreedy
  | .Extreme48SymShort | .Extreme48Sym_1SLShort | .Extreme48Sym_3SLShort | .Extreme48Sym_7SLShort
  | .Extreme48ByteShort | .Extreme48Byte_1SLShort | .Extreme48Byte_1SLShortGreedy | .Extreme48Byte_3SLShort
  | .Extreme48Byte_3SLShortGreedy | .Extreme48Byte_7SLShort | .Extreme48Byte_7SLShortGreedy
  | .Extreme64SymShort | .Extreme64Sym_1SLShort | .Extreme64Sym_3SLShort | .Extreme64Sym_7SLShort
  | .Extreme64ByteShort | .Extreme64Byte_1SLShort | .Extreme64Byte_1SLShortGreedy | .Extreme64Byte_3SLShort
  | .Extreme64Byte_3SLShortGreedy | .Extreme64Byte_7SLShort | .Extreme64Byte_7SLShortGreedy
  | .LowEntropyShort | .LowEntropyShortSingle => isShortMode
  | _ => !isShortMode

/-- The block `hasGreedyMode` (src/main.c:1958-1986). -/
def greedyOk (isGreedy : Bool) : CodecT → Bool
  | .Extreme16Byte_1SLShortGreedy | .Extreme16Byte_3SLShortGreedy | .Extreme16Byte_7SLShortGreedy
  | .Extreme24Byte_1SLShortGreedy | .Extreme24Byte_3SLShortGreedy | .Extreme24Byte_7SLShortGreedy
  | .Extreme32Byte_1SLShortGreedy | .Extreme32Byte_3SLShortGreedy | .Extreme32Byte_7SLShortGreedy
  | .Extreme48Byte_1SLShortGreedy | .Extreme48Byte_3SLShortGreedy | .Extreme48Byte_7SLShortGreedy
  | .Extreme64Byte_1SLShortGreedy | .Extreme64Byte_3SLShortGreedy | .Extreme64Byte_7SLShortGreedy => isGreedy
  | _ => !isGreedy

/-- The block `hasLutSize` (src/main.c:1988-2093). -/
def lutOk (lutSize : Nat) : CodecT → Bool
  | .Extreme8Packed | .Extreme8PackedSingle | .Extreme8_1SLShort | .Extreme16SymPacked
  | .Extreme16Sym_1SLShort | .Extreme16BytePacked | .Extreme16Byte_1SLShort | .Extreme16Byte_1SLShortGreedy
  | .Extreme24SymPacked | .Extreme24Sym_1SLShort | .Extreme24BytePacked | .Extreme24Byte_1SLShort
  | .Extreme24Byte_1SLShortGreedy | .Extreme32SymPacked | .Extreme32Sym_1SLShort | .Extreme32BytePacked
  | .Extreme32Byte_1SLShort | .Extreme32Byte_1SLShortGreedy | .Extreme48SymPacked | .Extreme48Sym_1SLShort
  | .Extreme48BytePacked | .Extreme48Byte_1SLShort | .Extreme48Byte_1SLShortGreedy | .Extreme64SymPacked
  | .Extreme64Sym_1SLShort | .Extreme64BytePacked | .Extreme64Byte_1SLShort | .Extreme64Byte_1SLShortGreedy
  | .Extreme128SymPacked | .Extreme128BytePacked => lutSize == 1
  | .Extreme8_3SL | .Extreme8_3SLShort | .Extreme16Sym_3SL | .Extreme16Sym_3SLShort | .Extreme16Byte_3SL
  | .Extreme16Byte_3SLShort | .Extreme16Byte_3SLShortGreedy | .Extreme24Sym_3SL | .Extreme24Sym_3SLShort
  | .Extreme24Byte_3SL | .Extreme24Byte_3SLShort | .Extreme24Byte_3SLShortGreedy | .Extreme32Sym_3SL
  | .Extreme32Sym_3SLShort | .Extreme32Byte_3SL | .Extreme32Byte_3SLShort | .Extreme32Byte_3SLShortGreedy
  | .Extreme48Sym_3SL | .Extreme48Sym_3SLShort | .Extreme48Byte_3SL | .Extreme48Byte_3SLShort
  | .Extreme48Byte_3SLShortGreedy | .Extreme64Sym_3SL | .Extreme64Sym_3SLShort | .Extreme64Byte_3SL
  | .Extreme64Byte_3SLShort | .Extreme64Byte_3SLShortGreedy => lutSize == 3
  | .Extreme8_7SL | .Extreme8_7SLShort | .Extreme16Sym_7SL | .Extreme16Sym_7SLShort | .Extreme16Byte_7SL
  | .Extreme16Byte_7SLShort | .Extreme16Byte_7SLShortGreedy | .Extreme24Sym_7SL | .Extreme24Sym_7SLShort
  | .Extreme24Byte_7SL | .Extreme24Byte_7SLShort | .Extreme24Byte_7SLShortGreedy | .Extreme32Sym_7SL
  | .Extreme32Sym_7SLShort | .Extreme32Byte_7SL | .Extreme32Byte_7SLShort | .Extreme32Byte_7SLShortGreedy
  | .Extreme48Sym_7SL | .Extreme48Sym_7SLShort | .Extreme48Byte_7SL | .Extreme48Byte_7SLShort
  | .Extreme48Byte_7SLShortGreedy | .Extreme64Sym_7SL | .Extreme64Sym_7SLShort | .Extreme64Byte_7SL
  | .Extreme64Byte_7SLShort | .Extreme64Byte_7SLShortGreedy => lutSize == 7
  | _ => lutSize == 0

/-- The block `hasBitCount` (src/main.c:2095-2254). -/
def bitsOk (bitCount : Nat) : CodecT → Bool
  | .Extreme8 | .Extreme8Short | .Extreme8Packed | .Extreme8_1SLShort | .Extreme8_3SL | .Extreme8_3SLShort
  | .Extreme8_7SL | .Extreme8_7SLShort | .Extreme8Single | .Extreme8SingleShort | .Extreme8PackedSingle
  | .Rle8SH | .LowEntropy | .LowEntropySingle | .LowEntropyShort | .LowEntropyShortSingle | .BitMultiMTF8 => bitCount == 8
  | .Extreme16Sym | .Extreme16SymShort | .Extreme16SymPacked | .Extreme16Sym_1SLShort | .Extreme16Sym_3SL
  | .Extreme16Sym_3SLShort | .Extreme16Sym_7SL | .Extreme16Sym_7SLShort | .Extreme16Byte
  | .Extreme16ByteShort | .Extreme16BytePacked | .Extreme16Byte_1SLShort | .Extreme16Byte_1SLShortGreedy
  | .Extreme16Byte_3SL | .Extreme16Byte_3SLShort | .Extreme16Byte_3SLShortGreedy | .Extreme16Byte_7SL
  | .Extreme16Byte_7SLShort | .Extreme16Byte_7SLShortGreedy | .BitMultiMTF16 => bitCount == 16
  | .Extreme24Sym | .Extreme24SymShort | .Extreme24SymPacked | .Extreme24Sym_1SLShort | .Extreme24Sym_3SL
  | .Extreme24Sym_3SLShort | .Extreme24Sym_7SL | .Extreme24Sym_7SLShort | .Extreme24Byte
  | .Extreme24ByteShort | .Extreme24BytePacked | .Extreme24Byte_1SLShort | .Extreme24Byte_1SLShortGreedy
  | .Extreme24Byte_3SL | .Extreme24Byte_3SLShort | .Extreme24Byte_3SLShortGreedy | .Extreme24Byte_7SL
  | .Extreme24Byte_7SLShort | .Extreme24Byte_7SLShortGreedy => bitCount == 24
  | .Extreme32Sym | .Extreme32SymShort | .Extreme32SymPacked | .Extreme32Sym_1SLShort | .Extreme32Sym_3SL
  | .Extreme32Sym_3SLShort | .Extreme32Sym_7SL | .Extreme32Sym_7SLShort | .Extreme32Byte
  | .Extreme32ByteShort | .Extreme32BytePacked | .Extreme32Byte_1SLShort | .Extreme32Byte_1SLShortGreedy
  | .Extreme32Byte_3SL | .Extreme32Byte_3SLShort | .Extreme32Byte_3SLShortGreedy | .Extreme32Byte_7SL
  | .Extreme32Byte_7SLShort | .Extreme32Byte_7SLShortGreedy => bitCount == 32
  | .Extreme48Sym | .Extreme48SymShort | .Extreme48SymPacked | .Extreme48Sym_1SLShort | .Extreme48Sym_3SL
  | .Extreme48Sym_3SLShort | .Extreme48Sym_7SL | .Extreme48Sym_7SLShort | .Extreme48Byte
  | .Extreme48ByteShort | .Extreme48BytePacked | .Extreme48Byte_1SLShort | .Extreme48Byte_1SLShortGreedy
  | .Extreme48Byte_3SL | .Extreme48Byte_3SLShort | .Extreme48Byte_3SLShortGreedy | .Extreme48Byte_7SL
  | .Extreme48Byte_7SLShort | .Extreme48Byte_7SLShortGreedy => bitCount == 48
  | .Extreme64Sym | .Extreme64SymShort | .Extreme64SymPacked | .Extreme64Sym_1SLShort | .Extreme64Sym_3SL
  | .Extreme64Sym_3SLShort | .Extreme64Sym_7SL | .Extreme64Sym_7SLShort | .Extreme64Byte
  | .Extreme64ByteShort | .Extreme64BytePacked | .Extreme64Byte_1SLShort | .Extreme64Byte_1SLShortGreedy
  | .Extreme64Byte_3SL | .Extreme64Byte_3SLShort | .Extreme64Byte_3SLShortGreedy | .Extreme64Byte_7SL
  | .Extreme64Byte_7SLShort | .Extreme64Byte_7SLShortGreedy => bitCount == 64
  | .Extreme128Sym | .Extreme128SymPacked | .Extreme128Byte | .Extreme128BytePacked | .Extreme8MultiMTF128
  | .MultiMTF128 => bitCount == 128
  | .MultiMTF256 => bitCount == 256
  | _ => false

/-- `CodecMatchesArgs` (src/main.c:1690-2257). -/
def codecMatchesArgs (a : Args) (c : CodecT) : Bool :=
  (!a.hasMode || modeOk a c) && (!a.hasAlignment || alignOk a.isAlignmentByte c) &&
  (!a.hasSingleMode || singleOk a.isSingleMode c) && (!a.hasPackedMode || packedOk a.isPacked c) &&
  (!a.hasShortMode || shortOk a.isShortMode c) && (!a.hasGreedyMode || greedyOk a.isGreedy c) &&
  (!a.hasLutSize || lutOk a.lutSize c) && (!a.hasBitCount || bitsOk a.bitCount c)

/-- Whether the main loop runs a codec (src/main.c:663 and 805). -/
def selected (a : Args) (c : CodecT) : Bool :=
  let matchBenchmarks := a.hasAlignment || a.hasBitCount || a.hasGreedyMode || a.hasLutSize || a.hasMode ||
    a.hasPackedMode || a.hasShortMode || a.hasSingleMode
  !(matchBenchmarks && !codecMatchesArgs a c)

/-! ### Parsing -/

/-- What the arguments set: `_Args`, the processor flags and the local variables of `main`
(src/main.c:122-131, src/simd_platform.c:28-53). -/
structure St where
  args : Args := {}
  flags : Flags := flags0
  runs : Int := 8
  minSeconds : Int := 2
  analyze : Bool := false
  noDelays : Bool := false
  isTestRun : Bool := false
  fuzzing : Bool := false
  fuzzingIterative : Bool := false
  showStdDev : Bool := false

/-- Switching flags off (e.g. src/main.c:191-205). -/
def clear (on : Feat → Bool) (fs : List Feat) : Feat → Bool := fun f => if f ∈ fs then false else on f

/-- The body of `--max-simd` after the detection (src/main.c:172-313): `none` is `return 1`. -/
def maxSimd (v : String) (on0 : Feat → Bool) : Option (Feat → Bool) :=
  if v = "avx512f" then (if !on0 .avx512F then none else some on0) else
  let on1 := clear on0 [.avx512F, .avx512PF, .avx512ER, .avx512CD, .avx512BW, .avx512DQ, .avx512VL, .avx512IFMA,
    .avx512VBMI, .avx512VNNI, .avx512VBMI2, .avx512POPCNTDQ, .avx512BITALG, .avx5124VNNIW, .avx5124FMAPS]
  if v = "avx2" then (if !on1 .avx2 then none else some on1) else
  let on2 := clear on1 [.avx2, .fma3]
  if v = "avx" then (if !on2 .avx then none else some on2) else
  let on3 := clear on2 [.avx]
  if v = "sse4.2" then (if !on3 .sse42 then none else some on3) else
  let on4 := clear on3 [.sse42]
  if v = "sse4.1" then (if !on4 .sse41 then none else some on4) else
  let on5 := clear on4 [.sse41]
  if v = "ssse3" then (if !on5 .ssse3 then none else some on5) else
  let on6 := clear on5 [.ssse3]
  if v = "sse3" then (if !on6 .sse3 then none else some on6) else
  let on7 := clear on6 [.sse3]
  if v = "sse2" then (if !on7 .sse2 then none else some on7) else
  let on8 := clear on7 [.sse2]
  if v = "none" then some on8 else none

/-- The character at a position, `0` at the end of the string (`pArgv[argIndex + 1][i]`,
src/main.c:465-520, 535-556). -/
def charAt (v : String) (i : Nat) : Char := v.toList.getD i '\x00'

/-- The value of `--x-size` (src/main.c:455-524): only its first one or two characters are looked at. -/
def sizeArg (v : String) : Option Nat :=
  match charAt v 0 with
  | '8' => some 8
  | '1' => (match charAt v 1 with | '6' => some 16 | '2' => some 128 | _ => none)
  | '2' => (match charAt v 1 with | '4' => some 24 | '5' => some 256 | _ => none)
  | '3' => some 32
  | '4' => some 48
  | '6' => some 64
  | _ => none

/-- The value of `--lut-size` (src/main.c:525-560): only its first character is looked at. -/
def lutArg (v : String) : Option Nat :=
  match charAt v 0 with
  | '0' => some 0
  | '1' => some 1
  | '3' => some 3
  | '7' => some 7
  | _ => none

/-- One round of the loop (src/main.c:143-660): the next word `w`, the word after it if there is one;
the new state and the number of words used, `none` for `return 1`. `hw` is what the processor answers,
`atoi` the function of the C library. The comparisons `strncmp(…, sizeof(name))` include the
terminating zero, so they are comparisons of the whole string. Not modelled: `--cpu-core`, which
exists on Windows only. -/
def arg (hw : Hw) (atoi : String → Int) (w : String) (v : Option String) (s : St) : Option (St × Nat) :=
  if w = "--test" then some ({ s with isTestRun := true, noDelays := true }, 1)
  else if w = "--sd" then some ({ s with showStdDev := true }, 1)
  else if w = "--fuzz-iterative" then some ({ s with fuzzing := true, fuzzingIterative := true }, 1)
  else if w = "--fuzz-random" then some ({ s with fuzzing := true, fuzzingIterative := false }, 1)
  else if w = "--max-simd" ∧ v.isSome then
    let fl := detect hw s.flags
    (maxSimd (v.getD "") fl.on).map fun on => ({ s with flags := { fl with on := on } }, 2)
  else if w = "--runs" ∧ v.isSome then
    let r := atoi (v.getD "")
    if r < 0 then none
    else if r = 0 then some ({ s with runs := 1, noDelays := true }, 2)
    else some ({ s with runs := r }, 2)
  else if w = "--min-time" ∧ v.isSome then
    let r := atoi (v.getD "")
    if r < 0 then none else some ({ s with minSeconds := r }, 2)
  else if w = "--low-entropy" then
    some ({ s with args := { s.args with hasMode := true, isModeLowEntropy := true } }, 1)
  else if w = "--single" then
    if s.args.hasSingleMode then none
    else some ({ s with args := { s.args with hasSingleMode := true, isSingleMode := true } }, 1)
  else if w = "--multi" then
    if s.args.hasSingleMode then none
    else some ({ s with args := { s.args with hasSingleMode := true, isSingleMode := false } }, 1)
  else if w = "--short" then
    if s.args.hasShortMode then none
    else some ({ s with args := { s.args with hasShortMode := true, isShortMode := true } }, 1)
  else if w = "--not-short" then
    if s.args.hasShortMode then none
    else some ({ s with args := { s.args with hasShortMode := true, isShortMode := false } }, 1)
  else if w = "--greedy" then
    if s.args.hasGreedyMode then none
    else some ({ s with args := { s.args with hasGreedyMode := true, isGreedy := true } }, 1)
  else if w = "--not-greedy" then
    if s.args.hasGreedyMode then none
    else some ({ s with args := { s.args with hasGreedyMode := true, isGreedy := false } }, 1)
  else if w = "--low-entropy-short" then
    some ({ s with args := { s.args with hasMode := true, isModeLowEntropy := true, hasShortMode := true,
                                         isShortMode := true } }, 1)
  else if w = "--extreme" then
    some ({ s with args := { s.args with hasMode := true, isModeExtreme := true } }, 1)
  else if w = "--x-size" ∧ v.isSome then
    if s.args.hasBitCount then none
    else (sizeArg (v.getD "")).map fun k => ({ s with args := { s.args with hasBitCount := true, bitCount := k } }, 2)
  else if w = "--lut-size" ∧ v.isSome then
    if s.args.hasLutSize then none
    else (lutArg (v.getD "")).map fun k => ({ s with args := { s.args with hasLutSize := true, lutSize := k } }, 2)
  else if w = "--byte-aligned" then
    if s.args.hasAlignment then none
    else some ({ s with args := { s.args with hasAlignment := true, isAlignmentByte := true } }, 1)
  else if w = "--symbol-aligned" then
    if s.args.hasAlignment then none
    else some ({ s with args := { s.args with hasAlignment := true, isAlignmentByte := false } }, 1)
  else if w = "--packed" then
    if s.args.hasPackedMode then none
    else some ({ s with args := { s.args with hasPackedMode := true, isPacked := true } }, 1)
  else if w = "--not-packed" then
    if s.args.hasPackedMode then none
    else some ({ s with args := { s.args with hasPackedMode := true, isPacked := false } }, 1)
  else if w = "--mmtf" then
    some ({ s with args := { s.args with hasMode := true, isModeMMTF := true } }, 1)
  else if w = "--sh" then
    some ({ s with args := { s.args with hasMode := true, isModeSH := true } }, 1)
  else if w = "--rle-mmtf" then
    some ({ s with args := { s.args with hasMode := true, isModeRleMMTF := true } }, 1)
  else if w = "--analyze" then some ({ s with analyze := true }, 1)
  else none

/-- The loop over the words after the file name (src/main.c:137-661). -/
def parse (hw : Hw) (atoi : String → Int) : List String → St → Option St
  | [], s => some s
  | [w], s => (arg hw atoi w none s).map (·.1)
  | w :: v :: rest, s =>
    match arg hw atoi w (some v) s with
    | none => none
    | some (s', used) => if used = 2 then parse hw atoi rest s' else parse hw atoi (v :: rest) s'

/-- The combinations turned away after parsing (src/main.c:672-691). -/
def validate (a : Args) : Bool :=
  !(a.hasMode && a.isModeExtreme && (a.hasSingleMode && a.isSingleMode) && (a.hasBitCount && a.bitCount != 8)) &&
  !(a.hasMode && a.isModeExtreme && (a.hasBitCount && a.bitCount == 256)) &&
  !(a.hasMode && (a.isModeMMTF || a.isModeRleMMTF) &&
    (a.hasBitCount && a.bitCount != 8 && a.bitCount != 16 && a.bitCount != 256 && a.bitCount != 128))

/-- What the words after the file name lead to: `none` if the program returns 1 before it opens the
file (src/main.c:122-691). -/
def commandLine (hw : Hw) (atoi : String → Int) (ws : List String) : Option St :=
  (parse hw atoi ws {}).bind fun s => if validate s.args then some s else none

end Hrk.Cli
