import Verif.Cli

/-
The specification of the command line of the benchmark tool: the features of a codec and the options.
-/

namespace Hrk.Cli

/-! ### Specification: the features of a codec -/

/-- What a codec runs: a compressor of src/rle.h, one of the four transforms, or a plain copy. -/
inductive What where
  | rle (f : CName)
  | mtf (width : Nat)
  | bitMtf (width : Nat)
  | copy
  deriving DecidableEq

/-- The rows of `codecCallbacks` after those of `table` (src/codec_funcs.h:404-409). -/
def rest : List (String × What) :=
  [("MultiMTF128", .mtf 128), ("MultiMTF256", .mtf 256), ("BitMultiMTF8", .bitMtf 8), ("BitMultiMTF16", .bitMtf 16),
   ("MemCopy", .copy)]

/-- What the row of that name runs. -/
def what (c : CodecT) : What :=
  match (table.map fun r => (r.id, What.rle r.comp)) ++ rest |>.lookup c.name with
  | some w => w
  | none => .copy

/-- The families of codecs. -/
inductive Family where
  | extreme | lowEntropy | sh | rleMmtf | mmtf
  deriving DecidableEq

/-- The family of a codec; the plain copy has none. -/
def What.family : What → Option Family
  | .rle (.le ..) => some .lowEntropy
  | .rle .rsh => some .sh
  | .rle .mm => some .rleMmtf
  | .rle _ => some .extreme
  | .mtf _ | .bitMtf _ => some .mmtf
  | .copy => none

/-- `some true`: runs may start at any byte; `some false`: runs start at multiples of the symbol size;
`none`: symbols of one byte, where it makes no difference. -/
def What.byteAligned : What → Option Bool
  | .rle (.x _ unb _) => some unb
  | .rle (.x128 unb _) => some unb
  | .rle (.sl _ S unb) => if S = 1 then none else some unb
  | .rle (.sh _ S unb _) => if S = 1 then none else some unb
  | _ => none

/-- Whether one symbol per file is run length encoded (`some true`) or every symbol; `none` where the
tool takes the distinction to be meaningless. -/
def What.single : What → Option Bool
  | .rle (.r8 single _) => some single
  | .rle (.sh _ _ _ mode) => some (mode == .single)
  | .rle (.le _ onlyMax) => some onlyMax
  | .rle .rsh | .rle .mm | .mtf _ => none
  | _ => some false

/-- Whether the codec has a packed format. -/
def What.packed : What → Bool
  | .rle (.r8 _ packed) | .rle (.x _ _ packed) | .rle (.x128 _ packed) => packed
  | _ => false

/-- Whether the codec has a short format. -/
def What.short : What → Bool
  | .rle (.sh ..) => true
  | .rle (.le short _) => short
  | _ => false

/-- Whether the codec is greedy. -/
def What.greedy : What → Bool
  | .rle (.sh _ _ _ mode) => mode == .greedy
  | _ => false

/-- How many recent symbols the format can refer to: the packed formats can repeat the last one. -/
def What.lut : What → Nat
  | .rle (.sl N _ _) | .rle (.sh N _ _ _) => N
  | w => if w.packed then 1 else 0

/-- The symbol size in bits, or the number of bytes a transform works on. -/
def What.bits : What → Option Nat
  | .rle (.r8 ..) | .rle .rsh | .rle (.le ..) => some 8
  | .rle (.x S _ _) | .rle (.sl _ S _) | .rle (.sh _ S _ _) => some (8 * S)
  | .rle (.x128 ..) | .rle .mm => some 128
  | .mtf w | .bitMtf w => some w
  | .copy => none

/-! ### Specification: the options -/

/-- Names of the vector extensions, from the least to the best. -/
inductive Simd where
  | none | sse2 | sse3 | ssse3 | sse41 | sse42 | avx | avx2 | avx512f
  deriving DecidableEq

/-- The name on the command line. -/
def Simd.word : Simd → String
  | .none => "none" | .sse2 => "sse2" | .sse3 => "sse3" | .ssse3 => "ssse3" | .sse41 => "sse4.1"
  | .sse42 => "sse4.2" | .avx => "avx" | .avx2 => "avx2" | .avx512f => "avx512f"

/-- The place in that order. -/
def Simd.level : Simd → Nat
  | .none => 0 | .sse2 => 1 | .sse3 => 2 | .ssse3 => 3 | .sse41 => 4 | .sse42 => 5 | .avx => 6 | .avx2 => 7
  | .avx512f => 8

/-- The level a processor feature belongs to. `sse` and `aesNi` are never restricted, `fma3` goes
with AVX2. -/
def level : Feat → Nat
  | .sse | .aesNi => 0
  | .sse2 => 1 | .sse3 => 2 | .ssse3 => 3 | .sse41 => 4 | .sse42 => 5 | .avx => 6
  | .avx2 | .fma3 => 7
  | _ => 8

/-- The feature an extension needs. -/
def Simd.needs : Simd → Option Feat
  | .none => Option.none | .sse2 => some .sse2 | .sse3 => some .sse3 | .ssse3 => some .ssse3 | .sse41 => some .sse41
  | .sse42 => some .sse42 | .avx => some .avx | .avx2 => some .avx2 | .avx512f => some .avx512F

/-- The options of the tool. `size` and `lut` carry the word that follows. -/
inductive Opt where
  | test | sd | fuzzIterative | fuzzRandom | analyze
  | maxSimd (l : Simd)
  | runs (v : String)
  | minTime (v : String)
  | family (f : Family)
  | lowEntropyShort
  | single (b : Bool)
  | short (b : Bool)
  | greedy (b : Bool)
  | byteAligned (b : Bool)
  | packed (b : Bool)
  | size (v : String)
  | lut (v : String)
  deriving DecidableEq

/-- The words of an option. -/
def Opt.words : Opt → List String
  | .test => ["--test"] | .sd => ["--sd"] | .fuzzIterative => ["--fuzz-iterative"] | .fuzzRandom => ["--fuzz-random"]
  | .analyze => ["--analyze"]
  | .maxSimd l => ["--max-simd", l.word]
  | .runs v => ["--runs", v]
  | .minTime v => ["--min-time", v]
  | .family .extreme => ["--extreme"] | .family .lowEntropy => ["--low-entropy"] | .family .sh => ["--sh"]
  | .family .rleMmtf => ["--rle-mmtf"] | .family .mmtf => ["--mmtf"]
  | .lowEntropyShort => ["--low-entropy-short"]
  | .single true => ["--single"] | .single false => ["--multi"]
  | .short true => ["--short"] | .short false => ["--not-short"]
  | .greedy true => ["--greedy"] | .greedy false => ["--not-greedy"]
  | .byteAligned true => ["--byte-aligned"] | .byteAligned false => ["--symbol-aligned"]
  | .packed true => ["--packed"] | .packed false => ["--not-packed"]
  | .size v => ["--x-size", v]
  | .lut v => ["--lut-size", v]

/-- The numbers `--x-size` and `--lut-size` are documented to take. -/
def number : String → Option Nat
  | "0" => some 0 | "1" => some 1 | "3" => some 3 | "7" => some 7
  | "8" => some 8 | "16" => some 16 | "24" => some 24 | "32" => some 32 | "48" => some 48 | "64" => some 64
  | "128" => some 128 | "256" => some 256
  | _ => none

/-- The codecs an option lets through. -/
def Opt.admits (o : Opt) (w : What) : Prop :=
  match o with
  | .family f => w.family = some f
  | .lowEntropyShort => w.family = some .lowEntropy ∧ w.short = true
  | .single b => w.single = some b
  | .short b => w.short = b
  | .greedy b => w.greedy = b
  | .byteAligned b => w.byteAligned = some b
  | .packed b => w.packed = b
  | .size v => w.bits.isSome ∧ w.bits = number v
  | .lut v => some w.lut = number v
  | _ => True

/-- The value of the option, if it takes one, is one of the documented ones. -/
def Opt.documented : Opt → Bool
  | .size v => v ∈ ["8", "16", "24", "32", "48", "64", "128", "256"]
  | .lut v => v ∈ ["0", "1", "3", "7"]
  | _ => true

/-- The levels the list restricts the processor to. -/
def levels (os : List Opt) : List Nat := os.filterMap fun | .maxSimd l => some l.level | _ => none

/-- Two options of which the second is refused after the first. -/
def conflicts : Opt → Opt → Bool
  | .single _, .single _ | .short _, .short _ | .greedy _, .greedy _ | .byteAligned _, .byteAligned _
  | .packed _, .packed _ | .size _, .size _ | .lut _, .lut _ => true
  | .lowEntropyShort, .short _ => true
  | _, _ => false

/-- Combinations of options no codec could satisfy, which the tool reports. -/
def Refused (os : List Opt) : Prop :=
  (Opt.family .extreme ∈ os ∧ Opt.single true ∈ os ∧ ∃ v, Opt.size v ∈ os ∧ v ≠ "8") ∨
  (Opt.family .extreme ∈ os ∧ Opt.size "256" ∈ os) ∨
  ((Opt.family .mmtf ∈ os ∨ Opt.family .rleMmtf ∈ os) ∧ ∃ v, Opt.size v ∈ os ∧ v ∉ ["8", "16", "128", "256"])

/-- Every `--max-simd` names an extension the processor has and no earlier one excluded. -/
def SimdOk (hw : Hw) (os : List Opt) : Prop :=
  ∀ pre l post, os = pre ++ Opt.maxSimd l :: post →
    (∀ f, l.needs = some f → (detect hw flags0).on f = true) ∧ ∀ k ∈ levels pre, l.level ≤ k

end Hrk.Cli
