import Verif.Table
import Verif.Detect
import Verif.Mmtf

/-!
Which functions of the library a call runs, by the instruction set extension the function was compiled for. The compiler may use every
instruction of that extension, and of those the extension includes, anywhere in the function.
-/
namespace Hrk

/-- The argument of `__attribute__((target("...")))` in front of a function, `.none` if it has none (e.g. src/mmtf.c:109-111,
src/rleX_extreme_cpu_decode.h:14-24, src/rleX_extreme_cpu_encode.h:9-12, src/rle_fuzz.c:91-93). -/
inductive Target where
  | none | ssse3 | sse41 | avx | avx2 | avx512f | aes
  deriving DecidableEq, Repr

/-- Features whose instructions a function may contain that was compiled for the target (as gcc's manual has it: an extension includes
those it was built on; x86-64 code without attribute, e.g. src/rle_sh.c, may use SSE and SSE2). -/
def Target.feats : Target → List Feat
  | .none => [.sse, .sse2]
  | .ssse3 => [.sse, .sse2, .sse3, .ssse3]
  | .sse41 => [.sse, .sse2, .sse3, .ssse3, .sse41]
  | .avx => [.sse, .sse2, .sse3, .ssse3, .sse41, .sse42, .avx]
  | .avx2 => [.sse, .sse2, .sse3, .ssse3, .sse41, .sse42, .avx, .avx2]
  | .avx512f => [.sse, .sse2, .sse3, .ssse3, .sse41, .sse42, .avx, .avx2, .avx512F]
  | .aes => [.sse, .sse2, .aesNi]

/-- Target of `_compress_{base,sse2,ssse3,avx2}` and of `compress_{multi_,}{sse2,avx2}` (src/rleX_extreme_cpu_encode.h:9-12,
src/rle24_extreme_cpu_encode.h:9-17, src/rle8_extreme_cpu.h:933-936, src/rleX_Xsl.h:418-421, src/rleX_Xsl_short.h:595-598,
src/rleX_Xsl_multibyte_encoder.h:9-17, src/rleX_Xsl_short_multibyte_encoder.h:9-17). -/
def Simd.target : Simd → Target
  | .base | .sse2 => .none
  | .ssse3 => .ssse3
  | .avx2 => .avx2

/-- The functions a compressor runs: itself and the scanner it picks. The picks are those of the modelled compressors; `rle8_single`,
`rle8_*_short_single` and the greedy ones always run functions without attribute (src/rle8_extreme_cpu.h:106-109, 360-381,
src/rleX_Xsl.h:295-298, 515-524, src/rleX_Xsl_short.h:426-437, 692-703, 746, src/rle128_extreme_cpu.h:32-497, src/rle_sh.c,
src/rle8_mmtf.c, src/rle8_low_entropy_cpu.c, src/rle8_low_entropy_short_cpu.c). -/
def CName.calls (f : CName) (cpu : Cpu) : List Target :=
  match f with
  | .r8 single _ => [.none, if single then .none else (if cpu.avx2 then Simd.avx2 else Simd.sse2).target]
  | .x S unb packed => [.none, (XCfg.simd ⟨S, unb, packed⟩ cpu).target]
  | .sl N S unb => [.none, (if S = 1 then SlCfg.simd8 ⟨N, S, unb⟩ cpu else SlCfg.simd ⟨N, S, unb⟩ cpu).target]
  | .sh N S unb mode =>
    [.none, match mode with
      | .normal => (if S = 1 then SlCfg.simd8 ⟨N, S, unb⟩ cpu else SlCfg.simd ⟨N, S, unb⟩ cpu).target
      | _ => .none]
  | .x128 _ _ | .rsh | .mm | .le _ _ => [.none]

/-- Dispatch of `rle8` and of the symbols of 16, 32 and 64 bit without symbol table: `_avx512f`, `_avx2`, `_avx`, `_sse41`, `_sse`
(src/rle8_extreme_cpu.h:724-733, 745-754, src/rleX_extreme_cpu.h:99-108, src/rleX_Xsl.h:1862-1878 and src/rleX_Xsl_short.h:2629-2645
without `SYMBOL_MASK`). -/
def decEven (cpu : Cpu) : Target :=
  if cpu.avx512f then .avx512f else if cpu.avx2 then .avx2 else if cpu.avx then .avx else if cpu.sse41 then .sse41 else .none

/-- The decoder the 24 and 48 bit decompressors without symbol table pick (src/rle24_extreme_cpu.h:101-106,
src/rle48_extreme_cpu.h:101-106). -/
def decOddX (cpu : Cpu) : Target :=
  if cpu.avx2 then .avx2 else if cpu.ssse3 then .ssse3 else .none

/-- The decoder the 24 and 48 bit decompressors with symbol table pick (src/rleX_Xsl.h:1862-1878, src/rleX_Xsl_short.h:2629-2645
with `SYMBOL_MASK`). -/
def decOddSl (cpu : Cpu) : Target :=
  if cpu.avx2 then .avx2 else if cpu.avx then .avx else if cpu.sse41 then .sse41 else if cpu.ssse3 then .ssse3 else .none

/-- The decoder the 128 bit decompressors pick (src/rle128_extreme_cpu.h:795-800). -/
def dec128 (cpu : Cpu) : Target :=
  if cpu.avx512f then .avx512f else if cpu.avx then .avx else .none

/-- The decoder the low entropy decompressors pick when the header flags `k` symbols (src/rle8_low_entropy_cpu.c:940-968,
src/rle8_low_entropy_short_cpu.c:452-477). -/
def decLe (cpu : Cpu) (k : Nat) : Target :=
  if k = 0 then .none else if k = 1 then (if cpu.avx2 then .avx2 else .none) else (if cpu.avx then .avx else .none)

/-- The functions a decompressor runs: itself and the decoder it picks. `k` is the number of symbols the header of a low entropy stream
flags; the others do not depend on it (src/rle8_extreme_cpu.h:682-760, src/rleX_extreme_cpu.h:82-111, src/rle24_extreme_cpu.h:84-109,
src/rleX_Xsl.h:1840-1880, src/rleX_Xsl_short.h:2607-2648, src/rle128_extreme_cpu.h:778-803, src/rle_sh.c, src/rle8_mmtf.c,
src/rle8_low_entropy_cpu.c:940-968, src/rle8_low_entropy_short_cpu.c:452-477). -/
def DName.calls (f : DName) (cpu : Cpu) (k : Nat) : List Target :=
  match f with
  | .r8 _ => [.none, decEven cpu]
  | .x S _ _ => [.none, if S = 3 ∨ S = 6 then decOddX cpu else decEven cpu]
  | .sl _ S _ | .sh _ S _ _ => [.none, if S = 3 ∨ S = 6 then decOddSl cpu else decEven cpu]
  | .x128 _ _ => [.none, dec128 cpu]
  | .rsh | .mm => [.none]
  | .le _ => [.none, decLe cpu k]

/-- The functions `rle8m_compress` and `rle8m_decompress` run: every section is decoded by the function the `k` symbols flagged in the
one header select (src/rle8_low_entropy_cpu.c:131-250, 940-968). -/
def rle8mCalls (decompress : Bool) (cpu : Cpu) (k : Nat) : List Target := if decompress then [.none, decLe cpu k] else [.none]

/-- The functions `mmtf128_encode` and `mmtf128_decode` run (src/mmtf.c:35-65, 110, 251). -/
def mmtf128Calls (cpu : Cpu) (aIn aOut : Nat) : List Target :=
  [.none, if cpu.sse2 = false then .none else if aIn % 16 = 0 ∧ aOut % 32 = 0 ∧ cpu.sse41 then .sse41 else .none]

/-- The functions `mmtf256_encode` and `mmtf256_decode` run (src/mmtf.c:69-105, 380, 451, 611, 676). -/
def mmtf256Calls (cpu : Cpu) : List Target :=
  [.none, if cpu.sse2 = false then .none else if cpu.avx2 = false then .none else .avx2]

/-- The functions the fuzzer of the tool runs besides the codecs: it compares every input with its copy before it looks at the result
of a decompression (`MemoryEquals`), and draws random inputs with `fuzz_read_rand`. Neither asks what was detected
(src/rle_fuzz.c:92-107, 385-401, 443-447, 620, 645, src/main.c:755-762). -/
def fuzzCalls (iterative : Bool) : List Target := if iterative then [.none, .avx2] else [.none, .avx2, .aes]

/-! ### The decoders the model runs are these -/

/-- Copy and fill of the decoder of a target: `rle8` and the eight bit symbol table codecs (src/rleX_extreme_common.h:30-312). -/
def dec8At : Target → DecV
  | .avx512f => ⟨64, .aligned 64⟩
  | .avx2 | .avx => ⟨32, .aligned 32⟩
  | _ => ⟨16, .aligned 16⟩

/-- As `dec8At`, for symbols of 2, 4, 8 and 16 bytes (src/rleX_extreme_common.h:172-312). -/
def decEvenAt : Target → DecV
  | .avx512f => ⟨32, oneK 64⟩
  | .avx2 | .avx => ⟨32, oneK 32⟩
  | _ => ⟨16, oneK 16⟩

/-- As `dec8At`, for symbols of 3 and 6 bytes (src/rle24_extreme_cpu_decode.h:176-247, src/rleX_Xsl.h:762-779). -/
def decOddAt (S : Nat) : Target → DecV
  | .avx2 => ⟨32, oddK .avx2 S⟩
  | .avx => ⟨32, oddK .ssse3 S⟩
  | .sse41 | .ssse3 => ⟨16, oddK .ssse3 S⟩
  | _ => ⟨16, oddK .sse2 S⟩

theorem r8_decV_at (cpu : Cpu) : R8Cfg.decV cpu = dec8At (decEven cpu) := by
  unfold R8Cfg.decV decEven dec8At
  rcases cpu with ⟨_, _, a, b, c, d⟩
  cases a <;> cases b <;> cases c <;> cases d <;> rfl

theorem x_decV_at (c : XCfg) (cpu : Cpu) :
    c.decV cpu = if c.odd then decOddAt c.S (decOddX cpu) else decEvenAt (decEven cpu) := by
  unfold XCfg.decV decEven decOddX
  rcases cpu with ⟨_, s, a, b, d, e⟩
  cases c.odd <;> cases s <;> cases a <;> cases b <;> cases d <;> cases e <;> rfl

theorem sl_decV_at (c : SlCfg) (cpu : Cpu) :
    c.decV cpu = if c.S = 1 then dec8At (decEven cpu)
      else if c.odd then decOddAt c.S (decOddSl cpu) else decEvenAt (decEven cpu) := by
  unfold SlCfg.decV decEven decOddSl
  by_cases h : c.S = 1
  · simp only [if_pos h]
    rcases cpu with ⟨_, s, a, b, d, e⟩
    cases a <;> cases b <;> cases d <;> cases e <;> rfl
  · simp only [if_neg h]
    rcases cpu with ⟨_, s, a, b, d, e⟩
    cases c.odd <;> cases s <;> cases a <;> cases b <;> cases d <;> cases e <;> rfl

theorem decV128_at (cpu : Cpu) : decV128 cpu = decEvenAt (dec128 cpu) := by
  unfold decV128 dec128
  rcases cpu with ⟨_, s, a, b, d, e⟩
  cases b <;> cases e <;> rfl

/-- The width the low entropy decoder works with (`w` in the model's `leDecode`). -/
theorem le_wide_at (cpu : Cpu) (k : Nat) (hk : k ≠ 0) :
    (if (k == 1) = true then cpu.avx2 else cpu.avx) = decide (decLe cpu k ≠ .none) := by
  unfold decLe
  rw [if_neg hk]
  by_cases h : k = 1
  · subst h; cases cpu.avx2 <;> simp
  · have : (k == 1) = false := by simpa using h
    rw [this, if_neg h]
    cases cpu.avx <;> simp

/-- `mmtf128` as modelled runs the aligned function exactly when `mmtf128Calls` lists its target. -/
theorem mmtf128_at (dec : Bool) (cpu : Cpu) (aIn aOut : Nat) (src : List Byte) (outSize : Nat) (h : src.length ≤ outSize)
    (h2 : cpu.sse2 = true) :
    mmtf128 dec cpu aIn aOut src outSize = mtfRun dec 1 16 (decide (Target.sse41 ∈ mmtf128Calls cpu aIn aOut)) aIn aOut src := by
  unfold mmtf128 mmtf128Calls
  rw [if_neg (by omega), h2]
  by_cases c : aIn % 16 = 0 ∧ aOut % 32 = 0 ∧ cpu.sse41 = true
  · simp [c]
  · simp [c]

/-- `mmtf256` as modelled works with 32 byte vectors exactly when `mmtf256Calls` lists AVX2. -/
theorem mmtf256_at (dec : Bool) (cpu : Cpu) (aIn aOut : Nat) (src : List Byte) (outSize : Nat) (h : src.length ≤ outSize)
    (h2 : cpu.sse2 = true) :
    mmtf256 dec cpu aIn aOut src outSize =
      if Target.avx2 ∈ mmtf256Calls cpu then mtfRun dec 1 32 (decide (aIn % 32 = 0 ∧ aOut % 32 = 0)) aIn aOut src
      else mtfRun dec 2 16 false aIn aOut src := by
  unfold mmtf256 mmtf256Calls
  rw [if_neg (by omega), h2]
  cases cpu.avx2
  · simp
  · by_cases c : aIn % 32 = 0 ∧ aOut % 32 = 0
    · simp [c]
    · simp [c]

end Hrk
