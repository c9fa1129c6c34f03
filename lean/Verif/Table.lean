import Verif.PropsX
import Verif.Props128
import Verif.PropsRle8
import Verif.PropsSymlut
import Verif.PropsShort
import Verif.PropsLowEntropy
import Verif.PropsRle8Mmtf
import Verif.PropsRleSh

/-
The table `codecCallbacks` of src/codec_funcs.h, which the command line tool and the fuzzer use
to select a compressor and the decompressor that belongs to it, and the property that the two
functions of a row belong together.
-/

namespace Hrk

/-- A compressor of src/rle.h: `x S unb packed` is `rle{8 S}_{sym,byte}[_packed]_compress`,
`sl N S unb` is `rle{8 S}_{N}symlut[_sym,_byte]_compress`, `sh N S unb mode` the same with `_short`
(`N = 0`: no table; `rle8_multi_short`, `rle8_single_short`), with `_greedy` for mode `greedy`,
`r8 single packed` is `rle8[_packed]_{multi,single}_compress`, `x128` is `rle128_…`,
`rsh` is `rle8_sh_compress`, `mm` is `rle8_mmtf128_compress`,
`le short onlyMax` is `rle8_low_entropy[_short]_compress[_only_max_frequency]`. -/
inductive CName where
  | r8 (single packed : Bool)
  | x (S : Nat) (unb packed : Bool)
  | sl (N S : Nat) (unb : Bool)
  | sh (N S : Nat) (unb : Bool) (mode : ShMode)
  | x128 (unb packed : Bool)
  | rsh
  | mm
  | le (short onlyMax : Bool)
  deriving DecidableEq

/-- A decompressor of src/rle.h, named in the same way. -/
inductive DName where
  | r8 (packed : Bool)
  | x (S : Nat) (unb packed : Bool)
  | sl (N S : Nat) (unb : Bool)
  | sh (N S : Nat) (unb : Bool) (mode : ShMode)
  | x128 (unb packed : Bool)
  | rsh
  | mm
  | le (short : Bool)
  deriving DecidableEq

/-- The compressor of that name. `junk` is the uninitialised register of `rle8_mmtf128_compress`,
`m` what the output buffer held before (src/rle.h). -/
def CName.run (f : CName) (cpu : Cpu) (junk : Vec) (m : Mem) : Compress :=
  match f with
  | .r8 single packed => R8Cfg.compress ⟨single, packed⟩ cpu
  | .x S unb packed => XCfg.compress ⟨S, unb, packed⟩ cpu
  | .sl N S unb => SlCfg.compress ⟨N, S, unb⟩ cpu
  | .sh N S unb mode => ShCfg.compress ⟨N, S, unb, mode⟩ cpu
  | .x128 unb packed => (cdc128 unb packed).compress cpu
  | .rsh => shCompress m
  | .mm => mmCompress junk m
  | .le short onlyMax => LeCfg.compress ⟨short, onlyMax⟩

/-- The decompressor of that name (src/rle.h). -/
def DName.run (f : DName) (cpu : Cpu) : Decompress :=
  match f with
  | .r8 packed => R8Cfg.decompress packed cpu
  | .x S unb packed => XCfg.decompress ⟨S, unb, packed⟩ cpu
  | .sl N S unb => SlCfg.decompress ⟨N, S, unb⟩ cpu
  | .sh N S unb mode => ShCfg.decompress ⟨N, S, unb, mode⟩ cpu
  | .x128 unb packed => (cdc128 unb packed).decompress cpu
  | .rsh => shDecompress
  | .mm => mmDecompress
  | .le short => leDecompress short cpu

/-- `codec_callback_t` (src/codec_funcs.h:262-266) with the enumerator of its row. -/
structure Row where
  id : String
  comp : CName
  dec : DName
  deriving DecidableEq

/-- `codecCallbacks` (src/codec_funcs.h:270-409), up to the four transforms and `memcpy`, in the
order of `codec_t` (src/codec_funcs.h:4-133). -/
def table : List Row := [
    ⟨"Extreme8", .r8 false false, .r8 false⟩,
    ⟨"Extreme8Short", .sh 0 1 true .normal, .sh 0 1 true .normal⟩,
    ⟨"Extreme8Packed", .r8 false true, .r8 true⟩,
    ⟨"Extreme8_1SLShort", .sh 1 1 true .normal, .sh 1 1 true .normal⟩,
    ⟨"Extreme8_3SL", .sl 3 1 true, .sl 3 1 true⟩,
    ⟨"Extreme8_3SLShort", .sh 3 1 true .normal, .sh 3 1 true .normal⟩,
    ⟨"Extreme8_7SL", .sl 7 1 true, .sl 7 1 true⟩,
    ⟨"Extreme8_7SLShort", .sh 7 1 true .normal, .sh 7 1 true .normal⟩,
    ⟨"Extreme8Single", .r8 true false, .r8 false⟩,
    ⟨"Extreme8SingleShort", .sh 0 1 true .single, .sh 0 1 true .single⟩,
    ⟨"Extreme8PackedSingle", .r8 true true, .r8 true⟩,
    ⟨"Extreme16Sym", .x 2 false false, .x 2 false false⟩,
    ⟨"Extreme16SymShort", .sh 0 2 false .normal, .sh 0 2 false .normal⟩,
    ⟨"Extreme16SymPacked", .x 2 false true, .x 2 false true⟩,
    ⟨"Extreme16Sym_1SLShort", .sh 1 2 false .normal, .sh 1 2 false .normal⟩,
    ⟨"Extreme16Sym_3SL", .sl 3 2 false, .sl 3 2 false⟩,
    ⟨"Extreme16Sym_3SLShort", .sh 3 2 false .normal, .sh 3 2 false .normal⟩,
    ⟨"Extreme16Sym_7SL", .sl 7 2 false, .sl 7 2 false⟩,
    ⟨"Extreme16Sym_7SLShort", .sh 7 2 false .normal, .sh 7 2 false .normal⟩,
    ⟨"Extreme16Byte", .x 2 true false, .x 2 true false⟩,
    ⟨"Extreme16ByteShort", .sh 0 2 true .normal, .sh 0 2 true .normal⟩,
    ⟨"Extreme16BytePacked", .x 2 true true, .x 2 true true⟩,
    ⟨"Extreme16Byte_1SLShort", .sh 1 2 true .normal, .sh 1 2 true .normal⟩,
    ⟨"Extreme16Byte_1SLShortGreedy", .sh 1 2 true .greedy, .sh 1 2 true .normal⟩,
    ⟨"Extreme16Byte_3SL", .sl 3 2 true, .sl 3 2 true⟩,
    ⟨"Extreme16Byte_3SLShort", .sh 3 2 true .normal, .sh 3 2 true .normal⟩,
    ⟨"Extreme16Byte_3SLShortGreedy", .sh 3 2 true .greedy, .sh 3 2 true .normal⟩,
    ⟨"Extreme16Byte_7SL", .sl 7 2 true, .sl 7 2 true⟩,
    ⟨"Extreme16Byte_7SLShort", .sh 7 2 true .normal, .sh 7 2 true .normal⟩,
    ⟨"Extreme16Byte_7SLShortGreedy", .sh 7 2 true .greedy, .sh 7 2 true .normal⟩,
    ⟨"Extreme24Sym", .x 3 false false, .x 3 false false⟩,
    ⟨"Extreme24SymShort", .sh 0 3 false .normal, .sh 0 3 false .normal⟩,
    ⟨"Extreme24SymPacked", .x 3 false true, .x 3 false true⟩,
    ⟨"Extreme24Sym_1SLShort", .sh 1 3 false .normal, .sh 1 3 false .normal⟩,
    ⟨"Extreme24Sym_3SL", .sl 3 3 false, .sl 3 3 false⟩,
    ⟨"Extreme24Sym_3SLShort", .sh 3 3 false .normal, .sh 3 3 false .normal⟩,
    ⟨"Extreme24Sym_7SL", .sl 7 3 false, .sl 7 3 false⟩,
    ⟨"Extreme24Sym_7SLShort", .sh 7 3 false .normal, .sh 7 3 false .normal⟩,
    ⟨"Extreme24Byte", .x 3 true false, .x 3 true false⟩,
    ⟨"Extreme24ByteShort", .sh 0 3 true .normal, .sh 0 3 true .normal⟩,
    ⟨"Extreme24BytePacked", .x 3 true true, .x 3 true true⟩,
    ⟨"Extreme24Byte_1SLShort", .sh 1 3 true .normal, .sh 1 3 true .normal⟩,
    ⟨"Extreme24Byte_1SLShortGreedy", .sh 1 3 true .greedy, .sh 1 3 true .normal⟩,
    ⟨"Extreme24Byte_3SL", .sl 3 3 true, .sl 3 3 true⟩,
    ⟨"Extreme24Byte_3SLShort", .sh 3 3 true .normal, .sh 3 3 true .normal⟩,
    ⟨"Extreme24Byte_3SLShortGreedy", .sh 3 3 true .greedy, .sh 3 3 true .normal⟩,
    ⟨"Extreme24Byte_7SL", .sl 7 3 true, .sl 7 3 true⟩,
    ⟨"Extreme24Byte_7SLShort", .sh 7 3 true .normal, .sh 7 3 true .normal⟩,
    ⟨"Extreme24Byte_7SLShortGreedy", .sh 7 3 true .greedy, .sh 7 3 true .normal⟩,
    ⟨"Extreme32Sym", .x 4 false false, .x 4 false false⟩,
    ⟨"Extreme32SymShort", .sh 0 4 false .normal, .sh 0 4 false .normal⟩,
    ⟨"Extreme32SymPacked", .x 4 false true, .x 4 false true⟩,
    ⟨"Extreme32Sym_1SLShort", .sh 1 4 false .normal, .sh 1 4 false .normal⟩,
    ⟨"Extreme32Sym_3SL", .sl 3 4 false, .sl 3 4 false⟩,
    ⟨"Extreme32Sym_3SLShort", .sh 3 4 false .normal, .sh 3 4 false .normal⟩,
    ⟨"Extreme32Sym_7SL", .sl 7 4 false, .sl 7 4 false⟩,
    ⟨"Extreme32Sym_7SLShort", .sh 7 4 false .normal, .sh 7 4 false .normal⟩,
    ⟨"Extreme32Byte", .x 4 true false, .x 4 true false⟩,
    ⟨"Extreme32ByteShort", .sh 0 4 true .normal, .sh 0 4 true .normal⟩,
    ⟨"Extreme32BytePacked", .x 4 true true, .x 4 true true⟩,
    ⟨"Extreme32Byte_1SLShort", .sh 1 4 true .normal, .sh 1 4 true .normal⟩,
    ⟨"Extreme32Byte_1SLShortGreedy", .sh 1 4 true .greedy, .sh 1 4 true .normal⟩,
    ⟨"Extreme32Byte_3SL", .sl 3 4 true, .sl 3 4 true⟩,
    ⟨"Extreme32Byte_3SLShort", .sh 3 4 true .normal, .sh 3 4 true .normal⟩,
    ⟨"Extreme32Byte_3SLShortGreedy", .sh 3 4 true .greedy, .sh 3 4 true .normal⟩,
    ⟨"Extreme32Byte_7SL", .sl 7 4 true, .sl 7 4 true⟩,
    ⟨"Extreme32Byte_7SLShort", .sh 7 4 true .normal, .sh 7 4 true .normal⟩,
    ⟨"Extreme32Byte_7SLShortGreedy", .sh 7 4 true .greedy, .sh 7 4 true .normal⟩,
    ⟨"Extreme48Sym", .x 6 false false, .x 6 false false⟩,
    ⟨"Extreme48SymShort", .sh 0 6 false .normal, .sh 0 6 false .normal⟩,
    ⟨"Extreme48SymPacked", .x 6 false true, .x 6 false true⟩,
    ⟨"Extreme48Sym_1SLShort", .sh 1 6 false .normal, .sh 1 6 false .normal⟩,
    ⟨"Extreme48Sym_3SL", .sl 3 6 false, .sl 3 6 false⟩,
    ⟨"Extreme48Sym_3SLShort", .sh 3 6 false .normal, .sh 3 6 false .normal⟩,
    ⟨"Extreme48Sym_7SL", .sl 7 6 false, .sl 7 6 false⟩,
    ⟨"Extreme48Sym_7SLShort", .sh 7 6 false .normal, .sh 7 6 false .normal⟩,
    ⟨"Extreme48Byte", .x 6 true false, .x 6 true false⟩,
    ⟨"Extreme48ByteShort", .sh 0 6 true .normal, .sh 0 6 true .normal⟩,
    ⟨"Extreme48BytePacked", .x 6 true true, .x 6 true true⟩,
    ⟨"Extreme48Byte_1SLShort", .sh 1 6 true .normal, .sh 1 6 true .normal⟩,
    ⟨"Extreme48Byte_1SLShortGreedy", .sh 1 6 true .greedy, .sh 1 6 true .normal⟩,
    ⟨"Extreme48Byte_3SL", .sl 3 6 true, .sl 3 6 true⟩,
    ⟨"Extreme48Byte_3SLShort", .sh 3 6 true .normal, .sh 3 6 true .normal⟩,
    ⟨"Extreme48Byte_3SLShortGreedy", .sh 3 6 true .greedy, .sh 3 6 true .normal⟩,
    ⟨"Extreme48Byte_7SL", .sl 7 6 true, .sl 7 6 true⟩,
    ⟨"Extreme48Byte_7SLShort", .sh 7 6 true .normal, .sh 7 6 true .normal⟩,
    ⟨"Extreme48Byte_7SLShortGreedy", .sh 7 6 true .greedy, .sh 7 6 true .normal⟩,
    ⟨"Extreme64Sym", .x 8 false false, .x 8 false false⟩,
    ⟨"Extreme64SymShort", .sh 0 8 false .normal, .sh 0 8 false .normal⟩,
    ⟨"Extreme64SymPacked", .x 8 false true, .x 8 false true⟩,
    ⟨"Extreme64Sym_1SLShort", .sh 1 8 false .normal, .sh 1 8 false .normal⟩,
    ⟨"Extreme64Sym_3SL", .sl 3 8 false, .sl 3 8 false⟩,
    ⟨"Extreme64Sym_3SLShort", .sh 3 8 false .normal, .sh 3 8 false .normal⟩,
    ⟨"Extreme64Sym_7SL", .sl 7 8 false, .sl 7 8 false⟩,
    ⟨"Extreme64Sym_7SLShort", .sh 7 8 false .normal, .sh 7 8 false .normal⟩,
    ⟨"Extreme64Byte", .x 8 true false, .x 8 true false⟩,
    ⟨"Extreme64ByteShort", .sh 0 8 true .normal, .sh 0 8 true .normal⟩,
    ⟨"Extreme64BytePacked", .x 8 true true, .x 8 true true⟩,
    ⟨"Extreme64Byte_1SLShort", .sh 1 8 true .normal, .sh 1 8 true .normal⟩,
    ⟨"Extreme64Byte_1SLShortGreedy", .sh 1 8 true .greedy, .sh 1 8 true .normal⟩,
    ⟨"Extreme64Byte_3SL", .sl 3 8 true, .sl 3 8 true⟩,
    ⟨"Extreme64Byte_3SLShort", .sh 3 8 true .normal, .sh 3 8 true .normal⟩,
    ⟨"Extreme64Byte_3SLShortGreedy", .sh 3 8 true .greedy, .sh 3 8 true .normal⟩,
    ⟨"Extreme64Byte_7SL", .sl 7 8 true, .sl 7 8 true⟩,
    ⟨"Extreme64Byte_7SLShort", .sh 7 8 true .normal, .sh 7 8 true .normal⟩,
    ⟨"Extreme64Byte_7SLShortGreedy", .sh 7 8 true .greedy, .sh 7 8 true .normal⟩,
    ⟨"Extreme128Sym", .x128 false false, .x128 false false⟩,
    ⟨"Extreme128SymPacked", .x128 false true, .x128 false true⟩,
    ⟨"Extreme128Byte", .x128 true false, .x128 true false⟩,
    ⟨"Extreme128BytePacked", .x128 true true, .x128 true true⟩,
    ⟨"Rle8SH", .rsh, .rsh⟩,
    ⟨"Extreme8MultiMTF128", .mm, .mm⟩,
    ⟨"LowEntropy", .le false false, .le false⟩,
    ⟨"LowEntropySingle", .le false true, .le false⟩,
    ⟨"LowEntropyShort", .le true false, .le true⟩,
    ⟨"LowEntropyShortSingle", .le true true, .le true⟩]

/-- The round trip all rows are measured by: `RoundTrip` for buffers whose size fits `uint32_t`. -/
def RoundTrip32 (comp : Compress) (decomp : Decompress) : Prop :=
  ∀ (inp : Mem) (n outSize ret : Nat) (out : List Byte), 0 < n → n ≤ maxInput → outSize < 4294967296 →
    comp (some inp) n true outSize = .ok ret out →
    ∀ (slack : List Byte) (m : Mem) (a : DArgs), 64 ≤ slack.length →
      a.pIn = some (out ++ slack) → out.length ≤ a.inSize → a.pOut = some m →
      n ≤ a.outSize → n + addSize ≤ a.cap →
      ∃ m', decomp a = .ok n m' ∧ (∀ k, k < n → m' k = inp k) ∧ (∀ k, n + addSize ≤ k → m' k = m k)

theorem RoundTrip.to32 {comp : Compress} {decomp : Decompress} (h : RoundTrip comp decomp) : RoundTrip32 comp decomp :=
  fun inp n outSize ret out h0 hn _ hc => h inp n outSize ret out h0 hn hc

theorem RoundTripExact.to32 {lim : Nat} (hl : maxInput ≤ lim) {comp : Compress} {decomp : Decompress}
    (h : RoundTripExact lim comp decomp) : RoundTrip32 comp decomp := by
  intro inp n outSize ret out h0 hn ho hc slack m a _ h1 h2 h3 h4 h5
  obtain ⟨m', e1, e2, e3⟩ := h inp n outSize ret out h0 (by omega) ho hc slack m a h1 h2 h3 h4 (by unfold addSize at h5; omega)
  exact ⟨m', e1, e2, fun k hk => e3 k (by omega)⟩

/-- Which pairs belong together, by name alone. -/
def pairs (f : CName) (g : DName) : Bool :=
  match f, g with
  | .r8 _ p, .r8 q => p == q
  | .x S u p, .x S' u' p' => S == S' && u == u' && p == p' && decide (S ∈ [2, 3, 4, 6, 8])
  | .sl N S u, .sl N' S' u' => N == N' && S == S' && u == u' && decide (SlCfg.valid ⟨N, S, u⟩)
  | .sh N S u m, .sh N' S' u' m' =>
      N == N' && S == S' && u == u' && decide (ShCfg.valid ⟨N, S, u, m⟩) && (m' == if m = .greedy then .normal else m)
  | .x128 u p, .x128 u' p' => u == u' && p == p'
  | .rsh, .rsh => true
  | .mm, .mm => true
  | .le s true, .le s' => s == s'
  | _, _ => false

theorem pairs_sound {f : CName} {g : DName} (h : pairs f g = true) (ce cd : Cpu) (junk : Vec) (m0 : Mem) :
    RoundTrip32 (f.run ce junk m0) (g.run cd) := by
  cases f with
  | r8 s p =>
    cases g <;> simp [pairs] at h
    subst h
    exact (C03_rle8_roundtrip ⟨s, p⟩ ce cd).to32
  | x S u p =>
    cases g <;> simp [pairs] at h
    obtain ⟨⟨⟨rfl, rfl⟩, rfl⟩, hv⟩ := h
    exact (C01_multibyte_roundtrip ⟨S, u, p⟩ (by simpa [XCfg.valid] using hv) ce cd).2.to32
  | sl N S u =>
    cases g <;> simp [pairs] at h
    obtain ⟨⟨⟨rfl, rfl⟩, rfl⟩, hv⟩ := h
    exact (C04_symlut_roundtrip ⟨N, S, u⟩ hv ce cd).to32
  | sh N S u m =>
    cases g <;> simp [pairs] at h
    obtain ⟨⟨⟨⟨rfl, rfl⟩, rfl⟩, hv⟩, hm⟩ := h
    by_cases hg : m = .greedy
    · subst hg
      rw [if_pos rfl] at hm
      subst hm
      exact (C06_greedy_roundtrip ⟨N, S, u, .greedy⟩ hv rfl ce cd).to32
    · rw [if_neg hg] at hm
      subst hm
      exact (C05_short_roundtrip ⟨N, S, u, _⟩ hv hg ce cd).to32
  | x128 u p =>
    cases g <;> simp [pairs] at h
    obtain ⟨rfl, rfl⟩ := h
    exact (C02_rle128_roundtrip u p ce cd).2.to32
  | rsh =>
    cases g <;> simp [pairs] at h
    exact (C15_roundtrip m0).to32 (by decide)
  | mm =>
    cases g <;> simp [pairs] at h
    exact (C14_roundtrip junk m0).to32 (by decide)
  | le s o =>
    cases g <;> cases o <;> simp [pairs] at h
    subst h
    cases s
    · exact (C07_only_max_roundtrip cd).to32 (by decide)
    · exact (C08_only_max_roundtrip cd).to32 (by decide)

/-- C38: whatever row of the table is selected, its decompressor restores what its compressor
wrote, for every pair of CPUs. Missing: the rows `LowEntropy` and `LowEntropyShort`, for which
`C07_violated` and `C08_violated` show that it is false; C07_roundtrip_partial and
C08_roundtrip_partial cover them for inputs that leave a byte value out. -/
theorem C38_table_partial (row : Row) (hr : row ∈ table) (hn : row.comp ≠ .le false false) (hn' : row.comp ≠ .le true false)
    (ce cd : Cpu) (junk : Vec) (m0 : Mem) : RoundTrip32 (row.comp.run ce junk m0) (row.dec.run cd) := by
  have key : table.all (fun r => pairs r.comp r.dec || r.comp == .le false false || r.comp == .le true false) = true := by
    decide +kernel
  have := List.all_eq_true.mp key row hr
  simp [hn, hn'] at this
  exact pairs_sound this ce cd junk m0

example : (⟨"Extreme16Byte_1SLShortGreedy", .sh 1 2 true .greedy, .sh 1 2 true .normal⟩ : Row) ∈ table := by decide +kernel

/-- C38: the two rows left out use the decompressors C07 and C08 speak about. -/
theorem C38_table_low_entropy (row : Row) (hr : row ∈ table) (s : Bool) (h : row.comp = .le s false) : row.dec = .le s := by
  have key : table.all (fun r => match r.comp with | .le s false => r.dec == .le s | _ => true) = true := by decide +kernel
  have := List.all_eq_true.mp key row hr
  rw [h] at this
  simpa using this

/-- C38: every compressor of the library is in the table, once, and no enumerator occurs twice. -/
theorem C38_table_complete :
    (table.map Row.comp).Nodup ∧ (table.map Row.id).Nodup ∧
    (∀ s p, .r8 s p ∈ table.map Row.comp) ∧ (∀ u p, .x128 u p ∈ table.map Row.comp) ∧
    (∀ s o, .le s o ∈ table.map Row.comp) ∧
    (∀ S u p, XCfg.valid ⟨S, u, p⟩ → .x S u p ∈ table.map Row.comp) ∧
    (∀ N S u, SlCfg.valid ⟨N, S, u⟩ → .sl N S u ∈ table.map Row.comp) ∧
    (∀ N S u m, ShCfg.valid ⟨N, S, u, m⟩ → .sh N S u m ∈ table.map Row.comp) := by
  refine ⟨by decide +kernel, by decide +kernel, by decide +kernel, by decide +kernel, by decide +kernel, ?_, ?_, ?_⟩
  · intro S u p h
    have key : [2, 3, 4, 6, 8].all (fun S => [true, false].all fun u => [true, false].all fun p =>
        decide (CName.x S u p ∈ table.map Row.comp)) = true := by decide +kernel
    have := List.all_eq_true.mp (List.all_eq_true.mp (List.all_eq_true.mp key S h) u (by cases u <;> decide)) p (by cases p <;> decide)
    simpa using this
  · intro N S u h
    obtain ⟨h1, h2, h3⟩ := h
    have key : [3, 7].all (fun N => [1, 2, 3, 4, 6, 8].all (fun S => [true, false].all fun u =>
        decide ((S = 1 → u = true) → CName.sl N S u ∈ table.map Row.comp))) = true := by decide +kernel
    have := List.all_eq_true.mp (List.all_eq_true.mp (List.all_eq_true.mp key N h1) S h2) u (by cases u <;> decide)
    exact of_decide_eq_true this h3
  · intro N S u m h
    have h1 := h.1
    have h2 := h.2.1
    have key : [0, 1, 3, 7].all (fun N => [1, 2, 3, 4, 6, 8].all (fun S => [true, false].all fun u =>
        [ShMode.normal, .single, .greedy].all fun m =>
        decide (ShCfg.valid ⟨N, S, u, m⟩ → CName.sh N S u m ∈ table.map Row.comp))) = true := by decide +kernel
    have := List.all_eq_true.mp (List.all_eq_true.mp (List.all_eq_true.mp (List.all_eq_true.mp key N h1) S h2) u
      (by cases u <;> decide)) m (by cases m <;> decide)
    exact of_decide_eq_true this h

end Hrk
