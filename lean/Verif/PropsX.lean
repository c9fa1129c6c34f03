import Verif.RleX

/-
Properties of the 16, 24, 32, 48 and 64 bit plain and packed codecs, for every
configuration (`c.valid`) and every pair of CPUs. See `Spec.lean` for the
vocabulary.
-/

namespace Hrk

/-! ### C01 -/

/-- C01: with an output buffer of `rle_compress_bounds` bytes compression succeeds,
and decompression (on any CPU) gives the input back. -/
theorem C01_multibyte_roundtrip (c : XCfg) (hc : c.valid) (ce cd : Cpu) :
    FitsBounds bounds (c.compress ce) ∧ RoundTrip (c.compress ce) (c.decompress cd) := by
  have hS := c.valid_S hc
  refine ⟨fitsBounds_of_size _ ?_, ?_⟩
  · intro inp n _ hn
    obtain ⟨b, h1, h2⟩ := c.enc_size hc ce inp n
    exact ⟨b, h1, by omega⟩
  · exact (c.cdc_ok hc).roundTrip ce cd

/-- A 60 byte input with literals, two runs and a tail, used to show that the
hypotheses of the theorems can be met. -/
def sampleInp : Mem := fun k =>
  if k < 5 then UInt8.ofNat (17 * k) else if k < 37 then UInt8.ofNat (k % 2) else
  if k < 55 then 9 else UInt8.ofNat k

def noSimd : Cpu := ⟨true, false, false, false, false, false⟩
def withAvx2 : Cpu := ⟨true, true, true, true, true, false⟩

def CRes.size : CRes → Nat
  | .ok r _ => r
  | _ => 0

example : ((⟨2, true, true⟩ : XCfg).compress noSimd (some sampleInp) 60 true 300).size = 35 := by decide +kernel
example : ((⟨2, false, false⟩ : XCfg).compress withAvx2 (some sampleInp) 60 true 300).size = 38 := by decide +kernel
example : (⟨2, true, true⟩ : XCfg).valid ∧ (⟨6, false, false⟩ : XCfg).valid := by decide

/-! ### C16 (multi-byte part) -/

/-- C16: the returned size is at most `rle_compress_bounds`, and indeed at most
`inSize + 34`. -/
theorem C16_multibyte_bounds (c : XCfg) (hc : c.valid) (cpu : Cpu) (inp : Mem) (n outSize ret : Nat)
    (out : List Byte) (ho : outSize < 4294967296)
    (h : c.compress cpu (some inp) n true outSize = .ok ret out) :
    ret = out.length ∧ out.length ≤ n + 34 ∧ (n ≤ maxInput → out.length ≤ bounds n) := by
  have hS := c.valid_S hc
  obtain ⟨b, h1, h2⟩ := c.enc_size hc cpu inp n
  obtain ⟨g1, b', g2, rfl, rfl⟩ := apiCompress_len _ _ _ _ _ _ h
  rw [h1] at g2
  cases g2
  simp only [List.length_append, le32_length] at g1 ⊢
  refine ⟨by omega, by omega, fun hm => ?_⟩
  unfold maxInput at hm
  rw [bounds, if_neg (by omega)]
  omega

example : ∃ out, (⟨2, true, true⟩ : XCfg).compress noSimd (some sampleInp) 60 true 300 = .ok out.length out ∧
    out.length ≤ bounds 60 :=
  (C01_multibyte_roundtrip ⟨2, true, true⟩ (by decide) noSimd noSimd).1 sampleInp 60 300 (by decide) (by decide)
    (by decide) (by decide)

/-! ### C22, C23, C25, C26 -/

/-- C22: header fields and return values. -/
theorem C22_multibyte_header (c : XCfg) (ce cd : Cpu) : HeaderTruthful (c.compress ce) (c.decompress cd) :=
  c.cdc.header ce cd

/-- C23: compress guards. -/
theorem C23_multibyte_guards (c : XCfg) (cpu : Cpu) : CompressGuards bounds (c.compress cpu) :=
  c.cdc.cguards cpu

/-- C25: decompress guards. -/
theorem C25_multibyte_guards (c : XCfg) (cpu : Cpu) : DecompressGuards (c.decompress cpu) :=
  c.cdc.dguards cpu

/-- C26: trailing bytes are ignored. -/
theorem C26_multibyte_trailing (c : XCfg) (hc : c.valid) (ce cd : Cpu) :
    TrailingIgnored (c.compress ce) (c.decompress cd) :=
  (c.cdc_ok hc).trailing ce cd

example : (⟨4, false, true⟩ : XCfg).compress noSimd (some sampleInp) 60 true 252 = .fail :=
  C23_multibyte_guards _ _ _ _ _ _ (by decide)
example : ((⟨4, false, true⟩ : XCfg).compress noSimd (some sampleInp) 60 true 253) ≠ .fail := by decide +kernel

/-! ### C21 -/

/-- C21: a stream produced by compress is decompressed without a store outside
`n + 128` bytes and without a load more than 64 bytes behind the stream, for any
alignment of the two buffers. -/
theorem C21_multibyte_inside (c : XCfg) (hc : c.valid) (ce cd : Cpu) :
    StaysInside (c.compress ce) (c.decompress cd) :=
  (c.cdc_ok hc).inside ce cd

/-! ### C24 -/

/-- C24 is false: above 2^30 bytes `rle_compress_bounds` is 0, so the size test
cannot fail. Whatever the output buffer, the input is not refused; with a buffer of
size 0 the encoder writes out of bounds. -/
theorem C24_multibyte_violated (c : XCfg) (hc : c.valid) (cpu : Cpu) (inp : Mem) (n : Nat)
    (hn : 1073741824 < n) :
    bounds n = 0 ∧ (∀ outSize, c.compress cpu (some inp) n true outSize ≠ .fail) ∧
      c.compress cpu (some inp) n true 0 = .ub :=
  (c.cdc_ok hc).huge cpu inp n hn

/-! ### C27 -/

/-- C27: every decoder variant gives the same bytes on every stream, valid or not. -/
theorem C27_multibyte_portable (c : XCfg) (hc : c.valid) : Portable c.cdc.ref c.decompress :=
  (c.cdc_ok hc).portable (fun _ => rfl)

/-- A stream no encoder writes (a run of 7 with a redundant long offset), and what it stands for. -/
example : (⟨2, true, false⟩ : XCfg).cdc.ref
    (le32 9 ++ le32 27 ++ [1, 2, 2, 0] ++ le32 3 ++ [7, 8] ++ [0, 0, 0] ++ le32 0 ++ [0] ++ le32 0) =
    some [7, 8, 1, 2, 1, 2, 1, 2, 1] := by decide +kernel

/-! ### C28 -/

def DRes.isUb : DRes → Bool
  | .ub => true
  | _ => false

/-- A run of `1000 * S` bytes in a stream that claims to hold one byte. -/
def malX (c : XCfg) : List Byte :=
  le32 1 ++ le32 8 ++ c.cntBytes (List.replicate c.S 0) (List.replicate c.S 1) (c.S * 1000) ++
    [if c.b7 then 2 else 1]

def malArgs (src : List Byte) : DArgs :=
  ⟨some (src ++ List.replicate 64 0), src.length, some (fun _ => 0), 1, 1 + 128, 0, 0⟩

theorem malX_ub : ∀ S ∈ [2, 3, 4, 6, 8], ∀ unb packed a b c d e f : Bool,
    (XCfg.decompress ⟨S, unb, packed⟩ ⟨a, b, c, d, e, f⟩ (malArgs (malX ⟨S, unb, packed⟩))).isUb = true := by
  decide +kernel

/-- C28 is false: for every codec and CPU there are bytes that make decompress
write outside `outSize + 128`. -/
theorem C28_multibyte_violated (c : XCfg) (hc : c.valid) (cpu : Cpu) :
    ∃ (src : List Byte) (a : DArgs), a.pIn = some (src ++ List.replicate 64 0) ∧ a.inSize = src.length ∧
      a.outSize = 1 ∧ a.cap = a.outSize + 128 ∧ c.decompress cpu a = .ub := by
  refine ⟨malX c, malArgs (malX c), rfl, rfl, rfl, rfl, ?_⟩
  have := malX_ub c.S hc c.unb c.packed cpu.sse2 cpu.ssse3 cpu.sse41 cpu.avx cpu.avx2 cpu.avx512f
  revert this
  cases XCfg.decompress ⟨c.S, c.unb, c.packed⟩ ⟨cpu.sse2, cpu.ssse3, cpu.sse41, cpu.avx, cpu.avx2, cpu.avx512f⟩
    (malArgs (malX ⟨c.S, c.unb, c.packed⟩)) <;> simp [DRes.isUb]

/-! ### C29 -/

/-- C29: only the first `n + S` bytes at `pIn` influence the stream. -/
theorem C29_multibyte_prefix (c : XCfg) (hc : c.valid) (cpu : Cpu) : DependsOnPrefix c.S (c.compress cpu) :=
  (c.cdc_ok hc).prefix cpu

/-- The bound is tight: for 16 bit symbols byte `n + 1` can change the stream. -/
example : (⟨2, false, false⟩ : XCfg).compress noSimd (some fun k => UInt8.ofNat (if k = 10 then 8 else k)) 10 true 203 ≠
    (⟨2, false, false⟩ : XCfg).compress noSimd (some fun k => UInt8.ofNat (if k = 10 then 8 else if k = 11 then 9 else k)) 10 true 203 := by
  decide +kernel

/-! ### C33 -/

/-- C33: one repeated symbol compresses to at most 72 bytes. -/
theorem C33_multibyte_constant (c : XCfg) (hc : c.valid) (cpu : Cpu) : ConstBounded c.S 72 (c.compress cpu) := by
  intro inp sym n outSize ret out hs hn hrep h
  have hS := c.valid_S hc
  have key : ∃ b, c.cdc.body cpu inp n = some b ∧ b.length ≤ 64 := by
    rw [c.body_encX hc]
    by_cases h2 : 2 * c.S ≤ n
    · obtain ⟨b, h3, h4⟩ := encX_const c.fmt (unb := c.unb) (inp := inp) (L := c.long) (R := c.S + 10) (E := c.S + 10)
        hS.1 (c.encW_ok hc cpu) hs h2 (by intro k hk; rw [hs]; exact hrep k hk)
        c.emit_zero c.emit_none c.emit_length c.end_length.1 c.end_length.2
      have : c.long ≤ c.S + 12 := by unfold XCfg.long XCfg.fc; split <;> split <;> omega
      exact ⟨b, h3, by omega⟩
    · obtain ⟨b, h3, h4⟩ := c.enc_size hc cpu inp n
      exact ⟨b, by rw [← c.body_encX hc]; exact h3, by omega⟩
  obtain ⟨b, h1, h2⟩ := key
  obtain ⟨_, b', g2, rfl, rfl⟩ := apiCompress_len _ _ _ _ _ _ h
  rw [h1] at g2
  cases g2
  simp; omega

example : ((⟨2, false, false⟩ : XCfg).compress noSimd (some fun k => UInt8.ofNat (k % 2)) 200 true 400).size = 24 := by
  decide +kernel

/-! ### C36 -/

/-- C36: neither direction hangs, on any argument. -/
theorem C36_multibyte_terminates (c : XCfg) (hc : c.valid) (ce cd : Cpu) :
    Terminates (c.compress ce) (c.decompress cd) :=
  (c.cdc_ok hc).terminates ce cd

end Hrk
