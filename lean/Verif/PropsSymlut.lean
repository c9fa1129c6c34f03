import Verif.Symlut
import Verif.PropsX

/-
Properties of the 3 and 7 symbol table codecs (rle8_{3,7}symlut and
rle{16,24,32,48,64}_{3,7}symlut_{sym,byte}).
-/

namespace Hrk

/-! ### C04 -/

/-- C04: whenever compress succeeds, decompress on any CPU gives the input back. -/
theorem C04_symlut_roundtrip (c : SlCfg) (hc : c.valid) (ce cd : Cpu) :
    RoundTrip (c.compress ce) (c.decompress cd) :=
  (c.cdc_ok hc).roundTrip ce cd

example : ((⟨3, 1, true⟩ : SlCfg).compress noSimd (some sampleInp) 60 true 300).size = 61 := by decide +kernel
example : ((⟨7, 2, true⟩ : SlCfg).compress withAvx2 (some sampleInp) 60 true 300).size = 34 := by decide +kernel
example : ((⟨7, 3, false⟩ : SlCfg).compress noSimd (some sampleInp) 60 true 300).size = 63 := by decide +kernel
example : (⟨3, 1, true⟩ : SlCfg).valid ∧ (⟨7, 6, false⟩ : SlCfg).valid := by decide

/-! ### C21-C29, C36 -/

/-- C21: decompression of a compressed stream stays inside `n + 128` output bytes and 64
bytes behind the stream. -/
theorem C21_symlut_inside (c : SlCfg) (hc : c.valid) (ce cd : Cpu) :
    StaysInside (c.compress ce) (c.decompress cd) :=
  (c.cdc_ok hc).inside ce cd

/-- C22: header fields and return values. -/
theorem C22_symlut_header (c : SlCfg) (ce cd : Cpu) : HeaderTruthful (c.compress ce) (c.decompress cd) :=
  c.cdc.header ce cd

/-- C23: compress guards. -/
theorem C23_symlut_guards (c : SlCfg) (cpu : Cpu) : CompressGuards bounds (c.compress cpu) :=
  c.cdc.cguards cpu

/-- C24 is false: see `C24_multibyte_violated`. -/
theorem C24_symlut_violated (c : SlCfg) (hc : c.valid) (cpu : Cpu) (inp : Mem) (n : Nat)
    (hn : 1073741824 < n) :
    bounds n = 0 ∧ (∀ outSize, c.compress cpu (some inp) n true outSize ≠ .fail) ∧
      c.compress cpu (some inp) n true 0 = .ub :=
  (c.cdc_ok hc).huge cpu inp n hn

/-- C25: decompress guards. -/
theorem C25_symlut_guards (c : SlCfg) (cpu : Cpu) : DecompressGuards (c.decompress cpu) :=
  c.cdc.dguards cpu

/-- C26: trailing bytes are ignored. -/
theorem C26_symlut_trailing (c : SlCfg) (hc : c.valid) (ce cd : Cpu) :
    TrailingIgnored (c.compress ce) (c.decompress cd) :=
  (c.cdc_ok hc).trailing ce cd

/-- C27: every byte string that stands for some bytes is decoded to these bytes by every
decoder variant. Decoders other than the AVX-512 one do not return on anything else. -/
theorem C27_symlut_portable (c : SlCfg) (hc : c.valid) : PortableComplete c.cdc.ref c.decompress ∧
    PortableSound c.cdc.ref (fun cpu : {cpu : Cpu // c.cdc.hdrV cpu = c.cdc.F.hdr} => c.decompress cpu.1) :=
  (c.cdc_ok hc).portable_partial

/-- The restriction covers every CPU without AVX-512. -/
theorem C27_symlut_same_parser (c : SlCfg) (cpu : Cpu) (h : cpu.avx512f = false) : c.cdc.hdrV cpu = c.cdc.F.hdr := by
  show c.hdrV cpu = c.hdr
  unfold SlCfg.hdrV
  rw [if_neg (by simp [h])]

/-- A stream no encoder writes: an offset of 1 in a 32 bit field, a run of 5 of table entry 1. -/
example : (⟨3, 1, true⟩ : SlCfg).cdc.ref
    (le32 6 ++ le32 20 ++ le16 (1 <<< 14 ||| 4 <<< 7 ||| 0) ++ le32 3 ++ ([9] : List Byte) ++ le16 (1 <<< 7 ||| 1) ++ le16 0 ++ le16 0) =
    some [9, 0x7F, 0x7F, 0x7F, 0x7F, 0x7F] := by decide +kernel

def DRes.isOk : DRes → Bool
  | .ok _ _ => true
  | _ => false

/-- A record with a 32 bit offset of 0. -/
def odd512 (c : SlCfg) : List Byte := le32 1 ++ le32 8 ++ le16 (5 <<< c.RB) ++ le32 0 ++ List.replicate 64 0

def withAvx512 : Cpu := ⟨true, true, true, true, true, true⟩

theorem odd512_eval : ∀ N ∈ [3, 7], ∀ S ∈ [1, 2, 4, 8], ∀ unb : Bool,
    (SlCfg.decompress ⟨N, S, unb⟩ withAvx512
      ⟨some (odd512 ⟨N, S, unb⟩), 80, some (fun _ => 0), 1, 129, 0, 0⟩).isOk = true ∧
    (SlCfg.decompress ⟨N, S, unb⟩ withAvx2
      ⟨some (odd512 ⟨N, S, unb⟩), 80, some (fun _ => 0), 1, 129, 0, 0⟩).isUb = true := by
  decide +kernel

/-- On byte strings that do not stand for anything the decoders differ: there is one on which
the AVX-512 decoder returns while the AVX2 decoder lets the output pointer wrap around. -/
theorem C27_symlut_malformed_differ (c : SlCfg) (hc : c.valid) (h : c.odd = false) :
    ∃ a : DArgs, (∃ r m, c.decompress withAvx512 a = .ok r m) ∧ c.decompress withAvx2 a = .ub := by
  have hS : c.S ∈ [1, 2, 4, 8] := by
    obtain ⟨_, hS, _⟩ := hc
    simp only [List.mem_cons, List.not_mem_nil, or_false] at hS
    rcases hS with h' | h' | h' | h' | h' | h' <;> simp [SlCfg.odd, h'] at h ⊢
  obtain ⟨g1, g2⟩ := odd512_eval c.N hc.1 c.S hS c.unb
  refine ⟨⟨some (odd512 ⟨c.N, c.S, c.unb⟩), 80, some (fun _ => 0), 1, 129, 0, 0⟩, ?_, ?_⟩
  · revert g1
    cases SlCfg.decompress ⟨c.N, c.S, c.unb⟩ withAvx512
      ⟨some (odd512 ⟨c.N, c.S, c.unb⟩), 80, some (fun _ => 0), 1, 129, 0, 0⟩ <;> simp [DRes.isOk]
  · revert g2
    cases SlCfg.decompress ⟨c.N, c.S, c.unb⟩ withAvx2
      ⟨some (odd512 ⟨c.N, c.S, c.unb⟩), 80, some (fun _ => 0), 1, 129, 0, 0⟩ <;> simp [DRes.isUb]

/-- A run of at least 5000 bytes in a stream that claims to hold one byte. -/
def malSl (c : SlCfg) : List Byte := le32 1 ++ le32 8 ++ le16 (1 <<< c.RB ||| 2) ++ le16 5000

theorem malSl_ub : ∀ N ∈ [3, 7], ∀ S ∈ [1, 2, 3, 4, 6, 8], ∀ unb a b c d e f : Bool,
    (SlCfg.decompress ⟨N, S, unb⟩ ⟨a, b, c, d, e, f⟩ (malArgs (malSl ⟨N, S, unb⟩))).isUb = true := by
  decide +kernel

/-- C28 is false: for every codec and CPU there are bytes that make decompress
write outside `outSize + 128`. -/
theorem C28_symlut_violated (c : SlCfg) (hc : c.valid) (cpu : Cpu) :
    ∃ (src : List Byte) (a : DArgs), a.pIn = some (src ++ List.replicate 64 0) ∧ a.inSize = src.length ∧
      a.outSize = 1 ∧ a.cap = a.outSize + 128 ∧ c.decompress cpu a = .ub := by
  refine ⟨malSl c, malArgs (malSl c), rfl, rfl, rfl, rfl, ?_⟩
  have := malSl_ub c.N hc.1 c.S hc.2.1 c.unb cpu.sse2 cpu.ssse3 cpu.sse41 cpu.avx cpu.avx2 cpu.avx512f
  revert this
  cases SlCfg.decompress ⟨c.N, c.S, c.unb⟩ ⟨cpu.sse2, cpu.ssse3, cpu.sse41, cpu.avx, cpu.avx2, cpu.avx512f⟩
    (malArgs (malSl ⟨c.N, c.S, c.unb⟩)) <;> simp [DRes.isUb]

/-- C29: only the first `n + S` bytes at `pIn` influence the stream. -/
theorem C29_symlut_prefix (c : SlCfg) (hc : c.valid) (cpu : Cpu) : DependsOnPrefix c.S (c.compress cpu) :=
  (c.cdc_ok hc).prefix cpu

/-- C36: neither direction hangs, on any argument. -/
theorem C36_symlut_terminates (c : SlCfg) (hc : c.valid) (ce cd : Cpu) :
    Terminates (c.compress ce) (c.decompress cd) :=
  (c.cdc_ok hc).terminates ce cd

end Hrk
