import Verif.Short
import Verif.PropsSymlut

/-
Properties of the short codecs (rle8_multi_short, rle8_single_short,
rle8_{1,3,7}symlut_short, rle{16,24,32,48,64}_{sym,byte}_short,
rle{16,24,32,48,64}_{1,3,7}symlut_{sym,byte}_short and the greedy encoders).
-/

namespace Hrk

/-! ### C05, C06 -/

/-- C05: whenever compress succeeds, decompress on any CPU gives the input back. -/
theorem C05_short_roundtrip (c : ShCfg) (hc : c.valid) (_hm : c.mode ≠ .greedy) (ce cd : Cpu) :
    RoundTrip (c.compress ce) (c.decompress cd) :=
  (c.cdc_ok hc).roundTrip ce cd

/-- C06: the streams of the greedy encoders decode to the input with the ordinary decoder
of the codec. -/
theorem C06_greedy_roundtrip (c : ShCfg) (hc : c.valid) (hm : c.mode = .greedy) (ce cd : Cpu) :
    RoundTrip (c.compress ce) (ShCfg.decompress { c with mode := .normal } cd) := by
  have h := (c.cdc_ok hc).roundTrip ce cd
  have hd : ShCfg.decompress { c with mode := .normal } cd = c.decompress cd := by
    obtain ⟨N, S, unb, mode⟩ := c
    simp only at hm
    subst hm
    unfold ShCfg.decompress Cdc.decompress
    have h1 : ShCfg.minR ⟨N, S, unb, .normal⟩ = ShCfg.minR ⟨N, S, unb, .greedy⟩ := by simp [ShCfg.minR]
    have h2 : ShCfg.news ⟨N, S, unb, .normal⟩ = ShCfg.news ⟨N, S, unb, .greedy⟩ := by
      funext k
      have : (ShMode.normal != ShMode.single) = (ShMode.greedy != ShMode.single) := by decide
      simp only [ShCfg.news, this]
    have h3 : ShCfg.start ⟨N, S, unb, .normal⟩ = ShCfg.start ⟨N, S, unb, .greedy⟩ := by
      funext src; simp [ShCfg.start, ShCfg.init]
    have h4 : ShCfg.fields ⟨N, S, unb, .normal⟩ = ShCfg.fields ⟨N, S, unb, .greedy⟩ := by
      funext lut
      have h5 : ShCfg.rdSym ⟨N, S, unb, .normal⟩ = ShCfg.rdSym ⟨N, S, unb, .greedy⟩ := by
        funext l i; simp only [ShCfg.rdSym, h2]
      have h6 : ShCfg.rdCO ⟨N, S, unb, .normal⟩ = ShCfg.rdCO ⟨N, S, unb, .greedy⟩ := rfl
      simp only [ShCfg.fields, h5, h6]
      rfl
    have h7 : ShCfg.toH ⟨N, S, unb, .normal⟩ = ShCfg.toH ⟨N, S, unb, .greedy⟩ := by
      funext x r; simp only [ShCfg.toH, ShCfg.cntOf, h1]
    show apiDecompress _ (ShCfg.hdr _) _ = apiDecompress _ (ShCfg.hdr _) _
    simp only [ShCfg.cdc, h3, ShCfg.hdr, h4, h7]
  rw [hd]
  exact h

example : (⟨0, 1, true, .single⟩ : ShCfg).valid ∧ (⟨7, 6, false, .normal⟩ : ShCfg).valid ∧
    (⟨3, 3, true, .greedy⟩ : ShCfg).valid := by decide
example : ((⟨0, 1, true, .single⟩ : ShCfg).compress noSimd (some sampleInp) 60 true 300).size = 63 := by decide +kernel
example : ((⟨1, 2, true, .normal⟩ : ShCfg).compress withAvx2 (some sampleInp) 60 true 300).size = 37 := by decide +kernel

/-- Single occurrences of table entries, whole and cut off. -/
def greedyInp : Mem := fun k => if k % 7 < 4 then 0 else if k % 14 < 7 then UInt8.ofNat k else 0x7F

example : ((⟨3, 4, true, .greedy⟩ : ShCfg).compress noSimd (some greedyInp) 60 true 300).size = 40 := by decide +kernel
example : ((⟨3, 4, true, .normal⟩ : ShCfg).compress noSimd (some greedyInp) 60 true 300).size = 77 := by decide +kernel

/-! ### C21-C29, C36 -/

/-- C21: decompression of a compressed stream stays inside `n + 128` output bytes and 64
bytes behind the stream. -/
theorem C21_short_inside (c : ShCfg) (hc : c.valid) (ce cd : Cpu) :
    StaysInside (c.compress ce) (c.decompress cd) :=
  (c.cdc_ok hc).inside ce cd

/-- C22: header fields and return values. -/
theorem C22_short_header (c : ShCfg) (ce cd : Cpu) : HeaderTruthful (c.compress ce) (c.decompress cd) :=
  c.cdc.header ce cd

/-- C23: compress guards. -/
theorem C23_short_guards (c : ShCfg) (cpu : Cpu) : CompressGuards bounds (c.compress cpu) :=
  c.cdc.cguards cpu

/-- C24 is false: see `C24_multibyte_violated`. -/
theorem C24_short_violated (c : ShCfg) (hc : c.valid) (cpu : Cpu) (inp : Mem) (n : Nat)
    (hn : 1073741824 < n) :
    bounds n = 0 ∧ (∀ outSize, c.compress cpu (some inp) n true outSize ≠ .fail) ∧
      c.compress cpu (some inp) n true 0 = .ub :=
  (c.cdc_ok hc).huge cpu inp n hn

/-- C25: decompress guards. -/
theorem C25_short_guards (c : ShCfg) (cpu : Cpu) : DecompressGuards (c.decompress cpu) :=
  c.cdc.dguards cpu

/-- C26: trailing bytes are ignored. -/
theorem C26_short_trailing (c : ShCfg) (hc : c.valid) (ce cd : Cpu) :
    TrailingIgnored (c.compress ce) (c.decompress cd) :=
  (c.cdc_ok hc).trailing ce cd

/-- C27: every byte string that stands for some bytes is decoded to these bytes by every
decoder variant, and no decoder variant returns on anything else. -/
theorem C27_short_portable (c : ShCfg) (hc : c.valid) : Portable c.cdc.ref c.decompress :=
  (c.cdc_ok hc).portable fun _ => rfl

/-- A stream no encoder writes: an offset of 1 in a 32 bit field, a run of 5 of table entry 1. -/
example : (⟨3, 1, true, .normal⟩ : ShCfg).cdc.ref
    (le32 6 ++ le32 20 ++ ([0x78, 20, 0] : List Byte) ++ le32 3 ++ ([9] : List Byte) ++ ([0x38, 4, 1] : List Byte) ++ le16 0 ++ le16 0) =
    some [9, 0x7F, 0x7F, 0x7F, 0x7F, 0x7F] := by decide +kernel

/-- A run of 5000 symbols in a stream that claims to hold one byte. -/
def malSh (c : ShCfg) : List Byte :=
  le32 1 ++ le32 8 ++ (if c.mode = .single then ([7] : List Byte) else []) ++ [b8 (c.inval <<< c.RP), b8 (1 <<< c.RX), 2] ++ le16 5000

theorem malSh_ub : ∀ N ∈ [0, 1, 3, 7], ∀ S ∈ [1, 2, 3, 4, 6, 8], ∀ m ∈ [ShMode.normal, .single, .greedy],
    ∀ unb a b c d e f : Bool,
    (ShCfg.decompress ⟨N, S, unb, m⟩ ⟨a, b, c, d, e, f⟩ (malArgs (malSh ⟨N, S, unb, m⟩))).isUb = true := by
  decide +kernel

/-- C28 is false: for every codec and CPU there are bytes that make decompress
write outside `outSize + 128`. -/
theorem C28_short_violated (c : ShCfg) (hc : c.valid) (cpu : Cpu) :
    ∃ (src : List Byte) (a : DArgs), a.pIn = some (src ++ List.replicate 64 0) ∧ a.inSize = src.length ∧
      a.outSize = 1 ∧ a.cap = a.outSize + 128 ∧ c.decompress cpu a = .ub := by
  refine ⟨malSh c, malArgs (malSh c), rfl, rfl, rfl, rfl, ?_⟩
  have := malSh_ub c.N hc.1 c.S hc.2.1 c.mode (by cases c.mode <;> simp) c.unb
    cpu.sse2 cpu.ssse3 cpu.sse41 cpu.avx cpu.avx2 cpu.avx512f
  revert this
  cases ShCfg.decompress ⟨c.N, c.S, c.unb, c.mode⟩ ⟨cpu.sse2, cpu.ssse3, cpu.sse41, cpu.avx, cpu.avx2, cpu.avx512f⟩
    (malArgs (malSh ⟨c.N, c.S, c.unb, c.mode⟩)) <;> simp [DRes.isUb]

/-- C29: only the first `n + S` bytes at `pIn` influence the stream. -/
theorem C29_short_prefix (c : ShCfg) (hc : c.valid) (cpu : Cpu) : DependsOnPrefix c.S (c.compress cpu) :=
  (c.cdc_ok hc).prefix cpu

/-- C36: neither direction hangs, on any argument. -/
theorem C36_short_terminates (c : ShCfg) (hc : c.valid) (ce cd : Cpu) :
    Terminates (c.compress ce) (c.decompress cd) :=
  (c.cdc_ok hc).terminates ce cd

end Hrk
