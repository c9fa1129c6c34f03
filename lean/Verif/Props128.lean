import Verif.Rle128
import Verif.PropsX

/-
Properties of rle128_sym, rle128_byte, rle128_sym_packed, rle128_byte_packed.
-/

namespace Hrk

/-- C02: compression with a large enough buffer succeeds; decompression gives the
input back. -/
theorem C02_rle128_roundtrip (unb packed : Bool) (ce cd : Cpu) :
    FitsBounds bounds ((cdc128 unb packed).compress ce) ∧
      RoundTrip ((cdc128 unb packed).compress ce) ((cdc128 unb packed).decompress cd) := by
  refine ⟨fitsBounds_of_size _ ?_, (cdc128_ok unb packed).roundTrip ce cd⟩
  intro inp n _ _
  obtain ⟨b, h1, h2⟩ := cdc128_size unb packed ce inp n
  exact ⟨b, h1, by omega⟩

/-- 20 literals, then 80 bytes of period 16, then 10 literals. -/
def sample128 : Mem := fun k =>
  if k < 20 then UInt8.ofNat (7 * k) else if k < 100 then UInt8.ofNat (k % 16) else UInt8.ofNat k

example : ((cdc128 true true).compress noSimd (some sample128) 110 true 400).size = 65 := by decide +kernel
example : ((cdc128 false false).compress noSimd (some sample128) 110 true 400).size = 82 := by decide +kernel

/-- C16 for the 128 bit codecs: never more than `inSize + 50` bytes. -/
theorem C16_rle128_bounds (unb packed : Bool) (cpu : Cpu) (inp : Mem) (n outSize ret : Nat)
    (out : List Byte) (ho : outSize < 4294967296)
    (h : (cdc128 unb packed).compress cpu (some inp) n true outSize = .ok ret out) :
    ret = out.length ∧ out.length ≤ n + 50 ∧ (n ≤ maxInput → out.length ≤ bounds n) := by
  obtain ⟨b, h1, h2⟩ := cdc128_size unb packed cpu inp n
  obtain ⟨g1, b', g2, rfl, rfl⟩ := apiCompress_len _ _ _ _ _ _ h
  rw [h1] at g2
  cases g2
  simp only [List.length_append, le32_length] at g1 ⊢
  refine ⟨by omega, by omega, fun hm => ?_⟩
  unfold maxInput at hm
  rw [bounds, if_neg (by omega)]
  omega

theorem C21_rle128_inside (unb packed : Bool) (ce cd : Cpu) :
    StaysInside ((cdc128 unb packed).compress ce) ((cdc128 unb packed).decompress cd) :=
  (cdc128_ok unb packed).inside ce cd

theorem C22_rle128_header (unb packed : Bool) (ce cd : Cpu) :
    HeaderTruthful ((cdc128 unb packed).compress ce) ((cdc128 unb packed).decompress cd) :=
  Cdc.header _ ce cd

theorem C23_rle128_guards (unb packed : Bool) (cpu : Cpu) :
    CompressGuards bounds ((cdc128 unb packed).compress cpu) := Cdc.cguards _ cpu

/-- C24 is false for the 128 bit codecs too. -/
theorem C24_rle128_violated (unb packed : Bool) (cpu : Cpu) (inp : Mem) (n : Nat) (hn : 1073741824 < n) :
    bounds n = 0 ∧ (∀ outSize, (cdc128 unb packed).compress cpu (some inp) n true outSize ≠ .fail) ∧
      (cdc128 unb packed).compress cpu (some inp) n true 0 = .ub :=
  (cdc128_ok unb packed).huge cpu inp n hn

theorem C25_rle128_guards (unb packed : Bool) (cpu : Cpu) :
    DecompressGuards ((cdc128 unb packed).decompress cpu) := Cdc.dguards _ cpu

theorem C26_rle128_trailing (unb packed : Bool) (ce cd : Cpu) :
    TrailingIgnored ((cdc128 unb packed).compress ce) ((cdc128 unb packed).decompress cd) :=
  (cdc128_ok unb packed).trailing ce cd

theorem C27_rle128_portable (unb packed : Bool) :
    Portable (cdc128 unb packed).ref (cdc128 unb packed).decompress :=
  (cdc128_ok unb packed).portable (fun _ => rfl)

theorem mal128_ub : ∀ unb packed a b c d e f : Bool,
    ((cdc128 unb packed).decompress ⟨a, b, c, d, e, f⟩ (malArgs (malX ⟨16, unb, packed⟩))).isUb = true := by
  decide +kernel

/-- C28 is false for the 128 bit codecs. -/
theorem C28_rle128_violated (unb packed : Bool) (cpu : Cpu) :
    ∃ (src : List Byte) (a : DArgs), a.pIn = some (src ++ List.replicate 64 0) ∧ a.inSize = src.length ∧
      a.outSize = 1 ∧ a.cap = a.outSize + 128 ∧ (cdc128 unb packed).decompress cpu a = .ub := by
  refine ⟨malX ⟨16, unb, packed⟩, malArgs (malX ⟨16, unb, packed⟩), rfl, rfl, rfl, rfl, ?_⟩
  have := mal128_ub unb packed cpu.sse2 cpu.ssse3 cpu.sse41 cpu.avx cpu.avx2 cpu.avx512f
  revert this
  cases (cdc128 unb packed).decompress ⟨cpu.sse2, cpu.ssse3, cpu.sse41, cpu.avx, cpu.avx2, cpu.avx512f⟩
    (malArgs (malX ⟨16, unb, packed⟩)) <;> simp [DRes.isUb]

theorem C29_rle128_prefix (unb packed : Bool) (cpu : Cpu) :
    DependsOnPrefix 16 ((cdc128 unb packed).compress cpu) := (cdc128_ok unb packed).prefix cpu

theorem C36_rle128_terminates (unb packed : Bool) (ce cd : Cpu) :
    Terminates ((cdc128 unb packed).compress ce) ((cdc128 unb packed).decompress cd) :=
  (cdc128_ok unb packed).terminates ce cd

end Hrk
