import Verif.PropsX
import Verif.Props128
import Verif.PropsRle8
import Verif.PropsSymlut
import Verif.PropsShort
import Verif.LowEntropyApi
import Verif.PropsRle8m
import Verif.Rle8mApi

/-
C28, as far as it holds: decompression stays inside its buffers on every well formed stream, also on
those no compressor writes.
-/

namespace Hrk

/-- A byte string that stands for as many bytes as its header says is decompressed without leaving the
buffers, whatever sizes the caller passes, if there are 64 readable bytes behind it and `outSize + 128`
bytes can be written. -/
def SafeOn {ι : Type} (ref : List Byte → Option (List Byte)) (variants : ι → Decompress) : Prop :=
  ∀ src out rest, ref src = some out → rdU32 src = some (out.length, rest) →
    ∀ i slack (a : DArgs), 64 ≤ slack.length → a.pIn = some (src ++ slack) → a.outSize + addSize ≤ a.cap →
      variants i a ≠ .ub

theorem le32_of_rdU32 {src r : List Byte} {x : Nat} (h : rdU32 src = some (x, r)) : src = le32 x ++ r ∧ x < 4294967296 := by
  match src, h with
  | a :: b :: c :: d :: r', h =>
    simp only [rdU32, Option.some.injEq, Prod.mk.injEq] at h
    obtain ⟨rfl, rfl⟩ := h
    have ha := a.toNat_lt; have hb := b.toNat_lt; have hc := c.toNat_lt; have hd := d.toNat_lt
    refine ⟨?_, by omega⟩
    simp only [le32, List.cons_append, List.nil_append, List.cons.injEq, and_true]
    refine ⟨?_, ?_, ?_, ?_⟩ <;> (apply UInt8.toNat.inj; rw [b8_toNat]; omega)

theorem safeOn {ι : Type} {ref : List Byte → Option (List Byte)} {variants : ι → Decompress}
    (hp : PortableComplete ref variants) (hg : ∀ i, DecompressGuardsNext (variants i))
    (hr : ∀ src out, ref src = some out → ∃ x rest y rest', rdU32 src = some (x, rest) ∧ rdU32 rest = some (y, rest')) :
    SafeOn ref variants := by
  intro src out rest href hx i slack a hs hpi hcap
  obtain ⟨x', rest', y, rest'', h1, h2⟩ := hr src out href
  rw [hx] at h1
  simp only [Option.some.injEq, Prod.mk.injEq] at h1
  obtain ⟨rfl, rfl⟩ := h1
  obtain ⟨g1, g2⟩ := hg i
  obtain ⟨e1, l1⟩ := le32_of_rdU32 hx
  obtain ⟨e2, l2⟩ := le32_of_rdU32 h2
  have fail : variants i a = .fail → variants i a ≠ .ub := by intro h; rw [h]; simp
  cases hpo : a.pOut with
  | none => exact fail (g1 a (Or.inr (Or.inl hpo)))
  | some m =>
    by_cases z1 : a.inSize = 0
    · exact fail (g1 a (Or.inr (Or.inr (Or.inl z1))))
    · by_cases z2 : a.outSize = 0
      · exact fail (g1 a (Or.inr (Or.inr (Or.inr z2))))
      · obtain ⟨nx, more, hne⟩ : ∃ nx more, rest'' ++ slack = nx :: more := by
          cases hc : rest'' ++ slack with
          | nil => rw [List.append_eq_nil_iff] at hc; rw [hc.2] at hs; simp at hs
          | cons b l => exact ⟨b, l, rfl⟩
        have hpi' : a.pIn = some (le32 out.length ++ le32 y ++ nx :: more) := by
          rw [hpi, e1, e2, ← hne]; simp [List.append_assoc]
        by_cases z3 : a.outSize < out.length
        · exact fail (g2 a _ y _ _ l1 l2 hpi' (Or.inl z3))
        · by_cases z4 : a.inSize < y
          · exact fail (g2 a _ y _ _ l1 l2 hpi' (Or.inr z4))
          · obtain ⟨m', h, _⟩ := hp src out href _ y rest hx ⟨rest'', h2⟩ i slack a m hs hpi hpo (by omega) (by omega)
              (by omega) (by omega) (by omega)
            rw [h]
            simp

theorem Cdc.ref_header {σ : Type} (c : Cdc σ) (src out : List Byte) (h : c.ref src = some out) :
    ∃ x rest y rest', rdU32 src = some (x, rest) ∧ rdU32 rest = some (y, rest') := by
  unfold Cdc.ref refDecode at h
  obtain ⟨⟨x, r⟩, h1, h⟩ := Option.bind_eq_some_iff.mp h
  obtain ⟨⟨y, r'⟩, h2, _⟩ := Option.bind_eq_some_iff.mp h
  exact ⟨x, r, y, r', h1, h2⟩

/-- C28 for the 16, 24, 32, 48 and 64 bit codecs, on all streams that stand for something. Missing: the
other byte strings (`C28_multibyte_violated`). -/
theorem C28_multibyte_partial (c : XCfg) (hc : c.valid) : SafeOn c.cdc.ref c.decompress :=
  safeOn (C27_multibyte_portable c hc).2 (fun i => (C25_multibyte_guards c i).next) c.cdc.ref_header

/-- C28 for the 128 bit codecs, on all streams that stand for something. Missing: the other byte strings
(`C28_rle128_violated`). -/
theorem C28_rle128_partial (unb packed : Bool) : SafeOn (cdc128 unb packed).ref (cdc128 unb packed).decompress :=
  safeOn (C27_rle128_portable unb packed).2 (fun i => (C25_rle128_guards unb packed i).next) (Cdc.ref_header _)

/-- C28 for the 8 bit codecs, on all streams that stand for something. Missing: the other byte strings
(`C28_rle8_violated`). -/
theorem C28_rle8_partial (packed : Bool) : SafeOn (R8Cfg.cdc ⟨false, packed⟩).ref (R8Cfg.decompress packed) :=
  safeOn (C27_rle8_portable packed).2 (C25_rle8_guards_partial packed) (Cdc.ref_header _)

/-- C28 for the symbol table codecs, on all streams that stand for something. Missing: the other byte
strings (`C28_symlut_violated`). -/
theorem C28_symlut_partial (c : SlCfg) (hc : c.valid) : SafeOn c.cdc.ref c.decompress :=
  safeOn (C27_symlut_portable c hc).1 (fun i => (C25_symlut_guards c i).next) c.cdc.ref_header

/-- C28 for the short codecs, on all streams that stand for something. Missing: the other byte strings
(`C28_short_violated`). -/
theorem C28_short_partial (c : ShCfg) (hc : c.valid) : SafeOn c.cdc.ref c.decompress :=
  safeOn (C27_short_portable c hc).2 (fun i => (C25_short_guards c i).next) c.cdc.ref_header

/-- C28 for the low entropy codecs, on all streams that stand for something: nothing outside the stream is
read and nothing outside `outSize` bytes is written, whatever sizes the caller passes. Missing: the other
byte strings (`C28_low_entropy_violated`). -/
theorem C28_low_entropy_partial (short : Bool) (cpu : Cpu) (src t : List Byte) (h : LeStands short src t) (a : DArgs)
    (hpi : a.pIn = some src) (hcap : a.outSize ≤ a.cap) : leDecompress short cpu a ≠ .ub := by
  obtain ⟨g1, g2⟩ := C25_low_entropy_guards short cpu
  have fail : leDecompress short cpu a = .fail → leDecompress short cpu a ≠ .ub := by intro h; rw [h]; simp
  cases hpo : a.pOut with
  | none => exact fail (g1 a (Or.inr (Or.inl hpo)))
  | some m =>
    by_cases z1 : a.inSize = 0
    · exact fail (g1 a (Or.inr (Or.inr (Or.inl z1))))
    · by_cases z2 : a.outSize = 0
      · exact fail (g1 a (Or.inr (Or.inr (Or.inr z2))))
      · have h' := h
        obtain ⟨w, d, tail, x, hsrc, hl1, hl0, hl2, -⟩ := h'
        have hpi' : a.pIn = some (le32 (8 + w.length + d.length) ++ le32 t.length ++ (w ++ d ++ tail)) := by
          rw [hpi, hsrc]; simp [List.append_assoc]
        by_cases z3 : a.outSize < t.length
        · exact fail (g2 a _ _ _ hl2 hl1 hpi' (Or.inl z3))
        · by_cases z4 : a.inSize < 8 + w.length + d.length
          · exact fail (g2 a _ _ _ hl2 hl1 hpi' (Or.inr z4))
          · obtain ⟨m', h1, _⟩ := C27_low_entropy_portable short cpu src t h m a hpi
              (by
                intro y rest hy
                rw [hsrc] at hy
                simp only [List.append_assoc, rdU32_le32, Option.some.injEq, Prod.mk.injEq] at hy
                omega) hpo (by omega) (by omega)
            rw [h1]
            simp

/-- C28 for rle8m, on all streams that stand for something and the `inSize` compression returned: nothing
outside the buffers is accessed. Missing: the other byte strings and sizes. -/
theorem C28_rle8m_partial (cpu : Cpu) (src : List Byte) (len : Nat) (inp : Mem) (n : Nat) (h : MStands src len inp n)
    (a : DArgs) (hpi : a.pIn = some src) (hin : a.inSize = len) (hcap : a.outSize ≤ a.cap) : mDecompress cpu a ≠ .ub := by
  obtain ⟨⟨g1, g2⟩, _⟩ := C25_rle8m_guards cpu
  have fail : mDecompress cpu a = .fail → mDecompress cpu a ≠ .ub := by intro h; rw [h]; simp
  cases hpo : a.pOut with
  | none => exact fail (g1 a (Or.inr (Or.inl hpo)))
  | some m =>
    by_cases z3 : a.outSize < n
    · obtain ⟨y, k, ⟨w, ds, tail, hk0, hk, hn, hn2, hl2, hlen, hsrc, hy, href⟩, h256⟩ := h
      refine fail (g2 a n len (le32 k ++ mOffsets (12 + 4 * (k - 1) + w.length) ds ++ w ++ ds.flatten ++ tail) hn2 hl2 ?_ (Or.inl z3))
      rw [hpi, hsrc]
      simp only [List.append_assoc]
    · obtain ⟨m', h1, _⟩ := C27_rle8m_portable cpu src len inp n h m a hpi hin hpo (by omega) (by omega)
      rw [h1]
      simp

/-- The hypotheses of `C28_multibyte_partial` can be met: a stream no encoder writes (a run of 7 with a
redundant long offset) stands for the 9 bytes its header announces. -/
example : (⟨2, true, false⟩ : XCfg).valid ∧ (⟨2, true, false⟩ : XCfg).cdc.ref
    (le32 9 ++ le32 27 ++ [1, 2, 2, 0] ++ le32 3 ++ [7, 8] ++ [0, 0, 0] ++ le32 0 ++ [0] ++ le32 0) =
    some [7, 8, 1, 2, 1, 2, 1, 2, 1] ∧
    (rdU32 (le32 9 ++ le32 27 ++ [1, 2, 2, 0] ++ le32 3 ++ [7, 8] ++ [0, 0, 0] ++ le32 0 ++ [0] ++ le32 0)).map (·.1) = some 9 := by
  decide +kernel

end Hrk
