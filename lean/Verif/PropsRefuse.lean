import Verif.MmtfPtr
import Verif.Rle8MmtfApi
import Verif.Table

/-!
C72: what src/rle.h says of the multi move-to-front functions: without SSE2 they fail and return 0 (src/rle.h:421, 425, 444, 448); and
arguments they cannot work with are refused, as by the compressors.
-/
namespace Hrk

/-- Nothing was written and 0 was returned. -/
def TRes.refused : TRes → Prop
  | .fail => True
  | .ok ret out => ret = 0 ∧ out = []
  | .ub => False

/-- C72 where it holds: whatever the pointers are, also NULL, the transforms refuse an output that is too small and a processor without
SSE2. Missing: NULL pointers otherwise, see `C72_mmtf_null_violated`. -/
theorem C72_mmtf_partial (L : Nat) (dec : Bool) (cpu : Cpu) (pIn : Option (Nat × Mem)) (n : Nat) (pOut : Option Nat) (outSize : Nat)
    (h : outSize < n ∨ cpu.sse2 = false) : (mmtfPtr L dec cpu pIn n pOut outSize).refused := by
  unfold mmtfPtr
  by_cases h1 : n > outSize
  · rw [if_pos h1]; trivial
  · rw [if_neg h1, if_pos (h.resolve_left (by omega))]; trivial

/-- C72, the other direction: nothing else is refused. With room for the output, SSE2 and two buffers the transform writes `n` bytes and
returns `n`. -/
theorem C72_mmtf_accepts {L : Nat} (hL : L = 16 ∨ L = 32) (dec : Bool) (cpu : Cpu) (hc : cpu.sse2 = true) (aIn : Nat) (src : Mem)
    (n aOut outSize : Nat) (ho : n ≤ outSize) :
    ∃ out, mmtfPtr L dec cpu (some (aIn, src)) n (some aOut) outSize = .ok n out ∧ out.length = n := by
  unfold mmtfPtr
  rw [if_neg (by omega), hc]
  simp only [Bool.true_eq_false, if_false]
  have hl : (rd src 0 n).length = n := rd_length src 0 n
  obtain ⟨out, h1, h2, _⟩ := mmtf_spec hL dec cpu hc aIn aOut (rd src 0 n) (outSize := outSize) (by omega)
  rw [hl] at h1 h2
  exact ⟨out, h1, h2⟩

/-- C72 is false for NULL pointers: with `n > 0`, room and SSE2 each of them is read or written through, on every machine. -/
theorem C72_mmtf_null_violated (L : Nat) (dec : Bool) (cpu : Cpu) (hc : cpu.sse2 = true) (pIn : Option (Nat × Mem)) (n : Nat)
    (pOut : Option Nat) (outSize : Nat) (h0 : 0 < n) (ho : n ≤ outSize) (h : pIn = none ∨ pOut = none) :
    mmtfPtr L dec cpu pIn n pOut outSize = .ub ∧ ¬ (mmtfPtr L dec cpu pIn n pOut outSize).refused := by
  have e : mmtfPtr L dec cpu pIn n pOut outSize = .ub := by
    unfold mmtfPtr
    rw [if_neg (by omega), hc]
    simp only [Bool.true_eq_false, if_false]
    rcases h with rfl | rfl
    · simp only [if_neg (show ¬ n = 0 by omega)]
    · cases pIn <;> simp only [if_neg (show ¬ n = 0 by omega)]
  exact ⟨e, by rw [e]; exact id⟩

/-- C72: the bit transforms refuse NULL pointers as well. -/
theorem C72_bitmmtf (f : Option (List Byte) → Bool → Nat → TRes)
    (hf : f ∈ [bitmmtf8Encode, bitmmtf8Decode, bitmmtf16Encode, bitmmtf16Decode]) (pIn : Option (List Byte)) (pOut : Bool)
    (outSize : Nat) (h : pIn = none ∨ pOut = false ∨ ∃ src, pIn = some src ∧ outSize < src.length) : (f pIn pOut outSize).refused := by
  rw [C23_bitmmtf_guards f hf pIn pOut outSize h]; trivial

/-- C72 is false for `rle8_mmtf128`: nobody asks for SSE2. For every processor, also one without it, every input that is not empty is
compressed to a stream that is not empty if there is room for it, and the stream is decompressed to all its bytes. -/
theorem C72_mmtf128_sse2_violated (cpu : Cpu) (_hc : cpu.sse2 = false) (junk : Vec) (m0 inp : Mem) (n outSize : Nat) (h0 : 0 < n)
    (hn : n ≤ maxInput) (ho : n + 13 ≤ outSize) (ho' : outSize < 4294967296) :
    ∃ out, CName.run .mm cpu junk m0 (some inp) n true outSize = .ok out.length out ∧ 0 < out.length ∧
      ∀ (m : Mem) (a : DArgs), a.pIn = some out → out.length ≤ a.inSize → a.pOut = some m → n ≤ a.outSize → n ≤ a.cap →
        ∃ m', DName.run .mm cpu a = .ok n m' ∧ ∀ k, k < n → m' k = inp k := by
  obtain ⟨out, h1, _⟩ := C20_mmtf128_partial junk m0 inp n outSize h0 hn ho
  have hb : n ≤ 4294967295 := by unfold maxInput at hn; omega
  refine ⟨out, h1, ?_, ?_⟩
  · rcases Nat.eq_zero_or_pos out.length with e | e
    · exfalso
      have e' : out = [] := List.length_eq_zero_iff.mp e
      subst e'
      obtain ⟨m', d, _, _⟩ := C14_roundtrip junk m0 inp n outSize 0 [] h0 hb ho' h1 [] (fun _ => 0)
        { pIn := some [], inSize := 0, pOut := some (fun _ => 0), outSize := n, cap := n, aIn := 0, aOut := 0 } rfl (by simp) rfl (by simp) (by simp)
      simp [mmDecompress] at d
    · exact e
  · intro m a p1 p2 p3 p4 p5
    obtain ⟨m', d1, d2, _⟩ := C14_roundtrip junk m0 inp n outSize out.length out h0 hb ho' h1 [] m a (by simpa using p1) p2 p3 p4 p5
    exact ⟨m', d1, d2⟩

/-! ### Examples -/

/-- A processor without SSE2 and one with it. -/
example : (mmtfPtr 16 false ⟨false, false, false, false, false, false⟩ none 5 none 5).refused :=
  C72_mmtf_partial _ _ _ _ _ _ _ (.inr rfl)
example : mmtfPtr 16 false cpuSse41 (some (0, fun k => if k = 1 then 0 else 1)) 3 (some 32) 3 = .ok 3 [1, 0, 1] := by decide +kernel
example : mmtfPtr 16 false cpuSse41 (some (0, fun _ => 1)) 3 none 3 = .ub :=
  (C72_mmtf_null_violated _ _ _ rfl _ _ _ _ (by decide) (by decide) (.inr rfl)).1
example : (bitmmtf8Encode none true 5).refused := C72_bitmmtf _ (by simp) _ _ _ (.inl rfl)

end Hrk
