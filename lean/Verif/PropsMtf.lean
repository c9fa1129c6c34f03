import Verif.BitMmtf

/-
Theorems about the transforms of src/mmtf.c and src/bit_mmtf.c.
-/

namespace Hrk

/-- `mmtf128_encode`/`mmtf128_decode` (`L = 16`) and `mmtf256_encode`/`mmtf256_decode`
(`L = 32`). -/
def mmtf (L : Nat) (dec : Bool) (cpu : Cpu) (aIn aOut : Nat) (src : List Byte) (outSize : Nat) : TRes :=
  if L = 16 then mmtf128 dec cpu aIn aOut src outSize else mmtf256 dec cpu aIn aOut src outSize

theorem mmtf_spec {L : Nat} (hL : L = 16 ∨ L = 32) (dec : Bool) (cpu : Cpu) (hc : cpu.sse2 = true) (aIn aOut : Nat)
    (src : List Byte) {outSize : Nat} (ho : src.length ≤ outSize) :
    ∃ o, mmtf L dec cpu aIn aOut src outSize = .ok src.length o ∧ o.length = src.length ∧
      ∀ j, j < L → lane L j o = mtfCode dec mtfTable (lane L j src) := by
  unfold mmtf
  rcases hL with rfl | rfl
  · rw [if_pos rfl]
    unfold mmtf128
    rw [if_neg (by omega), if_neg (by simp [hc])]
    by_cases h : aIn % 16 = 0 ∧ aOut % 32 = 0 ∧ cpu.sse41 = true
    · rw [if_pos h]
      exact mtfRun_spec (parts := 1) (w := 16) (by omega) (by omega) src (by intro _; omega)
    · rw [if_neg h]
      exact mtfRun_spec (parts := 1) (w := 16) (by omega) (by omega) src (by intro h; cases h)
  · rw [if_neg (by omega)]
    unfold mmtf256
    rw [if_neg (by omega), if_neg (by simp [hc])]
    by_cases h2 : cpu.avx2 = false
    · rw [if_pos h2]
      exact mtfRun_spec (parts := 2) (w := 16) (by omega) (by omega) src (by intro h; cases h)
    · rw [if_neg h2]
      by_cases h : aIn % 32 = 0 ∧ aOut % 32 = 0
      · rw [if_pos h]
        exact mtfRun_spec (parts := 1) (w := 32) (by omega) (by omega) src (by intro _; omega)
      · rw [if_neg h]
        exact mtfRun_spec (parts := 1) (w := 32) (by omega) (by omega) src (by intro h; cases h)

/-- C12: on every machine with SSE2 and at every address, the encoder writes exactly `inSize` bytes,
and every lane of its output is the textbook move to front code of that lane of the input. -/
theorem C12_mmtf_encode_lanes (L : Nat) (hL : L = 16 ∨ L = 32) (cpu : Cpu) (hc : cpu.sse2 = true) (aIn aOut : Nat)
    (src : List Byte) (outSize : Nat) (ho : src.length ≤ outSize) :
    ∃ out, mmtf L false cpu aIn aOut src outSize = .ok src.length out ∧ out.length = src.length ∧
      ∀ j, j < L → lane L j out = mtf mtfTable (lane L j src) :=
  mmtf_spec hL false cpu hc aIn aOut src ho

/-- C12: the same for the decoder, on arbitrary bytes. -/
theorem C12_mmtf_decode_lanes (L : Nat) (hL : L = 16 ∨ L = 32) (cpu : Cpu) (hc : cpu.sse2 = true) (aIn aOut : Nat)
    (src : List Byte) (outSize : Nat) (ho : src.length ≤ outSize) :
    ∃ out, mmtf L true cpu aIn aOut src outSize = .ok src.length out ∧ out.length = src.length ∧
      ∀ j, j < L → lane L j out = unmtf mtfTable (lane L j src) :=
  mmtf_spec hL true cpu hc aIn aOut src ho

/-- C12: which machine, which code path and which addresses does not matter. -/
theorem C12_mmtf_paths_agree (L : Nat) (hL : L = 16 ∨ L = 32) (dec : Bool) (cpu cpu' : Cpu) (hc : cpu.sse2 = true)
    (hc' : cpu'.sse2 = true) (aIn aOut aIn' aOut' : Nat) (src : List Byte) (outSize : Nat) :
    mmtf L dec cpu aIn aOut src outSize = mmtf L dec cpu' aIn' aOut' src outSize := by
  by_cases ho : src.length ≤ outSize
  · obtain ⟨o, h1, h2, h3⟩ := mmtf_spec hL dec cpu hc aIn aOut src ho
    obtain ⟨o', h1', h2', h3'⟩ := mmtf_spec hL dec cpu' hc' aIn' aOut' src ho
    have : o = o' := lane_ext (L := L) (by omega) o o' 0 (by omega) (fun j hj => (h3 j hj).trans (h3' j hj).symm)
    rw [h1, h1', this]
  · have h : src.length > outSize := by omega
    unfold mmtf mmtf128 mmtf256
    simp only [if_pos h]

/-- C11: decoding undoes encoding, whatever code path either side takes. -/
theorem C11_mmtf_roundtrip (L : Nat) (hL : L = 16 ∨ L = 32) (cpu cpu' : Cpu) (hc : cpu.sse2 = true)
    (hc' : cpu'.sse2 = true) (aIn aOut aIn' aOut' : Nat) (src : List Byte) (outSize outSize' : Nat)
    (ho : src.length ≤ outSize) (ho' : src.length ≤ outSize') :
    ∃ code, mmtf L false cpu aIn aOut src outSize = .ok src.length code ∧ code.length = src.length ∧
      mmtf L true cpu' aIn' aOut' code outSize' = .ok src.length src := by
  obtain ⟨o, h1, h2, h3⟩ := mmtf_spec hL false cpu hc aIn aOut src ho
  obtain ⟨o', h1', h2', h3'⟩ := mmtf_spec hL true cpu' hc' aIn' aOut' o (outSize := outSize') (by omega)
  refine ⟨o, h1, h2, ?_⟩
  rw [h1', h2]
  congr 1
  refine lane_ext (L := L) (by omega) o' src 0 (by omega) ?_
  intro j hj
  refine (h3' j hj).trans ?_
  show unmtf mtfTable (lane L j o) = lane L j src
  rw [h3 j hj]
  exact unmtf_mtf _ _ (List.Perm.refl _)

/-- C23: `mmtf*` refuse an output buffer smaller than the input, and machines without SSE2. -/
theorem C23_mmtf_guards (L : Nat) (dec : Bool) (cpu : Cpu) (aIn aOut : Nat) (src : List Byte) (outSize : Nat)
    (h : outSize < src.length ∨ cpu.sse2 = false) : mmtf L dec cpu aIn aOut src outSize = .fail := by
  unfold mmtf mmtf128 mmtf256
  rcases h with h | h
  · simp only [if_pos (show src.length > outSize from h), ite_self]
  · simp only [h, if_true, ite_self]

/-- A machine with SSE2 and SSE4.1 only, one with AVX2. -/
def cpuSse41 : Cpu := ⟨true, true, true, false, false, false⟩
def cpuAvx2 : Cpu := ⟨true, true, true, true, true, false⟩

/-- Twenty bytes: one block and four bytes behind it in the 16 lane functions. -/
def mtfSample : List Byte := [3, 3, 0, 9, 9, 9, 1, 2, 3, 4, 5, 6, 7, 8, 200, 255, 3, 0, 3, 10]

example : ∃ code, mmtf 16 false cpuSse41 32 64 mtfSample 20 = .ok 20 code ∧ code.length = 20 ∧
    mmtf 16 true cpuAvx2 1 7 code 30 = .ok 20 mtfSample :=
  C11_mmtf_roundtrip 16 (.inl rfl) cpuSse41 cpuAvx2 rfl rfl 32 64 1 7 mtfSample 20 30 (by decide) (by decide)
example : mmtf 32 false cpuSse41 0 0 (mtfSample ++ mtfSample) 40 = mmtf 32 false cpuAvx2 0 0 (mtfSample ++ mtfSample) 40 :=
  C12_mmtf_paths_agree 32 (.inr rfl) false cpuSse41 cpuAvx2 rfl rfl 0 0 0 0 _ 40
example : mtf mtfTable [3, 3, 0, 3] = [3, 0, 1, 1] := by decide +kernel
example : unmtf mtfTable [3, 0, 1, 1] = [3, 3, 0, 3] := by decide +kernel
example : lane 16 1 mtfSample = [3, 0] := by decide
example : mmtf 16 false cpuSse41 0 0 mtfSample 19 = .fail := C23_mmtf_guards 16 false _ 0 0 _ 19 (.inl (by decide))
example : mmtf 16 false cpuSse41 0 0 (List.replicate 16 1 ++ [1, 0, 7]) 19 =
    .ok 19 (List.replicate 16 1 ++ [0, 1, 7]) := by decide +kernel

/-! ### Bit transforms -/

/-- C13: `bitmmtf8_encode` writes every byte xor its predecessor. -/
theorem C13_bitmmtf8_encode (src : List Byte) (outSize : Nat) (ho : src.length ≤ outSize) :
    bitmmtf8Encode (some src) true outSize = .ok src.length (xorDelta 0 src) := by
  unfold bitmmtf8Encode bitApi
  simp only []
  rw [if_neg (by simp; omega), ← vzero8, bit8Enc_eq]

/-- C13: `bitmmtf8_decode` accumulates with xor, for arbitrary bytes. -/
theorem C13_bitmmtf8_decode (src : List Byte) (outSize : Nat) (ho : src.length ≤ outSize) :
    bitmmtf8Decode (some src) true outSize = .ok src.length (xorSum 0 src) := by
  unfold bitmmtf8Decode bitApi
  simp only []
  rw [if_neg (by simp; omega), bit8Dec_eq bit8St_zero]

/-- C13: `bitmmtf16_encode` writes every byte xor the byte two places before it. -/
theorem C13_bitmmtf16_encode (src : List Byte) (outSize : Nat) (ho : src.length ≤ outSize) :
    bitmmtf16Encode (some src) true outSize = .ok src.length (xorDelta16 0 0 src) := by
  unfold bitmmtf16Encode bitApi
  simp only []
  rw [if_neg (by simp; omega), ← vzero16, bit16Enc_eq]

/-- C13: `bitmmtf16_decode`, for arbitrary bytes. -/
theorem C13_bitmmtf16_decode (src : List Byte) (outSize : Nat) (ho : src.length ≤ outSize) :
    bitmmtf16Decode (some src) true outSize = .ok src.length (xorSum16 0 0 src) := by
  unfold bitmmtf16Decode bitApi
  simp only []
  rw [if_neg (by simp; omega), bit16Dec_eq _ 0 0 _ bit16St_zero]

/-- C13: `bitmmtf8` round trip; both directions write exactly `inSize` bytes. -/
theorem C13_bitmmtf8_roundtrip (src : List Byte) (outSize outSize' : Nat) (ho : src.length ≤ outSize)
    (ho' : src.length ≤ outSize') :
    ∃ code, bitmmtf8Encode (some src) true outSize = .ok src.length code ∧ code.length = src.length ∧
      bitmmtf8Decode (some code) true outSize' = .ok src.length src := by
  refine ⟨_, C13_bitmmtf8_encode src outSize ho, xorDelta_length _ _, ?_⟩
  rw [C13_bitmmtf8_decode _ _ (by rw [xorDelta_length]; exact ho'), xorSum_delta, xorDelta_length]

/-- C13: `bitmmtf16` round trip, odd lengths included. -/
theorem C13_bitmmtf16_roundtrip (src : List Byte) (outSize outSize' : Nat) (ho : src.length ≤ outSize)
    (ho' : src.length ≤ outSize') :
    ∃ code, bitmmtf16Encode (some src) true outSize = .ok src.length code ∧ code.length = src.length ∧
      bitmmtf16Decode (some code) true outSize' = .ok src.length src := by
  refine ⟨_, C13_bitmmtf16_encode src outSize ho, xorDelta16_length _ _ _, ?_⟩
  rw [C13_bitmmtf16_decode _ _ (by rw [xorDelta16_length]; exact ho'), xorSum16_delta, xorDelta16_length]

/-- C13: the decoders write exactly `inSize` bytes for arbitrary bytes too. -/
theorem C13_bitmmtf_decode_length (src : List Byte) (outSize : Nat) (ho : src.length ≤ outSize) :
    (∃ o, bitmmtf8Decode (some src) true outSize = .ok src.length o ∧ o.length = src.length) ∧
      ∃ o, bitmmtf16Decode (some src) true outSize = .ok src.length o ∧ o.length = src.length :=
  ⟨⟨_, C13_bitmmtf8_decode src outSize ho, xorSum_length _ _⟩, ⟨_, C13_bitmmtf16_decode src outSize ho, xorSum16_length _ _ _⟩⟩

/-- C23: null pointers and output buffers smaller than the input are refused. -/
theorem C23_bitmmtf_guards (f : Option (List Byte) → Bool → Nat → TRes)
    (hf : f ∈ [bitmmtf8Encode, bitmmtf8Decode, bitmmtf16Encode, bitmmtf16Decode]) (pIn : Option (List Byte)) (pOut : Bool)
    (outSize : Nat) (h : pIn = none ∨ pOut = false ∨ ∃ src, pIn = some src ∧ outSize < src.length) :
    f pIn pOut outSize = .fail := by
  have key : ∀ g, bitApi g pIn pOut outSize = .fail := by
    intro g
    unfold bitApi
    rcases h with h | h | ⟨src, h, h2⟩
    · rw [h]
    · cases pIn with
      | none => rfl
      | some src => simp only [h, true_or, if_true]
    · rw [h]; simp only; rw [if_pos (Or.inr h2)]
  simp only [List.mem_cons, List.not_mem_nil, or_false] at hf
  rcases hf with rfl | rfl | rfl | rfl <;> exact key _

example : bitmmtf8Encode (some [1, 1, 3, 255, 0]) true 5 = .ok 5 [1, 0, 2, 252, 255] := by decide +kernel
example : bitmmtf16Encode (some [1, 2, 3, 4, 77]) true 5 = .ok 5 [1, 2, 2, 6, 77] := by decide +kernel
example : bitmmtf16Decode (some [1, 2, 2, 6, 77]) true 9 = .ok 5 [1, 2, 3, 4, 77] := by decide +kernel
example : bitmmtf8Encode (some [1, 2]) true 1 = .fail := by decide

end Hrk
