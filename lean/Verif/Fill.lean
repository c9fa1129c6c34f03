import Verif.ScanXI

/-
The registers from which the 24 and 48 bit decoders fill runs: three of them, which together hold
the symbol a whole number of times.
-/

namespace Hrk

/-- Three registers of `W` lanes, stored one behind the other (src/rle24_extreme_cpu_decode.h:224-244,
src/rle48_extreme_cpu_decode.h:229-249, src/rleX_Xsl.h:762-779, src/rleX_Xsl_short.h:1441-1458). -/
def three (W : Nat) (r : Vec × Vec × Vec) : Vec := fun j =>
  if j < W then r.1 j else if j < 2 * W then r.2.1 (j - W) else r.2.2 (j - 2 * W)

/-- `symbol0`, `symbol1`, `symbol2` from the register `v`, for 24 bit symbols and SSE2
(src/rle24_extreme_cpu_decode.h:31-44, 116-127, 199-210, src/rleX_Xsl.h:546-559, 691-702,
src/rleX_Xsl_short.h:1395-1406). -/
def fill24sse2 (v : Vec) : Vec × Vec × Vec :=
  let pattern00 := vset [0, 255, 255, 255, 0, 0, 0, 0, 0, 0, 0, 0, 0, 255, 255, 255]
  let pattern01 := vset [255, 0, 0, 0, 0, 0, 0, 0, 0, 0, 255, 255, 255, 0, 0, 0]
  let pattern02 := vset [0, 0, 0, 0, 0, 0, 0, 255, 255, 255, 0, 0, 0, 0, 0, 0]
  let pattern03 := vset [0, 0, 0, 0, 255, 255, 255, 0, 0, 0, 0, 0, 0, 0, 0, 0]
  let pattern10 := vset [0, 0, 0, 0, 0, 255, 255, 255, 0, 0, 0, 0, 0, 0, 0, 0]
  let pattern11 := vset [0, 0, 255, 255, 255, 0, 0, 0, 0, 0, 0, 0, 0, 0, 255, 255]
  let pattern12 := vset [255, 255, 0, 0, 0, 0, 0, 0, 0, 0, 0, 255, 255, 255, 0, 0]
  let pattern13 := vset [0, 0, 0, 0, 0, 0, 0, 0, 255, 255, 255, 0, 0, 0, 0, 0]
  let pattern20 := vset [0, 0, 0, 0, 0, 0, 0, 0, 0, 255, 255, 255, 0, 0, 0, 0]
  let pattern21 := vset [0, 0, 0, 0, 0, 0, 255, 255, 255, 0, 0, 0, 0, 0, 0, 0]
  let pattern22 := vset [0, 0, 0, 255, 255, 255, 0, 0, 0, 0, 0, 0, 0, 0, 0, 255]
  let pattern23 := vset [255, 255, 255, 0, 0, 0, 0, 0, 0, 0, 0, 0, 255, 255, 255, 0]
  let shift1 := vor (vsrli v 1) (vslli v 15)
  let symbol0 := vor (vand v pattern00) (vand shift1 pattern01)
  let symbol1 := vor (vand v pattern10) (vand shift1 pattern11)
  let symbol2 := vor (vand v pattern20) (vand shift1 pattern21)
  let shift2 := vor (vsrli v 2) (vslli v 14)
  let shift3 := vor (vsrli v 3) (vslli v 13)
  (vor symbol0 (vor (vand shift3 pattern03) (vand shift2 pattern02)),
    vor symbol1 (vor (vand shift3 pattern13) (vand shift2 pattern12)),
    vor symbol2 (vor (vand shift3 pattern23) (vand shift2 pattern22)))

/-- The same for 48 bit symbols (src/rle48_extreme_cpu_decode.h:31-43, 115-129, 201-215, src/rleX_Xsl.h:563-575, 704-718,
src/rleX_Xsl_short.h:1408-1422). -/
def fill48sse2 (v : Vec) : Vec × Vec × Vec :=
  let pattern00 := vset [0, 0, 0, 0, 0, 0, 0, 0, 0, 0, 255, 255, 255, 255, 255, 255]
  let pattern10 := vset [0, 0, 255, 255, 255, 255, 255, 255, 0, 0, 0, 0, 0, 0, 0, 0]
  let pattern02 := vset [0, 0, 0, 0, 255, 255, 255, 255, 255, 255, 0, 0, 0, 0, 0, 0]
  let pattern12 := vset [255, 255, 0, 0, 0, 0, 0, 0, 0, 0, 0, 0, 0, 0, 0, 0]
  let pattern22 := vset [0, 0, 0, 0, 0, 0, 0, 0, 0, 0, 0, 0, 255, 255, 255, 255]
  let pattern04 := vset [255, 255, 255, 255, 0, 0, 0, 0, 0, 0, 0, 0, 0, 0, 0, 0]
  let pattern14 := vset [0, 0, 0, 0, 0, 0, 0, 0, 0, 0, 0, 0, 0, 0, 255, 255]
  let pattern24 := vset [0, 0, 0, 0, 0, 0, 255, 255, 255, 255, 255, 255, 0, 0, 0, 0]
  let pattern16 := vset [0, 0, 0, 0, 0, 0, 0, 0, 255, 255, 255, 255, 255, 255, 0, 0]
  let pattern26 := vset [255, 255, 255, 255, 255, 255, 0, 0, 0, 0, 0, 0, 0, 0, 0, 0]
  let shift2 := vor (vsrli v 2) (vslli v 14)
  let symbol0 := vor (vand v pattern00) (vand shift2 pattern02)
  let symbol1a := vor (vand v pattern10) (vand shift2 pattern12)
  let shift4 := vor (vsrli v 4) (vslli v 12)
  let symbol0 := vor symbol0 (vand shift4 pattern04)
  let symbol2 := vor (vand shift2 pattern22) (vand shift4 pattern24)
  let shift6 := vor (vsrli v 6) (vslli v 10)
  let symbol1b := vor (vand shift4 pattern14) (vand shift6 pattern16)
  (symbol0, vor symbol1a symbol1b, vor symbol2 (vand shift6 pattern26))

/-- The registers a run is filled from: `_mm_set1_epi16`, `_mm_set1_epi32`, `_mm_set1_epi64x` for 16, 32 and 64 bit symbols;
three registers made from `_mm_set1_epi32` and `_mm_set1_epi64x` for 24 and 48 bit symbols
(src/rle24_extreme_cpu_decode.h:30-55, 115-138, src/rle48_extreme_cpu_decode.h:30-54, 114-140, the same tables in
src/rleX_Xsl.h and src/rleX_Xsl_short.h). `rest` are the bytes that a 24 or 48 bit symbol's
load of 4 or 8 bytes finds behind it. -/
def fillReg (k : Simd) (S : Nat) (rest sym : List Byte) : Vec :=
  let v := vset1N (sym ++ rest)
  match k, S with
  | .sse2, 3 => three 16 (fill24sse2 v)
  | .sse2, 6 => three 16 (fill48sse2 v)
  | .ssse3, 3 => three 16 (vshuffle v (vset [0, 2, 1, 0, 2, 1, 0, 2, 1, 0, 2, 1, 0, 2, 1, 0]),
      vshuffle v (vset [1, 0, 2, 1, 0, 2, 1, 0, 2, 1, 0, 2, 1, 0, 2, 1]),
      vshuffle v (vset [2, 1, 0, 2, 1, 0, 2, 1, 0, 2, 1, 0, 2, 1, 0, 2]))
  | .ssse3, 6 => three 16 (vshuffle v (vset [3, 2, 1, 0, 5, 4, 3, 2, 1, 0, 5, 4, 3, 2, 1, 0]),
      vshuffle v (vset [1, 0, 5, 4, 3, 2, 1, 0, 5, 4, 3, 2, 1, 0, 5, 4]),
      vshuffle v (vset [5, 4, 3, 2, 1, 0, 5, 4, 3, 2, 1, 0, 5, 4, 3, 2]))
  | .avx2, 3 => three 32
      (vshuffle v (vset [1, 0, 2, 1, 0, 2, 1, 0, 2, 1, 0, 2, 1, 0, 2, 1, 0, 2, 1, 0, 2, 1, 0, 2, 1, 0, 2, 1, 0, 2, 1, 0]),
       vshuffle v (vset [0, 2, 1, 0, 2, 1, 0, 2, 1, 0, 2, 1, 0, 2, 1, 0, 2, 1, 0, 2, 1, 0, 2, 1, 0, 2, 1, 0, 2, 1, 0, 2]),
       vshuffle v (vset [2, 1, 0, 2, 1, 0, 2, 1, 0, 2, 1, 0, 2, 1, 0, 2, 1, 0, 2, 1, 0, 2, 1, 0, 2, 1, 0, 2, 1, 0, 2, 1]))
  | .avx2, 6 => three 32
      (vshuffle v (vset [1, 0, 5, 4, 3, 2, 1, 0, 5, 4, 3, 2, 1, 0, 5, 4, 3, 2, 1, 0, 5, 4, 3, 2, 1, 0, 5, 4, 3, 2, 1, 0]),
       vshuffle v (vset [3, 2, 1, 0, 5, 4, 3, 2, 1, 0, 5, 4, 3, 2, 1, 0, 5, 4, 3, 2, 1, 0, 5, 4, 3, 2, 1, 0, 5, 4, 3, 2]),
       vshuffle v (vset [5, 4, 3, 2, 1, 0, 5, 4, 3, 2, 1, 0, 5, 4, 3, 2, 1, 0, 5, 4, 3, 2, 1, 0, 5, 4, 3, 2, 1, 0, 5, 4]))
  | _, _ => v

theorem fill24_lane (a b c d : Byte) {j : Nat} (hj : j < 48) : fillReg .sse2 3 [d] [a, b, c] j = vset1N [a, b, c] j := by
  interval_cases j <;> simp [fillReg, three, fill24sse2, vset1N, vset, vor, vand, vsrli, vslli, byte_and_ff]

theorem fill48_lane (a b c d e f g h : Byte) {j : Nat} (hj : j < 48) :
    fillReg .sse2 6 [g, h] [a, b, c, d, e, f] j = vset1N [a, b, c, d, e, f] j := by
  interval_cases j <;> simp [fillReg, three, fill48sse2, vset1N, vset, vor, vand, vsrli, vslli, byte_and_ff]

theorem fill24_ssse3 (a b c d : Byte) {j : Nat} (hj : j < 48) : fillReg .ssse3 3 [d] [a, b, c] j = vset1N [a, b, c] j := by
  interval_cases j <;> simp [fillReg, three, vset1N, vset, vshuffle]

theorem fill48_ssse3 (a b c d e f g h : Byte) {j : Nat} (hj : j < 48) :
    fillReg .ssse3 6 [g, h] [a, b, c, d, e, f] j = vset1N [a, b, c, d, e, f] j := by
  interval_cases j <;> simp [fillReg, three, vset1N, vset, vshuffle]

theorem fill24_avx2 (a b c d : Byte) {j : Nat} (hj : j < 96) : fillReg .avx2 3 [d] [a, b, c] j = vset1N [a, b, c] j := by
  interval_cases j <;> simp [fillReg, three, vset1N, vset, vshuffle]

theorem fill48_avx2 (a b c d e f g h : Byte) {j : Nat} (hj : j < 96) :
    fillReg .avx2 6 [g, h] [a, b, c, d, e, f] j = vset1N [a, b, c, d, e, f] j := by
  interval_cases j <;> simp [fillReg, three, vset1N, vset, vshuffle]

/-- The registers hold the symbol again and again, whatever was behind it. -/
theorem fillReg_lane {k : Simd} {S : Nat} (hS : S = 3 ∨ S = 6) (hk : k ≠ .base) {rest sym : List Byte} (hr : rest.length = symT S - S)
    (hl : sym.length = S) {j : Nat} (hj : j < 3 * k.width) : fillReg k S rest sym j = vset1N sym j := by
  rcases hS with rfl | rfl
  · obtain ⟨a, b, c, rfl⟩ : ∃ a b c, sym = [a, b, c] := by
      match sym, hl with
      | [a, b, c], _ => exact ⟨a, b, c, rfl⟩
    obtain ⟨d, rfl⟩ : ∃ d, rest = [d] := by
      match rest, hr with
      | [d], _ => exact ⟨d, rfl⟩
    cases k
    · exact absurd rfl hk
    · exact fill24_lane a b c d hj
    · exact fill24_ssse3 a b c d hj
    · exact fill24_avx2 a b c d hj
  · obtain ⟨a, b, c, d, e, f, rfl⟩ : ∃ a b c d e f, sym = [a, b, c, d, e, f] := by
      match sym, hl with
      | [a, b, c, d, e, f], _ => exact ⟨a, b, c, d, e, f, rfl⟩
    obtain ⟨g, h, rfl⟩ : ∃ g h, rest = [g, h] := by
      match rest, hr with
      | [g, h], _ => exact ⟨g, h, rfl⟩
    cases k
    · exact absurd rfl hk
    · exact fill48_lane a b c d e f g h hj
    · exact fill48_ssse3 a b c d e f g h hj
    · exact fill48_avx2 a b c d e f g h hj

/-- The fill of the 24 and 48 bit decoders. The bytes behind the symbol are taken to be 0: they make no
difference (`fillReg_lane`)
(src/rle24_extreme_cpu_decode.h:192-247, src/rle48_extreme_cpu_decode.h:194-252). -/
def oddK (k : Simd) (S : Nat) : SetK := .multi (3 * k.width) (fillReg k S (List.replicate (symT S - S) 0))

theorem oddK_ok {k : Simd} {S : Nat} (hS : S = 3 ∨ S = 6) (hk : k ≠ .base) : (oddK k S).ok S := by
  refine ⟨?_, by omega, ?_, fun sym j h1 h2 => fillReg_lane hS hk (by simp) h1 h2⟩
  · cases k <;> first | exact absurd rfl hk | decide
  · rcases hS with rfl | rfl <;> cases k <;> decide

theorem oddK_width (k : Simd) (S : Nat) : (oddK k S).width ≤ 112 := by cases k <;> simp [oddK, SetK.width, Simd.width]

/-- The fill from one register that holds the symbol a whole number of times
(src/rleX_extreme_common.h:271-306). -/
def oneK (G : Nat) : SetK := .multi G vset1N

theorem oneK_ok {G S : Nat} (h1 : 0 < G) (h2 : 0 < S) (h3 : G % S = 0) : (oneK G).ok S := ⟨h1, h2, h3, fun _ _ _ _ => rfl⟩

theorem oneK_width (G : Nat) : (oneK G).width = G := rfl

theorem alignedK_ok {W : Nat} (h : 0 < W) : (SetK.aligned W).ok 1 := ⟨h, rfl⟩

theorem alignedK_width (W : Nat) : (SetK.aligned W).width = W := rfl

end Hrk
