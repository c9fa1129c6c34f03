import Verif.Vec

/-
The bit packing routines of src/bitpack.h and the two simplified encoders of src/rle8_mmtf.c.
-/

namespace Hrk

/-! ### Vector and scalar operations -/

/-- `_mm_slli_epi16(v, k)`, `1 ≤ k ≤ 7`: the upper byte of every 16 bit lane receives the top bits
of the lower one (src/bitpack.h:29-30, 37). -/
def slli16 (k : Nat) (v : Vec) : Vec := fun j =>
  if j % 2 = 0 then v j <<< b8 k else (v j <<< b8 k) ||| (v (j - 1) >>> b8 (8 - k))

/-- `_mm_srli_epi16(v, k)`, `1 ≤ k ≤ 7` (src/bitpack.h:97). -/
def srli16 (k : Nat) (v : Vec) : Vec := fun j =>
  if j % 2 = 0 then (v j >>> b8 k) ||| (v (j + 1) <<< b8 (8 - k)) else v j >>> b8 k

/-- `x << k` of a little endian `uint32_t` or `uint64_t`, `1 ≤ k ≤ 7` (src/bitpack.h:630). -/
def shlLe (k : Nat) (v : Vec) : Vec := fun j =>
  if j = 0 then v j <<< b8 k else (v j <<< b8 k) ||| (v (j - 1) >>> b8 (8 - k))

/-- `x >> k` of a little endian integer of `w` bytes, `1 ≤ k ≤ 7` (src/bitpack.h:1085). -/
def shrLe (w k : Nat) (v : Vec) : Vec := fun j =>
  if j + 1 = w then v j >>> b8 k else (v j >>> b8 k) ||| (v (j + 1) <<< b8 (8 - k))

/-- `_mm_unpacklo_epi8(v, v)` (src/bitpack.h:110). -/
def unpackLo (v : Vec) : Vec := fun j => v (j / 2)
/-- `_mm_unpackhi_epi8(v, v)` (src/bitpack.h:299). -/
def unpackHi (v : Vec) : Vec := fun j => v (8 + j / 2)
/-- `_mm_min_epu8(v, _mm_set1_epi8(1))` (src/bitpack.h:115). -/
def vmin1 (v : Vec) : Vec := fun j => if v j ≤ 1 then v j else 1
/-- `_mm_set1_epi64x(0x8040201008040201)` (src/bitpack.h:90). -/
def bitSelect : Vec := fun j => ([1, 2, 4, 8, 16, 32, 64, 128] : List Byte).getD (j % 8) 0
/-- `_mm_set1_epi16` of the `uint16_t` at the start of `l` (src/bitpack.h:108). -/
def set16 (l : List Byte) : Vec := fun j => l.getD (j % 2) 0
/-- `_mm_set1_epi32` of the `uint32_t` at the start of `l` (src/bitpack.h:294). -/
def set32 (l : List Byte) : Vec := fun j => l.getD (j % 4) 0

/-- The `i`-th `__m128i` of `l` (src/bitpack.h:56). -/
def blkAt (l : List Byte) (i : Nat) : Vec := vload (l.drop (16 * i))

/-! ### Single steps -/

/-- Four blocks to one, two bits per byte (src/bitpack.h:882-889, 905-912, 990-997,
src/rle8_mmtf.c:53-60). -/
def pack2x4 (l : List Byte) : List Byte :=
  vstore 16 (vor (vor (slli16 6 (blkAt l 3)) (slli16 4 (blkAt l 2))) (vor (slli16 2 (blkAt l 1)) (blkAt l 0)))

/-- One block to four (src/bitpack.h:932-942, 960-970, 1055-1065, src/rle8_mmtf.c:773-784). -/
def unpack2x4 (l : List Byte) : List Byte :=
  vstore 16 (vand (vset1 3) (blkAt l 0)) ++ vstore 16 (vand (vset1 3) (srli16 2 (blkAt l 0))) ++
  vstore 16 (vand (vset1 3) (srli16 4 (blkAt l 0))) ++ vstore 16 (vand (vset1 3) (srli16 6 (blkAt l 0)))

/-- Four integers of `w` bytes to one: `p0 | (p1 << 2) | (p2 << 4) | (p3 << 6)`
(`w = 8`: src/bitpack.h:1012-1020; `w = 4`: 1027-1035, src/rle8_mmtf.c:72-80). -/
def pack2Le (w : Nat) (l : List Byte) : List Byte :=
  vstore w (vor (vor (vor (vload l) (shlLe 2 (vload (l.drop w)))) (shlLe 4 (vload (l.drop (2 * w)))))
    (shlLe 6 (vload (l.drop (3 * w)))))

/-- The reverse (`w = 8`: src/bitpack.h:1077-1087; `w = 4`: 1094-1104, and src/rle8_mmtf.c:829-833,
where the four words are the lanes of a vector). -/
def unpack2Le (w : Nat) (l : List Byte) : List Byte :=
  vstore w (vand (vload l) (vset1 3)) ++ vstore w (vand (shrLe w 2 (vload l)) (vset1 3)) ++
  vstore w (vand (shrLe w 4 (vload l)) (vset1 3)) ++ vstore w (vand (shrLe w 6 (vload l)) (vset1 3))

/-- `combinedA`, `combinedB`: three blocks into one, except for the top bits of the third
(src/bitpack.h:29-32, 62-65, 194-204, 237-247, 399-409, 428-431, src/rle8_mmtf.c:109-120). -/
def pack3Lo (p0 p1 p2 : Vec) : Vec :=
  vor (vor p0 (slli16 3 p1)) (slli16 6 (vand p2 (vset1 3)))

/-- The top bits of the third block (src/bitpack.h:37, 70, 209, 252, 414, 436, src/rle8_mmtf.c:124). -/
def pack3Hi (p2 : Vec) : Nat := movemask 16 (slli16 5 p2)

/-- Three blocks to 18 bytes (src/bitpack.h:23-40, 56-73, 424-439). -/
def pack3x3 (l : List Byte) : List Byte :=
  vstore 16 (pack3Lo (blkAt l 0) (blkAt l 1) (blkAt l 2)) ++ le16 (pack3Hi (blkAt l 2))

/-- Six blocks to 36 bytes (src/bitpack.h:185-212, 228-255, 390-417, src/rle8_mmtf.c:100-127). -/
def pack3x6 (l : List Byte) : List Byte :=
  vstore 16 (pack3Lo (blkAt l 0) (blkAt l 1) (blkAt l 2)) ++
  vstore 16 (pack3Lo (blkAt l 3) (blkAt l 4) (blkAt l 5)) ++
  le32 (pack3Hi (blkAt l 2) ||| (pack3Hi (blkAt l 5) <<< 16))

/-- `min(v & bitSelect, 1)`: one bit per byte (src/bitpack.h:114-115, 160-161, 301-304, 358-361,
504-507, 544-545, 580-586, 1177-1178, 1208-1209). -/
def bitOf (v : Vec) : Vec := vmin1 (vand v bitSelect)

/-- 16 bits to 16 bytes: three times `_mm_unpacklo_epi8` (src/bitpack.h:105-115,
151-161, 535-545, 564-586, 1171-1178, 1202-1209). -/
def spread16 (l : List Byte) : Vec := bitOf (unpackLo (unpackLo (unpackLo (set16 l))))

/-- 18 bytes to three blocks (src/bitpack.h:94-121, 140-167, 524-551). -/
def unpack3x3 (l : List Byte) : List Byte :=
  vstore 16 (vand (vset1 7) (blkAt l 0)) ++ vstore 16 (vand (vset1 7) (srli16 3 (blkAt l 0))) ++
  vstore 16 (vor (vand (vset1 3) (srli16 6 (blkAt l 0))) (slli16 2 (spread16 (l.drop 16))))

/-- 36 bytes to six blocks (src/bitpack.h:276-314, 333-371, 479-517, src/rle8_mmtf.c:886-922). -/
def unpack3x6 (l : List Byte) : List Byte :=
  vstore 16 (vand (vset1 7) (blkAt l 0)) ++ vstore 16 (vand (vset1 7) (srli16 3 (blkAt l 0))) ++
  vstore 16 (vor (vand (vset1 3) (srli16 6 (blkAt l 0)))
    (slli16 2 (bitOf (unpackLo (unpackLo (unpackLo (set32 (l.drop 32)))))))) ++
  vstore 16 (vand (vset1 7) (blkAt l 1)) ++ vstore 16 (vand (vset1 7) (srli16 3 (blkAt l 1))) ++
  vstore 16 (vor (vand (vset1 3) (srli16 6 (blkAt l 1)))
    (slli16 2 (bitOf (unpackHi (unpackLo (unpackLo (set32 (l.drop 32))))))))

/-- One block to 6 bytes (src/bitpack.h:444-457, src/rle8_mmtf.c:132-145). -/
def pack3x1 (l : List Byte) : List Byte :=
  le16 (movemask 16 (slli16 7 (vload l))) ++ le16 (movemask 16 (slli16 6 (vload l))) ++
  le16 (movemask 16 (slli16 5 (vload l)))

/-- 6 bytes to one block (src/bitpack.h:556-594, src/rle8_mmtf.c:967-1002). -/
def unpack3x1 (l : List Byte) : List Byte :=
  vstore 16 (vor (vor (slli16 1 (spread16 (l.drop 2))) (slli16 2 (spread16 (l.drop 4)))) (spread16 l))

/-- Two blocks to one, four bits per byte (src/bitpack.h:614-619, 657-662, 802-807). -/
def pack4x2 (l : List Byte) : List Byte :=
  vstore 16 (vor (slli16 4 (blkAt l 0)) (blkAt l 1))

/-- One block to two (src/bitpack.h:704-710, 753-759, 841-847, src/rle8_mmtf.c:1052-1059). -/
def unpack4x2 (l : List Byte) : List Byte :=
  vstore 16 (vand (vset1 15) (srli16 4 (blkAt l 0))) ++ vstore 16 (vand (vset1 15) (blkAt l 0))

/-- One block to 8 bytes (src/bitpack.h:817-821). -/
def pack4x1 (l : List Byte) : List Byte :=
  vstore 8 (vor (vload l) (shlLe 4 (vload (l.drop 8))))

/-- 8 bytes to one block (src/bitpack.h:857-865, src/rle8_mmtf.c:1104-1108). -/
def unpack4x1 (l : List Byte) : List Byte :=
  vstore 8 (vand (vload l) (vset1 15)) ++ vstore 8 (vand (shrLe 8 4 (vload l)) (vset1 15))

/-- Two bytes to one (src/bitpack.h:630, 673). -/
def pack4Pair (l : List Byte) : List Byte := [vload l 0 ||| (vload l 1 <<< 4)]

/-- One byte to two (src/bitpack.h:721-724, 770-773). -/
def unpack4Pair (l : List Byte) : List Byte := [vload l 0 &&& 15, vload l 0 >>> 4]

/-- The odd byte at the end is copied (src/bitpack.h:638, 681, 732, 781). -/
def copy1 (l : List Byte) : List Byte := [vload l 0]

/-- One block to two bytes (src/bitpack.h:1122-1126, 1143-1147). -/
def pack1 (l : List Byte) : List Byte := le16 (movemask 16 (slli16 7 (vload l)))

/-- Two bytes to one block (src/bitpack.h:1169-1183, 1200-1214). -/
def unpack1 (l : List Byte) : List Byte := vstore 16 (spread16 l)

/-! ### The loops around them -/

/-- `inp` are the bytes from `pIn` on that can be read, `pos` how many have been read, `left` is the
loop's `size - i` (0 if `i` went past the end), `out` are the bytes written so far: `pIn`, `pOut`, `i` of
every function (e.g. src/bitpack.h:384-385, 607-610, 984-986). -/
structure BpSt where
  inp : List Byte
  pos : Nat
  left : Nat
  out : List Byte

/-- Base addresses of the buffers that are accessed by aligned loads or stores (e.g.
src/bitpack.h:23, 100). -/
structure BpAl where
  aIn : Option Nat := none
  aOut : Option Nat := none

/-- `_mm_load_si128` in the `_aligned` function (src/bitpack.h:23-25, 185-190, 1122). -/
def alIn (aligned : Bool) (aIn : Nat) : BpAl := ⟨if aligned then some aIn else none, none⟩
/-- `_mm_stream_si128` in the `_aligned` function (src/bitpack.h:100-119, 286-312, 1180). -/
def alOut (aligned : Bool) (aOut : Nat) : BpAl := ⟨none, if aligned then some aOut else none⟩
/-- Both (src/bitpack.h:657-662, 753-759, 905-912, 960-970). -/
def alBoth (aligned : Bool) (aIn aOut : Nat) : BpAl :=
  ⟨if aligned then some aIn else none, if aligned then some aOut else none⟩

/-- Would an aligned access fault? -/
def BpAl.bad (al : BpAl) (s : BpSt) : Bool :=
  (match al.aIn with | some a => (a + s.pos) % 16 != 0 | none => false) ||
  (match al.aOut with | some a => (a + s.out.length) % 16 != 0 | none => false)

/-- One step, the body of a loop of src/bitpack.h such as 94-121: read `c` bytes, write `f` of them, advance `i` by `k`. `none`: a read behind the
buffer or an unaligned access by an aligned instruction. -/
def bpChunk (al : BpAl) (k c : Nat) (f : List Byte → List Byte) (s : BpSt) : Option BpSt :=
  if s.inp.length < c ∨ al.bad s then none
  else some { inp := s.inp.drop c, pos := s.pos + c, left := s.left - k, out := s.out ++ f (s.inp.take c) }

/-- A loop that runs a step while at least `lim` of `size - i` remain (src/bitpack.h:92, 388). -/
def bpWhile (al : BpAl) (lim k c : Nat) (f : List Byte → List Byte) : Nat → BpSt → Option BpSt
  | 0, s => some s
  | fuel + 1, s => if lim ≤ s.left then (bpChunk al k c f s).bind (bpWhile al lim k c f fuel) else some s

/-- `for (...; i < size; i += k)` (`lim = 1`, src/bitpack.h:92) and `for (...; i <= size - k; i += k)`
(`lim = k`, src/bitpack.h:388).
Every round lowers `left`, so `left` rounds are enough. -/
def bpFor (al : BpAl) (lim k c : Nat) (f : List Byte → List Byte) (s : BpSt) : Option BpSt :=
  bpWhile al lim k c f s.left s

/-- The same condition as an `if` (src/bitpack.h:420, 520, 1005, 1073). -/
def bpIf (lim k c : Nat) (f : List Byte → List Byte) (s : BpSt) : Option BpSt :=
  if lim ≤ s.left then bpChunk {} k c f s else some s

/-- The bytes written and the number of bytes `pIn` has been moved (src/bitpack.h:597, 868, 1107). -/
def bpRes (s : Option BpSt) : Option (List Byte × Nat) := s.map fun s => (s.out, s.pos)

/-- The bytes written (src/bitpack.h:460, 824, 1038). -/
def bpOut (s : Option BpSt) : Option (List Byte) := s.map fun s => s.out

/-- Before the first loop (e.g. src/bitpack.h:384). -/
def bpStart (inp : List Byte) (size : Nat) : BpSt := ⟨inp, 0, size, []⟩

/-! ### The functions -/

/-- `bitpack_encode3_3_sse2_aligned`, `_unaligned` (src/bitpack.h:15-75). -/
def bpEnc3x3 (al : Bool) (aIn : Nat) (inp : List Byte) (size : Nat) : Option (List Byte) :=
  bpOut (bpFor (alIn al aIn) 1 48 48 pack3x3 (bpStart inp size))

/-- `bitpack_decode3_3_sse2_aligned`, `_unaligned` (src/bitpack.h:83-169); `size` is `encodedSize`. -/
def bpDec3x3 (al : Bool) (aOut : Nat) (inp : List Byte) (size : Nat) : Option (List Byte × Nat) :=
  bpRes (bpFor (alOut al aOut) 1 18 18 unpack3x3 (bpStart inp size))

/-- `bitpack_encode3_6_sse2_aligned`, `_unaligned` (src/bitpack.h:177-257). -/
def bpEnc3x6 (al : Bool) (aIn : Nat) (inp : List Byte) (size : Nat) : Option (List Byte) :=
  bpOut (bpFor (alIn al aIn) 1 96 96 pack3x6 (bpStart inp size))

/-- `bitpack_decode3_6_sse2_aligned`, `_unaligned` (src/bitpack.h:265-373). -/
def bpDec3x6 (al : Bool) (aOut : Nat) (inp : List Byte) (size : Nat) : Option (List Byte × Nat) :=
  bpRes (bpFor (alOut al aOut) 1 36 36 unpack3x6 (bpStart inp size))

/-- `bitpack_encode3_sse2_unaligned_m128i` (src/bitpack.h:380-461). The branch for three blocks
(420-440) does not move `pIn`, unlike the two loops. -/
def bpEnc3 (inp : List Byte) (size : Nat) : Option (List Byte) :=
  bpOut (do
    let s ← bpFor {} 96 96 96 pack3x6 (bpStart inp size)
    let t ← bpIf 48 48 48 pack3x3 s
    bpFor {} 1 16 16 pack3x1 { t with inp := s.inp, pos := s.pos })

/-- `bitpack_decode3_sse2_unaligned_m128i` (src/bitpack.h:466-598). -/
def bpDec3 (inp : List Byte) (size : Nat) : Option (List Byte × Nat) :=
  bpRes (do
    let s ← bpFor {} 96 96 36 unpack3x6 (bpStart inp size)
    let t ← bpIf 48 48 18 unpack3x3 s
    bpFor {} 1 16 6 unpack3x1 t)

/-- `bitpack_encode4_sse2_unaligned`, `_aligned` (src/bitpack.h:604-686). -/
def bpEnc4 (al : Bool) (aIn aOut : Nat) (inp : List Byte) (size : Nat) : Option (List Byte) :=
  bpOut (do
    let s ← bpFor (alBoth al aIn aOut) 32 32 32 pack4x2 (bpStart inp size)
    let t ← bpFor {} 2 2 2 pack4Pair s
    bpIf 1 1 1 copy1 t)

/-- `bitpack_decode4_sse2_unaligned`, `_aligned` (src/bitpack.h:692-786). -/
def bpDec4 (al : Bool) (aIn aOut : Nat) (inp : List Byte) (size : Nat) : Option (List Byte × Nat) :=
  bpRes (do
    let s ← bpFor (alBoth al aIn aOut) 32 32 16 unpack4x2 (bpStart inp size)
    let t ← bpFor {} 2 2 1 unpack4Pair s
    bpIf 1 1 1 copy1 t)

/-- `bitpack_encode4_sse2_unaligned_m128i` (src/bitpack.h:793-825). -/
def bpEnc4m (inp : List Byte) (size : Nat) : Option (List Byte) :=
  bpOut (do
    let s ← bpFor {} 32 32 32 pack4x2 (bpStart inp size)
    bpIf 1 16 16 pack4x1 s)

/-- `bitpack_decode4_sse2_unaligned_m128i` (src/bitpack.h:830-869). -/
def bpDec4m (inp : List Byte) (size : Nat) : Option (List Byte × Nat) :=
  bpRes (do
    let s ← bpFor {} 32 32 16 unpack4x2 (bpStart inp size)
    bpIf 1 16 8 unpack4x1 s)

/-- `bitpack_encode2_sse2_unaligned`, `_aligned` (src/bitpack.h:875-917). -/
def bpEnc2 (al : Bool) (aIn aOut : Nat) (inp : List Byte) (size : Nat) : Option (List Byte) :=
  bpOut (bpFor (alBoth al aIn aOut) 1 64 64 pack2x4 (bpStart inp size))

/-- `bitpack_decode2_sse2_unaligned`, `_aligned` (src/bitpack.h:923-975); `size` is `encodedSize`. -/
def bpDec2 (al : Bool) (aIn aOut : Nat) (inp : List Byte) (size : Nat) : Option (List Byte × Nat) :=
  bpRes (bpFor (alBoth al aIn aOut) 1 16 16 unpack2x4 (bpStart inp size))

/-- `bitpack_encode2_sse2_unaligned_m128i` (src/bitpack.h:982-1039). -/
def bpEnc2m (inp : List Byte) (size : Nat) : Option (List Byte) :=
  bpOut (do
    let s ← bpFor {} 64 64 64 pack2x4 (bpStart inp size)
    let t ← bpIf 32 32 32 (pack2Le 8) s
    bpIf 1 16 16 (pack2Le 4) t)

/-- `bitpack_decode2_sse2_unaligned_m128i` (src/bitpack.h:1044-1108). -/
def bpDec2m (inp : List Byte) (size : Nat) : Option (List Byte × Nat) :=
  bpRes (do
    let s ← bpFor {} 64 64 16 unpack2x4 (bpStart inp size)
    let t ← bpIf 32 32 8 (unpack2Le 8) s
    bpIf 1 16 4 (unpack2Le 4) t)

/-- `bitpack_encode1_sse2_aligned`, `_unaligned` (src/bitpack.h:1115-1152). -/
def bpEnc1 (al : Bool) (aIn : Nat) (inp : List Byte) (size : Nat) : Option (List Byte) :=
  bpOut (bpFor (alIn al aIn) 1 16 16 pack1 (bpStart inp size))

/-- `bitpack_decode1_sse2_aligned`, `_unaligned` (src/bitpack.h:1159-1216); `size` is `encodedSize`. -/
def bpDec1 (al : Bool) (aOut : Nat) (inp : List Byte) (size : Nat) : Option (List Byte × Nat) :=
  bpRes (bpFor (alOut al aOut) 1 2 2 unpack1 (bpStart inp size))

end Hrk
