import Verif.Bitpack
import Verif.Mmtf

/-
`rle8_mmtf128`: move to front, then run length encoding of whole blocks (src/rle8_mmtf.c).
-/

namespace Hrk

/-- `rle8_mmtf128_compress_bounds` and `rle8_mmtf256_compress_bounds` (src/rle8_mmtf.c:26-37). -/
def mmBounds (n : Nat) : Nat := if n > 1073741824 then 0 else n + 1 + 1 + 1 + 4 + 1

/-! ### The output buffer -/

/-- Write `l` at `a` (a vector store, or `*pOut = …`) (e.g. src/rle8_mmtf.c:58-64). -/
def wrL (m : Mem) (a : Nat) (l : List Byte) : Mem := fun k =>
  if a ≤ k ∧ k < a + l.length then l.getD (k - a) 0 else m k

/-- The output buffer: its content and the end of the highest write so far (`pOut` and `outSize`, src/rle8_mmtf.c:153). -/
structure Buf where
  m : Mem
  hi : Nat

/-- A store into it (e.g. src/rle8_mmtf.c:60). -/
def Buf.put (b : Buf) (a : Nat) (l : List Byte) : Buf := ⟨wrL b.m a l, max b.hi (a + l.length)⟩

/-! ### Compression -/

/-- A packing loop that runs inside the output buffer: read `k` bytes at `rp`, write `f` of them
(`d` bytes) at `wp`, while at least `lim` bytes are left (src/rle8_mmtf.c:51-64, 70-82, 98-128, 130-146, 298-304, src/bitpack.h:800-811). The result is the buffer, `rp`, `wp` and
what is left. -/
def ipWhile (lim k d : Nat) (f : List Byte → List Byte) : Nat → Buf × Nat × Nat × Nat → Buf × Nat × Nat × Nat
  | 0, s => s
  | fuel + 1, (b, rp, wp, left) =>
    if lim ≤ left then ipWhile lim k d f fuel (b.put wp (f (rd b.m rp k)), rp + k, wp + d, left - k) else (b, rp, wp, left)

/-- Such a loop from the start (src/rle8_mmtf.c:51, 70, 98, 130, 298). -/
def ipFor (lim k d : Nat) (f : List Byte → List Byte) (s : Buf × Nat × Nat × Nat) : Buf × Nat × Nat × Nat :=
  ipWhile lim k d f s.2.2.2 s

/-- `bitpack_encode2_simple_sse2_unaligned_m128i` (src/rle8_mmtf.c:45-85), `pIn` and `pOut` inside
the output buffer, `size` bytes. Result: buffer and `pOut`. -/
def ipEnc2 (b : Buf) (rp wp size : Nat) : Buf × Nat :=
  let s := ipFor 64 64 16 pack2x4 (b, rp, wp, size)
  let s := ipFor 1 16 4 (pack2Le 4) s
  (s.1, s.2.2.1)

/-- `bitpack_encode3_simple_sse2_unaligned_m128i` (src/rle8_mmtf.c:91-149). -/
def ipEnc3 (b : Buf) (rp wp size : Nat) : Buf × Nat :=
  let s := ipFor 96 96 36 pack3x6 (b, rp, wp, size)
  let s := ipFor 1 16 6 pack3x1 s
  (s.1, s.2.2.1)

/-- `bitpack_encode4_sse2_unaligned_m128i` (src/bitpack.h:793-825). At most one block is left
behind the loop. -/
def ipEnc4 (b : Buf) (rp wp size : Nat) : Buf × Nat :=
  let s := ipFor 32 32 16 pack4x2 (b, rp, wp, size)
  if 1 ≤ s.2.2.2 then (s.1.put s.2.2.1 (pack4x1 (rd s.1.m s.2.1 16)), s.2.2.1 + 8) else (s.1, s.2.2.1)

/-- The memmove by three bytes (src/rle8_mmtf.c:293-305, 507-519). -/
def ipMove (b : Buf) (rp wp size : Nat) : Buf × Nat :=
  let s := ipFor 1 16 16 id (b, rp, wp, size)
  (s.1, s.2.2.1)

/-- `0xFFFF == _mm_movemask_epi8(_mm_cmpeq_epi8(_mm_setzero_si128(), _mm_and_si128(hi, mask)))`
(src/rle8_mmtf.c:257, 260, 268 and copies). -/
def noneAbove (hi : Byte) (mask : Vec) : Bool := movemask 16 (veq vzero (vand (vset1 hi) mask)) == 65535

/-- `0xFFFF == _mm_movemask_epi8(_mm_cmpeq_epi8(v, _mm_set1_epi8(x)))` (src/rle8_mmtf.c:231-233, 387-389, 416-418). -/
def allEq (x : Byte) (v : Vec) : Bool := movemask 16 (veq v (vset1 x)) == 65535

/-- Close a copy section of `count` blocks whose header is at `last` (src/rle8_mmtf.c:240-368, again
at 454-582): `pOut` is `last + 4 + 16 * count` before. Result: buffer and `pOut`. -/
def closeCopy (b : Buf) (last pOut count : Nat) (mask : Vec) : Buf × Nat :=
  if count < 32 then
    if noneAbove 0xF0 mask then
      if noneAbove 0xFC mask then
        ipEnc2 ((b.put last [b8 (count <<< 3)]).put last [b8 (count <<< 3) ||| 6]) (last + 4) (last + 1) (count * 16)
      else if noneAbove 0xF8 mask then
        ipEnc3 ((b.put last [b8 (count <<< 3)]).put last [b8 (count <<< 3) ||| 4]) (last + 4) (last + 1) (count * 16)
      else
        ipEnc4 ((b.put last [b8 (count <<< 3)]).put last [b8 (count <<< 3) ||| 2]) (last + 4) (last + 1) (count * 16)
    else ((ipMove (b.put last [b8 (count <<< 3)]) (last + 4) (last + 1) (count * 16)).1, pOut - 3)
  else
    if noneAbove 0xF0 mask then
      if noneAbove 0xFC mask then
        ipEnc2 ((b.put last (le32 ((count <<< 3) ||| 1))).put last [b8 ((count <<< 3) ||| 1) ||| 6]) (last + 4) (last + 4) (count * 16)
      else if noneAbove 0xF8 mask then
        ipEnc3 ((b.put last (le32 ((count <<< 3) ||| 1))).put last [b8 ((count <<< 3) ||| 1) ||| 4]) (last + 4) (last + 4) (count * 16)
      else
        ipEnc4 ((b.put last (le32 ((count <<< 3) ||| 1))).put last [b8 ((count <<< 3) ||| 1) ||| 2]) (last + 4) (last + 4) (count * 16)
    else (b.put last (le32 ((count <<< 3) ||| 1)), pOut)

/-- Write a repeat section (src/rle8_mmtf.c:398-411, 600-617). -/
def closeRle (b : Buf) (last count : Nat) (symbol : Byte) : Buf × Nat :=
  if count < 128 then ((b.put last [b8 (count <<< 1)]).put (last + 1) [symbol], last + 2)
  else ((b.put last (le32 ((count <<< 1) ||| 1))).put (last + 4) [symbol], last + 5)

/-- Variables of the compression loop (src/rle8_mmtf.c:166-186). -/
structure MEnc where
  hist : Nat → Vec
  b : Buf
  pOut : Nat
  last : Nat
  count : Nat
  copying : Bool
  symbol : Byte
  mask : Vec

/-- Before the loop (src/rle8_mmtf.c:158-186). `junk` is the content of the uninitialised register
`currentBitMask`, `m` that of the output buffer. -/
def meInit (junk : Vec) (m : Mem) (n : Nat) : MEnc where
  hist := fun r => vset1 (b8 r)
  b := (Buf.mk m 0).put 0 (le32 n)
  pOut := 12
  last := 8
  count := 0
  copying := true
  symbol := 0
  mask := junk

/-- What happens to the transformed block `o` (src/rle8_mmtf.c:226-445). -/
def meOut (s : MEnc) (h : Nat → Vec) (o : List Byte) : MEnc :=
  if s.copying then
    if allEq (o.getD 0 0) (vload o) then
      let c := closeCopy s.b s.last s.pOut s.count s.mask
      { s with hist := h, b := c.1, pOut := c.2, last := c.2, count := 1, copying := false, symbol := o.getD 0 0 }
    else
      { s with hist := h, mask := vor s.mask (vload o), count := s.count + 1, b := s.b.put s.pOut o, pOut := s.pOut + 16 }
  else if allEq s.symbol (vload o) then { s with hist := h, count := s.count + 1 }
  else
    let c := closeRle s.b s.last s.count s.symbol
    if allEq (o.getD 0 0) (vload o) then
      { s with hist := h, b := c.1.put c.2 [0], pOut := c.2 + 1, last := c.2 + 1, count := 1, symbol := o.getD 0 0 }
    else
      { s with hist := h, count := 1, last := c.2, b := c.1.put (c.2 + 4) o, pOut := c.2 + 4 + 16, mask := vload o,
               copying := true }

/-- The block loop (src/rle8_mmtf.c:190-446): block number `i`, `k` blocks to go. `none`: the inner
loop left `history`. -/
def meLoop (inp : Mem) : Nat → Nat → MEnc → Option MEnc
  | _, 0, s => some s
  | i, k + 1, s =>
    match mtfBlock false 1 16 s.hist (rd inp (16 * i) 16) with
    | none => none
    | some (h, o) => meLoop inp (i + 1) k (meOut s h o)

/-- Behind the loop (src/rle8_mmtf.c:448-646): the last section, the terminator, the remaining bytes
and the compressed size. Result: buffer and `pOut`. -/
def meFinish (s : MEnc) (tail : List Byte) : Buf × Nat :=
  let c :=
    if s.copying then
      let c := closeCopy s.b s.last s.pOut s.count s.mask
      (c.1.put c.2 [0], c.2 + 1)
    else
      let c := closeRle s.b s.last s.count s.symbol
      ((c.1.put c.2 [0]).put (c.2 + 1) [0], c.2 + 2)
  let t := mtfTailEnc s.hist 0 tail
  ((c.1.put c.2 t).put 4 (le32 (c.2 + t.length)), c.2 + t.length)

/-- `rle8_mmtf128_compress` (src/rle8_mmtf.c:153-647). `m` is what the output buffer held before. -/
def mmCompress (junk : Vec) (m : Mem) : Compress :=
  fun pIn inSize pOut outSize =>
    match pIn with
    | none => .fail
    | some inp =>
      if inSize = 0 ∨ pOut = false ∨ outSize < mmBounds inSize then .fail
      else
        match meLoop inp 0 (inSize / 16) (meInit junk m inSize) with
        | none => .ub
        | some s =>
          let r := meFinish s (rd inp (16 * (inSize / 16)) (inSize % 16))
          if r.1.hi ≤ outSize then .ok (r.2 % 4294967296) (rd r.1.m 0 r.2) else .ub

/-! ### Decompression -/

/-- Undo the move to front of a list of blocks (src/rle8_mmtf.c:728-758 and its copies). -/
def decBlocks : (Nat → Vec) → List (List Byte) → Option ((Nat → Vec) × List Byte)
  | h, [] => some (h, [])
  | h, x :: xs =>
    match mtfBlock true 1 16 h x with
    | none => none
    | some (h', o) =>
      match decBlocks h' xs with
      | none => none
      | some (h'', os) => some (h'', o ++ os)

/-- Cut into blocks of 16 bytes (`decoded`, src/rle8_mmtf.c:781-784, 896-922, 1058-1059). -/
def blocks16 (g : Nat) (l : List Byte) : List (List Byte) := (List.range g).map fun i => (l.drop (16 * i)).take 16

/-- Variables of the decompression loop (src/rle8_mmtf.c:654-667): `rle` tells which of the two section kinds comes next,
`src` are the readable bytes from `pIn` on, `o` is `pOut`. -/
structure MDec where
  rle : Bool
  h : Nat → Vec
  src : List Byte
  o : Nat
  m : Mem

/-- Store blocks at `pOut` (src/rle8_mmtf.c:756-758 and copies, 1180-1181 and copies). -/
def MDec.store (cap : Nat) (s : MDec) (h : Nat → Vec) (src : List Byte) (x : List Byte) : Option MDec :=
  if s.o + x.length ≤ cap then some { s with h := h, src := src, o := s.o + x.length, m := wrL s.m s.o x } else none

/-- Read `d` bytes, unpack them into `g` blocks, undo the move to front, store (src/rle8_mmtf.c:771-823, 828-868, 884-961,
966-1037, 1050-1098, 1103-1143). -/
def dcGroup (cap g d : Nat) (unp : List Byte → List Byte) (s : MDec) : Option MDec :=
  match takeN d s.src with
  | none => none
  | some (x, r) =>
    match decBlocks s.h (blocks16 g (unp x)) with
    | none => none
    | some (h, os) => s.store cap h r os

/-- `for (; inSizeRemaining >= g; inSizeRemaining -= g)` (src/rle8_mmtf.c:723, 769, 826, 882, 964, 1048). -/
def dcWhile (cap g d : Nat) (unp : List Byte → List Byte) : Nat → Nat → MDec → Option (Nat × MDec)
  | 0, c, s => some (c, s)
  | fuel + 1, c, s =>
    if g ≤ c then
      match dcGroup cap g d unp s with
      | none => none
      | some s' => dcWhile cap g d unp fuel (c - g) s'
    else some (c, s)

/-- The four kinds of copy sections (src/rle8_mmtf.c:719-1145); `mode` is the header byte. -/
def dcCopy (cap : Nat) (mode : Byte) (c : Nat) (s : MDec) : Option MDec :=
  if mode &&& 6 = 0 then (dcWhile cap 1 16 id c c s).map (·.2)
  else if mode &&& 6 = 6 then
    match dcWhile cap 4 16 unpack2x4 c c s with
    | none => none
    | some (c, s) => (dcWhile cap 1 4 (unpack2Le 4) c c s).map (·.2)
  else if mode &&& 6 = 4 then
    match dcWhile cap 6 36 unpack3x6 c c s with
    | none => none
    | some (c, s) => (dcWhile cap 1 6 unpack3x1 c c s).map (·.2)
  else
    match dcWhile cap 2 16 unpack4x2 c c s with
    | none => none
    | some (c, s) => if c = 0 then some s else dcGroup cap 1 8 unpack4x1 s

/-- Rotate the first `s + 1` rows by one and bring row `s` to the front
(src/rle8_mmtf.c:1260-1272). -/
def rot1 (s : Nat) (h : Nat → Vec) : Nat → Vec := fun r => if r = 0 then h s else if r ≤ s then h (r - 1) else h r

/-- `count` single blocks (src/rle8_mmtf.c:1254-1273). -/
def rleSingles (s : Nat) : Nat → (Nat → Vec) → (Nat → Vec) × List Byte
  | 0, h => (h, [])
  | c + 1, h => ((rleSingles s c (rot1 s h)).1, vstore 16 (h s) ++ (rleSingles s c (rot1 s h)).2)

/-- Rows `s`, `s - 1`, …, `0` (src/rle8_mmtf.c:1245-1249). -/
def rleRound (s : Nat) (h : Nat → Vec) : List Byte := ((List.range (s + 1)).map fun i => vstore 16 (h (s - i))).flatten

/-- `rounds` times (src/rle8_mmtf.c:1243-1252). -/
def rleRounds (s : Nat) (h : Nat → Vec) : Nat → List Byte
  | 0 => []
  | k + 1 => rleRound s h ++ rleRounds s h k

/-- The blocks of a repeat section, and the history behind it (src/rle8_mmtf.c:1174-1274). -/
def rleOut (symbol count : Nat) (h : Nat → Vec) : (Nat → Vec) × List Byte :=
  if symbol = 0 then (h, (List.replicate count (vstore 16 (h 0))).flatten)
  else if symbol = 1 then
    if count % 2 = 0 then (h, (List.replicate (count / 2) (vstore 16 (h 1) ++ vstore 16 (h 0))).flatten)
    else (fun r => if r = 0 then h 1 else if r = 1 then h 0 else h r,
      (List.replicate (count / 2) (vstore 16 (h 1) ++ vstore 16 (h 0))).flatten ++ vstore 16 (h 1))
  else if symbol = 2 then
    let rounds := (List.replicate (count / 3) (vstore 16 (h 2) ++ vstore 16 (h 1) ++ vstore 16 (h 0))).flatten
    if count % 3 = 2 then
      (fun r => if r = 0 then h 1 else if r = 1 then h 2 else if r = 2 then h 0 else h r,
        rounds ++ (vstore 16 (h 2) ++ vstore 16 (h 1)))
    else if count % 3 = 1 then
      (fun r => if r = 0 then h 2 else if r = 1 then h 0 else if r = 2 then h 1 else h r, rounds ++ vstore 16 (h 2))
    else (h, rounds)
  else
    let t := rleSingles symbol (count % (symbol + 1)) h
    (t.1, rleRounds symbol h (count / (symbol + 1)) ++ t.2)

/-- The bytes behind the blocks (src/rle8_mmtf.c:1279-1288): byte `i` comes from
`history[index * 16 + i]`. `none`: a read outside the stream or outside `history`. -/
def dcTail (h : Nat → Vec) : Nat → Nat → List Byte → Option (List Byte)
  | 0, _, _ => some []
  | k + 1, i, src =>
    match src with
    | [] => none
    | x :: src =>
      if x.toNat * 16 + i < 4096 then
        (dcTail h k (i + 1) src).map (h (x.toNat + i / 16) (i % 16) :: ·)
      else none

/-- One section of the loop (src/rle8_mmtf.c:669-1276): copy sections and repeat sections alternate.
`.inr none` is an access outside the buffers. The end of the loop comes with the tail. If more than
`expOut` bytes have been written, `outSizeRemaining` wraps around and the tail loop leaves the
buffers. -/
def dcStep (cap expOut : Nat) (s : MDec) : MDec ⊕ Option Mem :=
  if s.rle = false then
    match s.src with
    | [] => .inr none
    | mode :: r =>
      if mode.toNat % 2 = 1 then
        match rdU32 s.src with
        | none => .inr none
        | some (v, r) =>
          match dcCopy cap mode (v >>> 3) { s with src := r } with
          | none => .inr none
          | some s' => .inl { s' with rle := true }
      else
        match dcCopy cap mode (mode.toNat >>> 3) { s with src := r } with
        | none => .inr none
        | some s' => .inl { s' with rle := true }
  else
    match s.src with
    | [] => .inr none
    | last :: r =>
      match (if last.toNat % 2 = 1 then (rdU32 s.src).map fun p => (p.1 >>> 1, p.2) else some (last.toNat >>> 1, r)) with
      | none => .inr none
      | some (count, r) =>
        if count = 0 then
          if expOut < s.o then .inr none
          else
            match dcTail s.h (expOut - s.o) 0 r with
            | none => .inr none
            | some t => if s.o + t.length ≤ cap then .inr (some (wrL s.m s.o t)) else .inr none
        else
          match r with
          | [] => .inr none
          | symbol :: r =>
            let x := rleOut symbol.toNat count s.h
            match s.store cap x.1 r x.2 with
            | none => .inr none
            | some s' => .inl { s' with rle := false }

/-- `rle8_mmtf128_decompress` (src/rle8_mmtf.c:649-1291). The two sizes are read before they are
compared. Every section takes at least one byte from the stream. -/
def mmDecompress : Decompress :=
  fun a =>
    match a.pIn, a.pOut with
    | none, _ => .fail
    | _, none => .fail
    | some src, some m =>
      if a.inSize = 0 ∨ a.outSize = 0 then .fail
      else
        match rdU32 src with
        | none => .ub
        | some (expOut, r) =>
          match rdU32 r with
          | none => .ub
          | some (expIn, r) =>
            if expOut > a.outSize ∨ expIn > a.inSize then .fail
            else
              match loop (dcStep a.cap expOut) (r.length + 1) ⟨false, fun r => vset1 (b8 r), r, 0, m⟩ with
              | none => .hang
              | some none => .ub
              | some (some m') => .ok expOut m'

end Hrk
