import Verif.Spec
import Verif.ScanXI

/-
The low entropy codecs (src/rle8_low_entropy_cpu.c, src/rle8_low_entropy_short_cpu.c): symbol
statistics, the information block, the pair encoder, and the decoders.
-/

namespace Hrk

/-! ### Statistics -/

/-- `a[i] = x` (src/rle8_low_entropy_cpu.c:266-293). -/
def upd (f : Nat → Nat) (i x : Nat) : Nat → Nat := fun k => if k = i then x else f k

/-- The variables of the statistics pass (src/rle8_low_entropy_cpu.c:266-278). -/
structure Tally where
  prob : Nat → Nat
  pcount : Nat → Nat
  last : Nat
  count : Nat

/-- Initial values (src/rle8_low_entropy_cpu.c:266-278). -/
def tallyInit (inp : Mem) : Tally :=
  ⟨fun _ => 0, if (inp 0).toNat ≠ 0 then upd (fun _ => 0) 0 4294967295 else fun _ => 0, 0, 0⟩

/-- One iteration (src/rle8_low_entropy_cpu.c:280-293; `blk` is 255, or 32 for the short codec,
src/rle8_low_entropy_short_cpu.c:562-575). All variables are `uint32_t`. -/
def tallyStep (blk : Nat) (inp : Mem) (t : Tally) (i : Nat) : Tally :=
  if (inp i).toNat = t.last then { t with count := (t.count + 1) % 4294967296 }
  else
    { prob := upd t.prob t.last ((t.prob t.last + t.count) % 4294967296)
      pcount := upd t.pcount t.last ((t.pcount t.last + (t.count / blk + 1)) % 4294967296)
      last := (inp i).toNat
      count := 1 }

/-- The loop over the input (src/rle8_low_entropy_cpu.c:280-293). -/
def tallyLoop (blk : Nat) (inp : Mem) (n : Nat) : Tally :=
  (List.range n).foldl (tallyStep blk inp) (tallyInit inp)

/-- With the last run accounted for (src/rle8_low_entropy_cpu.c:295-296). -/
def tally (blk : Nat) (inp : Mem) (n : Nat) : Tally :=
  let t := tallyLoop blk inp n
  { t with
    prob := upd t.prob t.last ((t.prob t.last + t.count) % 4294967296)
    pcount := upd t.pcount t.last ((t.pcount t.last + 1) % 4294967296) }

/-- Run symbols of `*_compress` (src/rle8_low_entropy_cpu.c:298-302). -/
def flagAll (t : Tally) (i : Nat) : Bool :=
  if t.pcount i > 0 then t.prob i / t.pcount i ≥ 2 else false

/-- The symbol that saves most, with what it saves (src/rle8_low_entropy_cpu.c:385-400). -/
def bestSaved (t : Tally) : Nat × Nat :=
  (List.range 256).foldl (fun b i =>
    if t.pcount i > 0 ∧ t.prob i / t.pcount i > 2 then
      (if t.prob i - t.pcount i * 2 > b.1 then (t.prob i - t.pcount i * 2, i) else b)
    else b) (0, 0)

/-- Run symbols of `*_compress_only_max_frequency` (src/rle8_low_entropy_cpu.c:402-403). -/
def flagMax (t : Tally) (i : Nat) : Bool := (bestSaved t).1 > 0 && i == (bestSaved t).2

/-- The symbols that do not occur, ascending: the end of `symbolsByProb`, filled from the back
(src/rle8_low_entropy_cpu.c:304-312). -/
def absent (pc : Nat → Nat) : Nat → List Nat → List Nat
  | 0, acc => acc
  | i + 1, acc => absent pc i (if pc i = 0 then i :: acc else acc)

/-- First symbol of largest count that is not used up (src/rle8_low_entropy_cpu.c:316-326). -/
def pickBest (pc : Nat → Nat) (used : Nat → Bool) : Nat :=
  ((List.range 256).foldl (fun (b : Nat × Nat) i => if used i = false ∧ pc i > b.1 then (pc i, i) else b) (0, 0)).2

/-- The first `k` entries of `symbolsByProb` (src/rle8_low_entropy_cpu.c:314-330). -/
def chosen (pc : Nat → Nat) : Nat → (Nat → Bool) → List Nat
  | 0, _ => []
  | k + 1, used => pickBest pc used :: chosen pc k (fun i => used i || i == pickBest pc used)

/-- `rle8_low_entropy_compress_info_t` (src/rle.h:67-72). -/
structure LeInfo where
  rle : Byte → Bool
  byProb : List Byte
  symbolCount : Nat

/-- `symbolsByProb` and `symbolCount` for a given count array (src/rle8_low_entropy_cpu.c:304-335). -/
def infoOf (pc : Nat → Nat) (rle : Nat → Bool) : LeInfo :=
  let ab := absent pc 256 []
  let remaining := 256 - ab.length
  ⟨fun b => rle b.toNat, (chosen pc remaining (fun i => pc i == 0) ++ ab).map b8, remaining % 256⟩

/-- Which low entropy codec: block length, and whether only one run symbol is allowed
(src/rle8_low_entropy_cpu.c, src/rle8_low_entropy_short_cpu.c). -/
structure LeCfg where
  short : Bool
  onlyMax : Bool

/-- 255, or `ULTRA_MAX_BLOCK_LENGTH`
(src/rle8_low_entropy_cpu.c:289, src/rle8_low_entropy_short_cpu.c:571). -/
def LeCfg.blk (c : LeCfg) : Nat := if c.short then 32 else 255

/-- `rle8_low_entropy_get_compress_info` (src/rle8_low_entropy_cpu.c:254-338),
`..._only_max_frequency` (340-439), and the short versions
(src/rle8_low_entropy_short_cpu.c:536-620, 622-721). -/
def LeCfg.info (c : LeCfg) (inp : Mem) (n : Nat) : LeInfo :=
  let t := tally c.blk inp n
  infoOf t.pcount (if c.onlyMax then flagMax t else flagAll t)

/-! ### The information block -/

/-- Byte `i` of the flag bitmap (src/rle8_low_entropy_cpu.c:448-456). -/
def flagByte (rle : Byte → Bool) (i : Nat) : Byte :=
  (List.range 8).foldl (fun (acc : Byte) j => acc ||| (b8 (if rle (b8 (j + i * 8)) then 1 else 0) <<< b8 j)) 0

/-- `rle8_low_entropy_write_compress_info` (src/rle8_low_entropy_cpu.c:441-472). The check of
`outSize` against 289 is in `LeCfg.compress`. -/
def writeInfo (x : LeInfo) : List Byte :=
  (List.range 32).map (flagByte x.rle) ++ [b8 x.symbolCount] ++
    x.byProb.take (if x.symbolCount = 0 then 255 else x.symbolCount)

/-- `rle8_low_entropy_decompress_info_t` (src/rle.h:79-83). -/
structure LeDInfo where
  rle : Byte → Bool
  toCount : Byte → Nat

/-- `symbolToCount[symbolsByProb[i]] = i` for consecutive `i` (a `uint8_t`)
(src/rle8_low_entropy_cpu.c:579-584, and for the symbols left over 586-599). -/
def assignFrom : Nat → List Byte → (Byte → Nat) → Byte → Nat
  | _, [], f => f
  | i, s :: r, f => assignFrom ((i + 1) % 256) r (fun b => if b = s then i else f b)

/-- `rle8_low_entropy_read_decompress_info` (src/rle8_low_entropy_cpu.c:545-606); `none`: read past
the source. -/
def readInfo (src : List Byte) : Option (LeDInfo × List Byte) :=
  match takeN 32 src with
  | none => none
  | some (bits, r) =>
    match rdU8 r with
    | none => none
    | some (c, r) =>
      match takeN (if c = 0 then 255 else c) r with
      | none => none
      | some (syms, r) =>
        let rest := ((List.range 256).map b8).filter fun b => !syms.contains b
        some (⟨fun b => bits.getD (b.toNat / 8) 0 &&& (1 <<< b8 (b.toNat % 8)) != 0,
          assignFrom (syms.length % 256) rest (assignFrom 0 syms (fun _ => 0))⟩, r)

/-! ### Encoder -/

/-- How many of the next `k` bytes equal `b` (the loop over `j`,
src/rle8_low_entropy_cpu.c:502-506 and 529-533). -/
def leMatch (inp : Mem) (b : Byte) : Nat → Nat → Nat
  | _, 0 => 0
  | a, k + 1 => if inp a = b then leMatch inp b (a + 1) k + 1 else 0

/-- One symbol or run (src/rle8_low_entropy_cpu.c:490-512 and 517-539). -/
def leStep (x : LeInfo) (inp : Mem) (range : Nat) (i : Nat) : List Byte × Nat :=
  let b := inp i
  if x.rle b then
    let count := leMatch inp b (i + 1) (range - 1)
    ([b, x.byProb.getD (count % 256) 0], i + 1 + count)
  else ([b], i + 1)

/-- Both loops of `rle8_low_entropy_compress_with_info` (src/rle8_low_entropy_cpu.c:474-543) and
`rle8_low_entropy_short_compress_with_info` (src/rle8_low_entropy_short_cpu.c:128-197). Before
`inSize - 256` the range is `blk`, behind it it is cut off one byte before the end. -/
def leLoopStep (blk : Nat) (x : LeInfo) (inp : Mem) (n : Nat) (s : Nat × List Byte) : (Nat × List Byte) ⊕ List Byte :=
  if s.1 < n - 256 then
    let r := leStep x inp blk s.1
    .inl (r.2, s.2 ++ r.1)
  else if s.1 < n then
    let r := leStep x inp (min (n - s.1 - 1) blk) s.1
    .inl (r.2, s.2 ++ r.1)
  else .inr s.2

/-- `*_compress_with_info` (src/rle8_low_entropy_cpu.c:474-543). -/
def leEncode (blk : Nat) (x : LeInfo) (inp : Mem) (n : Nat) : Option (List Byte) :=
  loop (leLoopStep blk x inp n) (n + 1) (0, [])

/-- `rle8_low_entropy_compress_bounds`, a `uint32_t` (src/rle8_low_entropy_cpu.c:6-9). -/
def leBounds (n : Nat) : Nat := (n + 256 / 8 + 1 + 256 + 4 * 2) % 4294967296

/-- The four `*_compress` functions (src/rle8_low_entropy_cpu.c:11-91,
src/rle8_low_entropy_short_cpu.c:21-101). The checks of `outSize` inside `write_compress_info`
(at least 289) and `compress_with_info` (at least `inSize` left, in `uint32_t` arithmetic) come
before the bytes they guard are written. -/
def LeCfg.compress (c : LeCfg) : Compress :=
  fun pIn inSize pOut outSize =>
    match pIn with
    | none => .fail
    | some inp =>
      if inSize = 0 ∨ pOut = false ∨ outSize < leBounds inSize then .fail
      else
        let x := c.info inp inSize
        let w := writeInfo x
        if outSize < 8 then .ub
        else if outSize < 256 / 8 + 256 + 1 then .giveUp
        else if outSize < 8 + w.length then .ub
        else if (outSize - (8 + w.length)) % 4294967296 < inSize then .giveUp
        else
          match leEncode c.blk x inp inSize with
          | none => .hang
          | some d =>
            if 8 + w.length + d.length ≤ outSize then
              .ok ((8 + w.length + d.length) % 4294967296)
                (le32 (8 + w.length + d.length) ++ le32 inSize ++ w ++ d)
            else .ub

/-! ### Decoders -/

/-- Variables of the decoder: `pIn`, `pOut` as offsets, and the output buffer
(src/rle8_low_entropy_cpu.c:608-614). -/
structure LeS where
  pos : Nat
  o : Nat
  m : Mem

/-- `n` aligned stores of `w` bytes `b` from `o` on (src/rle8_low_entropy_cpu.c:657-683). -/
def storeRep (w : Nat) (b : Byte) : Nat → Nat → Mem → Mem
  | 0, _, m => m
  | n + 1, o, m => storeRep w b n (o + w) (wr m o w fun _ => b)

/-- Run of `cnt` bytes `b` at `o` by vectors of `w` bytes, with the overshoot
(src/rle8_low_entropy_cpu.c:657-683, 742-768, 803-831, 880-912); `none`: stored outside the buffer. -/
def fillLong (w aOut cap : Nat) (m : Mem) (o cnt : Nat) (b : Byte) : Option Mem :=
  if cnt = 0 then some m
  else if cnt ≤ w then (if o + w ≤ cap then some (wr m o w fun _ => b) else none)
  else
    let un := (aOut + o) % w
    if un ≠ 0 then
      let o1 := o + (w - un)
      let k := (cnt - (w - un) + w - 1) / w
      if o + w ≤ cap ∧ o1 + k * w ≤ cap then some (storeRep w b k o1 (wr m o w fun _ => b)) else none
    else
      let k := (cnt + w - 1) / w
      if o + k * w ≤ cap then some (storeRep w b k o m) else none

/-- Run of at most 32 bytes of the short decoders (src/rle8_low_entropy_short_cpu.c:248-250, 309-310,
344-351, 400-406): 32 bytes are stored whatever the count is, except that the multi symbol SSE
version skips a count of 0. -/
def fillShort (skip0 : Bool) (cap : Nat) (m : Mem) (o cnt : Nat) (b : Byte) : Option Mem :=
  if skip0 = true ∧ cnt = 0 then some m
  else if o + 32 ≤ cap then some (wr m o 32 fun _ => b)
  else none

/-- First of the next `w` bytes at `pos` for which `hit` holds: the scan over `dataA` of the multi symbol
versions (src/rle8_low_entropy_cpu.c:779-801). -/
def firstHit (src : Mem) (hit : Byte → Bool) (pos w : Nat) : Option Nat :=
  (List.range w).find? fun k => hit (src (pos + k))

/-- The search of the single symbol versions (src/rle8_low_entropy_cpu.c:632-649, 717-734;
src/rle8_low_entropy_short_cpu.c:223-240, 284-301): `contains == 0` is tested before `__builtin_ctz`. -/
def maskHit (w : Nat) (src : Mem) (sym : Byte) (pos : Nat) : Option Nat :=
  let contains := movemask w (veq (vmem src pos) (vset1 sym))
  if contains = 0 then none else ctz contains

/-- One iteration of a vector loop (src/rle8_low_entropy_cpu.c:627-685, 712-770, 779-842, 856-923;
src/rle8_low_entropy_short_cpu.c:218-252, 279-312, 321-362, 376-417). `len` bytes are readable at
`pIn`, `find` is the search for a run symbol. -/
def leFast (w : Nat) (find : Nat → Option Nat) (toCount : Byte → Nat) (fill : Mem → Nat → Nat → Byte → Option Mem)
    (src : Mem) (len pEnd cap : Nat) (s : LeS) : LeS ⊕ Option LeS :=
  if s.pos + 256 < pEnd then
    if s.pos + w ≤ len ∧ s.o + w ≤ cap then
      let m1 := wr s.m s.o w fun k => src (s.pos + k)
      match find s.pos with
      | none => .inl ⟨s.pos + w, s.o + w, m1⟩
      | some k =>
        if s.pos + k + 1 < len then
          match fill m1 (s.o + k + 1) (toCount (src (s.pos + k + 1))) (src (s.pos + k)) with
          | none => .inr none
          | some m2 => .inl ⟨s.pos + k + 2, s.o + k + 1 + toCount (src (s.pos + k + 1)), m2⟩
        else .inr none
    else .inr none
  else .inr (some s)

/-- Run of `cnt` bytes of the scalar loop, which never overshoots: the last store goes backwards
(src/rle8_low_entropy_cpu.c:980-1017). The byte loop for short runs is one `wr`. -/
def fillTail (aOut cap : Nat) (m : Mem) (o cnt : Nat) (b : Byte) : Option Mem :=
  if o + cnt ≤ cap then
    if cnt < 16 then some (wr m o cnt fun _ => b)
    else
      let un := (aOut + o) % 16
      let m1 := if un ≠ 0 then wr m o 16 fun _ => b else m
      let o1 := if un ≠ 0 then o + (16 - un) else o
      let rem := if un ≠ 0 then cnt - (16 - un) else cnt
      let m2 := storeRep 16 b (rem / 16) o1 m1
      some (if rem % 16 ≠ 0 then wr m2 (o1 + rem / 16 * 16 - (16 - rem % 16)) 16 fun _ => b else m2)
  else none

/-- One iteration of the scalar loop (src/rle8_low_entropy_cpu.c:969-1019,
src/rle8_low_entropy_short_cpu.c:479-529). -/
def leTail (x : LeDInfo) (src : Mem) (len pEnd aOut cap : Nat) (s : LeS) : LeS ⊕ Option LeS :=
  if s.pos < pEnd then
    if s.pos < len ∧ s.o < cap then
      let b := src s.pos
      let m1 := wr s.m s.o 1 fun _ => b
      if x.rle b then
        if s.pos + 1 < len then
          match fillTail aOut cap m1 (s.o + 1) (x.toCount (src (s.pos + 1))) b with
          | none => .inr none
          | some m2 => .inl ⟨s.pos + 2, s.o + 1 + x.toCount (src (s.pos + 1)), m2⟩
        else .inr none
      else .inl ⟨s.pos + 1, s.o + 1, m1⟩
    else .inr none
  else .inr (some s)

/-- `rleSymbolCount`, a `uint8_t` (src/rle8_low_entropy_cpu.c:940-943). -/
def rleCount (rle : Byte → Bool) : Nat :=
  ((List.range 256).filter fun i => rle (b8 i)).length % 256

/-- First run symbol, 0 if there is none (src/rle8_low_entropy_cpu.c:616-625). -/
def firstRle (rle : Byte → Bool) : Byte :=
  b8 (((List.range 256).find? fun i => rle (b8 i)).getD 0)

/-- `rle8_low_entropy_decompress_with_info` (src/rle8_low_entropy_cpu.c:930-1022) and
`rle8_low_entropy_short_decompress_with_info` (src/rle8_low_entropy_short_cpu.c:440-532).
`none`: does not return; `some none`: left the buffers. -/
def leDecode (short : Bool) (cpu : Cpu) (x : LeDInfo) (src : Mem) (len pos pEnd aOut cap o expOut : Nat) (m : Mem) :
    Option (Option Mem) :=
  if rleCount x.rle = 0 then
    if pos + expOut ≤ len ∧ o + expOut ≤ cap then some (some (wr m o expOut fun k => src (pos + k))) else some none
  else
    let single := rleCount x.rle == 1
    let wide := if single then cpu.avx2 else cpu.avx
    let w := if wide then 32 else 16
    let find := if single then maskHit w src (firstRle x.rle) else fun p => firstHit src x.rle p w
    let fill := if short then fillShort (!single && !wide) cap else fillLong w aOut cap
    match loop (leFast w find x.toCount fill src len pEnd cap) (len + 2) ⟨pos, o, m⟩ with
    | none => none
    | some none => some none
    | some (some s) =>
      match loop (leTail x src len pEnd aOut cap) (len + 2) s with
      | none => none
      | some none => some none
      | some (some s) => some (some s.m)

/-- `rle8_low_entropy_decompress` (src/rle8_low_entropy_cpu.c:101-122), `rle8_low_entropy_short_decompress`
(src/rle8_low_entropy_short_cpu.c:103-124). -/
def leDecompress (short : Bool) (cpu : Cpu) : Decompress :=
  fun a =>
    match a.pIn, a.pOut with
    | none, _ => .fail
    | _, none => .fail
    | some src, some m =>
      if a.inSize = 0 ∨ a.outSize = 0 then .fail
      else
        match rdU32 src with
        | none => .ub
        | some (expIn, r) =>
          match rdU32 r with
          | none => .ub
          | some (expOut, r) =>
            if expOut > a.outSize ∨ expIn > a.inSize then .fail
            else
              match readInfo r with
              | none => .ub
              | some (x, r') =>
                match leDecode short cpu x (fun k => src.getD k 0) src.length (src.length - r'.length) expIn
                  a.aOut a.cap 0 expOut m with
                | none => .hang
                | some none => .ub
                | some (some m') => .ok expOut m'

end Hrk
