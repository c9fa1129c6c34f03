import Verif.Rle8Mmtf

/-
`rle8_sh`: a byte stream growing up from the front of the output buffer and a stream of prefix codes
growing down from its end (src/rle_sh.c).
-/

namespace Hrk

/-- `rle8_sh_bounds` (src/rle_sh.c:93-96), in `uint32_t`. -/
def shBounds (n : Nat) : Nat := (n + 4 * 2 + 1 + 4) % 4294967296

/-! ### The two streams -/

/-- A call of `rle8_sh_write_bits(header, v, c)` (src/rle_sh.c:20-38), or bytes stored at `*ppOut`, which
moves on behind them. The compressor never reads what it has written, so it is modelled as the list of these. -/
inductive ShOp where
  | bits (v c : Nat)
  | bytes (l : List Byte)

/-- Bits of a pattern in the order they are written (src/rle_sh.c:22-28). -/
def patBits (v c : Nat) : List Bool := (List.range c).map v.testBit

/-- The output buffer while both streams are written: `p` is `pOut`, `ph`, `nb`, `hs` are `pHeader`,
`nextBit`, `headerSize` (src/rle_sh.c:10-15); `bad` tells that something was written outside the buffer. -/
structure ShSink where
  m : Mem
  p : Nat
  ph : Nat
  nb : Nat
  hs : Nat
  bad : Bool

/-- One round of `rle8_sh_write_bits` (src/rle_sh.c:26-36). -/
def ShSink.bit (s : ShSink) (b : Bool) : ShSink :=
  let m : Mem := fun k => if k = s.ph then s.m k ||| (if b then b8 (2 ^ s.nb) else 0) else s.m k
  if (s.nb + 1) % 8 = 0 then
    { s with m := fun k => if k = s.ph - 1 then 0 else m k, ph := s.ph - 1, nb := 0, hs := s.hs + 1
             bad := s.bad || s.ph == 0 }
  else { s with m := m, nb := (s.nb + 1) % 8 }

/-- Perform one write (src/rle_sh.c:20-38 for bits; `*pOut = …; pOut += …`, `memcpy` for bytes). -/
def ShSink.op (outSize : Nat) (s : ShSink) : ShOp → ShSink
  | .bits v c => (patBits v c).foldl ShSink.bit s
  | .bytes l => { s with m := wrL s.m s.p l, p := s.p + l.length, bad := s.bad || decide (outSize < s.p + l.length) }

/-! ### Compression -/

/-- `secondMostImportant`, `thirdMostImportant`, `lastOccuredSymbol` (src/rle_sh.c:288-290, 527-529). -/
structure ShSt where
  second : Byte
  third : Byte
  occ : Byte

/-- Their initial values (src/rle_sh.c:88-91). -/
def shSt0 : ShSt := ⟨0x80, 0x7E, 0x80⟩

/-- One symbol with its own code; `enc` tells that it is inside of an encoded block
(src/rle_sh.c:117-152, 162-197, 229-264). -/
def shSym (enc : Bool) (last : Byte) (st : ShSt) (x : Byte) : List ShOp × ShSt :=
  if x = last then ([.bits 0b0 1], st)
  else if x = st.second then ([.bits 0b011 3], { st with occ := x })
  else if x = st.third then ([if enc then .bits 0b111 3 else .bits 0b0111 4], { st with occ := x })
  else ([.bits 0b01 2, .bytes [x]],
    { second := if x = st.occ then x else st.second, third := if x = st.occ then st.second else st.third, occ := x })

/-- The `for` loops around it (src/rle_sh.c:115-153, 160-198, 227-265). -/
def shSyms (enc : Bool) (last : Byte) : List Byte → ShSt → List ShOp × ShSt
  | [], st => ([], st)
  | x :: xs, st =>
    let r := shSym enc last st x
    let r' := shSyms enc last xs r.2
    (r.1 ++ r'.1, r'.2)

/-- `rle8_sh_encoded_copy` (src/rle_sh.c:98-203) of the bytes `xs`; `fuel` bounds the rounds. -/
def shEncCopy (last : Byte) : Nat → List Byte → ShSt → List ShOp × ShSt
  | 0, _, st => ([], st)
  | fuel + 1, xs, st =>
    if xs.length = 0 then ([], st)
    else if 161 < xs.length then
      let stored := min 0xFF (xs.length - 161)
      let r := shSyms true last (xs.take (stored + 161)) st
      let r' := shEncCopy last fuel (xs.drop (stored + 161)) r.2
      (.bits 0b1111111 7 :: .bytes [b8 stored] :: (r.1 ++ r'.1), r'.2)
    else shSyms false last xs st

/-- `rle8_sh_copy` (src/rle_sh.c:205-267) of the bytes `xs`. -/
def shCopy (last : Byte) (xs : List Byte) (st : ShSt) : List ShOp × ShSt :=
  if 255 + 7 < xs.length then ([.bits 0b0111111 7, .bytes (le32 (xs.length - 7)), .bytes xs], st)
  else if 7 ≤ xs.length then ([.bits 0b0011111 7, .bytes [b8 (xs.length - 7)], .bytes xs], st)
  else shSyms false last xs st

/-- `size_t` subtraction and multiplication (src/rle_sh.c:310, 319, 348-350, 385-387, 402). -/
def subU (a b : Nat) : Nat := (a + 18446744073709551616 - b) % 18446744073709551616
@[inherit_doc subU]
def mulU (a b : Nat) : Nat := a * b % 18446744073709551616

/-- The choice between the two (src/rle_sh.c:350-357, 387-394). -/
def shPick (real : Nat) (last : Byte) (xs : List Byte) (st : ShSt) : List ShOp × ShSt :=
  if mulU (subU xs.length real) 2 < mulU real 7 then shEncCopy last xs.length xs st else shCopy last xs st

/-- A pending run of the current run symbol (src/rle_sh.c:415-435, 464-484). -/
def shRun (last : Byte) (c : Nat) : List ShOp :=
  if 255 + 14 < c then [.bits 0b1011111 7, .bytes (le32 (c - 14)), .bytes [last]]
  else if 14 ≤ c then [.bits 0b01111 5, .bytes [b8 (c - 14)]]
  else List.replicate c (.bits 0b0 1)

/-- A run that makes `x` the run symbol (src/rle_sh.c:318-323, 401-406). -/
def shChange (x : Byte) (c : Nat) : List ShOp :=
  [.bits 0b1011111 7, .bytes (le32 (subU c 14 % 4294967296)), .bytes [x]]

/-- Variables of `rle8_sh_compress` (src/rle_sh.c:287-298): `start` is `pBlockStart - pIn`, `ops` what has been written. -/
structure ShEnc where
  lastRle : Byte
  st : ShSt
  lastSym : Byte
  copy : Nat
  change : Nat
  rle : Nat
  symCopy : Nat
  same : Bool
  wasCopy : Bool
  start : Nat
  ops : List ShOp

/-- Their initial values (src/rle_sh.c:287-298). -/
def shInit : ShEnc := ⟨0x7F, shSt0, 0, 0, 0, 0, 0, false, false, 0, []⟩

/-- `symbol == lastRleSymbol`, `lastWasSame` false (src/rle_sh.c:306-340). -/
def shSame1 (inp : Mem) (x : Byte) (s : ShEnc) : ShEnc :=
  if 10 ≤ s.change then
    let r := shCopy s.lastRle (rd inp s.start (subU s.copy s.change)) s.st
    { s with ops := s.ops ++ r.1 ++ shChange s.lastSym s.change, st := r.2, start := s.start + s.copy
             lastRle := s.lastSym, copy := 1, symCopy := 0, rle := 0, same := false, change := 1, lastSym := x }
  else { s with rle := 1, symCopy := s.symCopy + 1, same := true, change := 0, lastSym := x }

/-- A run of the run symbol has become long enough (src/rle_sh.c:359-364), behind the choice of the copy. -/
def ShEnc.flush (s : ShEnc) (x : Byte) (r : List ShOp × ShSt) : ShEnc :=
  { s with ops := s.ops ++ r.1, st := r.2, rle := s.rle + 1, start := s.start + s.copy, copy := 0
           symCopy := 0, same := true, wasCopy := false, lastSym := x }

/-- `symbol == lastRleSymbol`, `lastWasSame` true (src/rle_sh.c:341-366). -/
def shSame2 (inp : Mem) (x : Byte) (s : ShEnc) : ShEnc :=
  if 14 < s.rle + 1 then
    s.flush x (shPick (subU (s.symCopy + 1) (s.rle + 1)) s.lastRle (rd inp s.start s.copy) s.st)
  else { s with rle := s.rle + 1, symCopy := s.symCopy + 1 }

/-- A run that was too short belongs to the copy (src/rle_sh.c:370-375, 453-458). -/
def shMerge (s : ShEnc) : ShEnc :=
  if s.same = true ∧ s.wasCopy = true then { s with same := false, copy := s.copy + s.rle, rle := 0 } else s

/-- Another symbol becomes the run symbol (src/rle_sh.c:396-410), behind the choice of the copy. -/
def ShEnc.turn (s : ShEnc) (x : Byte) (r : List ShOp × ShSt) : ShEnc :=
  { s with ops := s.ops ++ r.1 ++ shChange s.lastSym s.change, st := r.2, start := s.start + s.copy, copy := 0
           symCopy := 0, lastRle := s.lastSym, change := 1, lastSym := x }

/-- How often has the last symbol occurred in a row (src/rle_sh.c:377-411)? -/
def shTrack (inp : Mem) (x : Byte) (s : ShEnc) : ShEnc :=
  if x = s.lastSym then { s with change := s.change + 1 }
  else if 10 ≤ s.change then
    s.turn x (shPick s.symCopy s.lastRle (rd inp s.start (subU s.copy s.change)) s.st)
  else { s with change := 1, lastSym := x }

/-- Start a copy or go on with it (src/rle_sh.c:413-447). -/
def shCount (i : Nat) (s : ShEnc) : ShEnc :=
  if s.wasCopy = false then
    { s with ops := s.ops ++ shRun s.lastRle s.rle, start := i, copy := 1, rle := 0, symCopy := 0, same := false
             wasCopy := true }
  else { s with copy := s.copy + 1 }

/-- One round of the loop (src/rle_sh.c:300-449). -/
def shStepE (inp : Mem) (i : Nat) (s : ShEnc) : ShEnc :=
  if inp i = s.lastRle then (if s.same = false then shSame1 inp (inp i) s else shSame2 inp (inp i) s)
  else shCount i (shTrack inp (inp i) (shMerge s))

/-- The first `n` rounds (src/rle_sh.c:300-449). -/
def shLoopE (inp : Mem) : Nat → ShEnc
  | 0 => shInit
  | n + 1 => shStepE inp n (shLoopE inp n)

/-- Everything that is written before the final `memmove`, in order (src/rle_sh.c:300-490). -/
def shOps (inp : Mem) (n : Nat) : List ShOp :=
  let s := shLoopE inp n
  let last :=
    if s.wasCopy = true then
      let s := shMerge s
      (shCopy s.lastRle (rd inp s.start s.copy) s.st).1
    else shRun s.lastRle s.rle
  s.ops ++ last ++ [.bits 0b0111111 7, .bytes (le32 0)]

/-- The buffer before the loop (src/rle_sh.c:274-285). -/
def shSink0 (m : Mem) (n outSize : Nat) : ShSink where
  m := fun k => if k = outSize - 1 then 0 else wrL m 0 (le32 n) k
  p := 8
  ph := outSize - 1
  nb := 0
  hs := 1
  bad := decide (outSize < 8)

/-- `rle8_sh_compress` (src/rle_sh.c:269-505); `m` is what the output buffer contains before. The
size check uses the bounds of rle8_mmtf128. -/
def shCompress (m : Mem) : Compress :=
  fun pIn inSize pOut outSize =>
    match pIn with
    | none => .fail
    | some inp =>
      if inSize = 0 ∨ pOut = false ∨ outSize < mmBounds inSize then .fail
      else
        let s := (shOps inp inSize).foldl (ShSink.op outSize) (shSink0 m inSize outSize)
        let hs := if s.nb = 0 then s.hs - 1 else s.hs
        let ph := if s.nb = 0 then s.ph + 1 else s.ph
        let m1 := wrL s.m s.p (rd s.m ph hs)
        let total := (s.p + hs) % 4294967296
        if s.bad = true ∨ outSize < s.p + hs then .ub else .ok total (rd (wrL m1 4 (le32 total)) 0 (s.p + hs))

/-! ### Decompression -/

/-- `rle8_sh_read_header` (src/rle_sh.c:40-45): `value`, `remainingBits`, and `ph` is `pHeader - pIn + 1`. -/
structure ShHdr where
  v : Nat
  rem : Nat
  ph : Nat

/-- `rle8_sh_consume_bits` (src/rle_sh.c:47-58); `none`: a read outside the source. -/
def ShHdr.consume (full : List Byte) (h : ShHdr) (k : Nat) : Option ShHdr :=
  if h.rem - k ≤ 8 then
    if h.ph = 0 then none
    else
      match full[h.ph - 1]? with
      | none => none
      | some b => some ⟨(h.v >>> k) ||| (b.toNat <<< (h.rem - k)), h.rem - k + 8, h.ph - 1⟩
  else some ⟨h.v >>> k, h.rem - k, h.ph⟩

/-- Variables of `rle8_sh_decompress` (src/rle_sh.c:520-531): `src` are the bytes from `pIn` on, `o` is `pOut`. -/
structure ShDec where
  h : ShHdr
  last : Byte
  st : ShSt
  src : List Byte
  o : Nat
  m : Mem

/-- Consume `k` bits and store `l` at `pOut` (src/rle_sh.c:537-539 and the other branches). -/
def ShDec.emit (full : List Byte) (cap : Nat) (s : ShDec) (k : Nat) (l : List Byte) : Option ShDec :=
  match s.h.consume full k with
  | none => none
  | some h => if s.o + l.length ≤ cap then some { s with h := h, o := s.o + l.length, m := wrL s.m s.o l } else none

/-- A symbol that is not the run symbol, the second or the third (src/rle_sh.c:543-557, 658-672). -/
def ShDec.lit (full : List Byte) (cap : Nat) (s : ShDec) : Option ShDec :=
  match s.src with
  | [] => none
  | x :: r =>
    { s with src := r, st :=
        { second := if x = s.st.occ then x else s.st.second, third := if x = s.st.occ then s.st.second else s.st.third
          occ := x } }.emit full cap 2 [x]

/-- One round of the loop over an encoded block (src/rle_sh.c:650-689). -/
def ShDec.one (full : List Byte) (cap : Nat) (s : ShDec) : Option ShDec :=
  if s.h.v.testBit 0 = false then s.emit full cap 1 [s.last]
  else if s.h.v.testBit 1 = false then s.lit full cap
  else if s.h.v.testBit 2 = false then { s with st := { s.st with occ := s.st.second } }.emit full cap 3 [s.st.second]
  else { s with st := { s.st with occ := s.st.third } }.emit full cap 3 [s.st.third]

/-- `for (size_t i = 0; i < count; i++)` around it (src/rle_sh.c:648-690). -/
def ShDec.many (full : List Byte) (cap : Nat) : Nat → ShDec → Option ShDec
  | 0, s => some s
  | c + 1, s =>
    match s.one full cap with
    | none => none
    | some s' => ShDec.many full cap c s'

/-- A run of the run symbol (src/rle_sh.c:577-585). -/
def ShDec.runSmall (full : List Byte) (cap : Nat) (s : ShDec) : Option ShDec :=
  match rdU8 s.src with
  | none => none
  | some (c, r) => { s with src := r }.emit full cap 5 (List.replicate (c + 14) s.last)

/-- `case 0` (src/rle_sh.c:594-606). -/
def ShDec.copySmall (full : List Byte) (cap : Nat) (s : ShDec) : Option ShDec :=
  match rdU8 s.src with
  | none => none
  | some (c, r) =>
    match takeN (c + 7) r with
    | none => none
    | some (x, r) => { s with src := r }.emit full cap 7 x

/-- `case 1` with a count other than 0 (src/rle_sh.c:616-624). -/
def ShDec.copyLarge (full : List Byte) (cap : Nat) (s : ShDec) (c : Nat) (r : List Byte) : Option ShDec :=
  match takeN (c + 7) r with
  | none => none
  | some (x, r) => { s with src := r }.emit full cap 7 x

/-- `case 2` (src/rle_sh.c:627-640); the count is a `uint32_t` sum. -/
def ShDec.runLarge (full : List Byte) (cap : Nat) (s : ShDec) : Option ShDec :=
  match rdU32 s.src with
  | none => none
  | some (c, r) =>
    match r with
    | [] => none
    | x :: r => { s with src := r, last := x }.emit full cap 7 (List.replicate ((c + 14) % 4294967296) x)

/-- `case 3` (src/rle_sh.c:642-693). -/
def ShDec.encoded (full : List Byte) (cap : Nat) (s : ShDec) : Option ShDec :=
  match rdU8 s.src with
  | none => none
  | some (c, r) =>
    match { s with src := r }.emit full cap 7 [] with
    | none => none
    | some s => ShDec.many full cap (c + 161) s

/-- Go on, or report an access outside of the buffers (the bodies of the loop of src/rle_sh.c:533-697). -/
def shGo : Option ShDec → ShDec ⊕ Option Mem
  | none => .inr none
  | some s => .inl s

/-- One round of `while (true)` (src/rle_sh.c:533-696). -/
def shStep (full : List Byte) (cap : Nat) (s : ShDec) : ShDec ⊕ Option Mem :=
  if s.h.v.testBit 0 = false then shGo (s.emit full cap 1 [s.last])
  else if s.h.v.testBit 1 = false then shGo (s.lit full cap)
  else if s.h.v.testBit 2 = false then
    shGo ({ s with st := { s.st with occ := s.st.second } }.emit full cap 3 [s.st.second])
  else if s.h.v.testBit 3 = false then
    shGo ({ s with st := { s.st with occ := s.st.third } }.emit full cap 4 [s.st.third])
  else if s.h.v.testBit 4 = false then shGo (s.runSmall full cap)
  else if s.h.v.testBit 5 = false then
    if s.h.v.testBit 6 = false then shGo (s.copySmall full cap) else shGo (s.runLarge full cap)
  else if s.h.v.testBit 6 = false then
    match s.h.consume full 7 with
    | none => .inr none
    | some _ =>
      match rdU32 s.src with
      | none => .inr none
      | some (c, r) => if c = 0 then .inr (some s.m) else shGo (s.copyLarge full cap c r)
  else shGo (s.encoded full cap)

/-- `rle8_sh_decompress` (src/rle_sh.c:509-697). Every round takes at least one of the
`8 * expectedInSize` bits, so the fuel is enough. -/
def shDecompress : Decompress :=
  fun a =>
    match a.pIn, a.pOut with
    | none, _ => .fail
    | _, none => .fail
    | some src, some m =>
      if a.inSize = 0 ∨ a.outSize = 0 then .fail
      else
        match rdU32 src with
        | none => .ub
        | some (expOut, r) =>
          match rdU32 r with
          | none => .ub
          | some (expIn, r) =>
            if a.outSize < expOut ∨ a.inSize < expIn then .fail
            else if expIn = 0 then .ub
            else
              match src[expIn - 1]? with
              | none => .ub
              | some b =>
                match loop (shStep src a.cap) (8 * expIn + 1) ⟨⟨b.toNat, 8, expIn - 1⟩, 0x7F, shSt0, r, 0, m⟩ with
                | none => .hang
                | some none => .ub
                | some (some m') => .ok expOut m'

end Hrk
