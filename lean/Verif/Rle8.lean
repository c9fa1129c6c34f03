import Verif.Parser
import Verif.Pick
import Verif.RleX
import Verif.ScanW

/-
rle8_multi, rle8_single, rle8_packed_multi, rle8_packed_single
(src/rle8_extreme_cpu.h, compiled twice by src/rle8_extreme_cpu.c).
The two encoders of a pair share the decoder, which looks at a mode byte.
-/

namespace Hrk

/-- Which encoder: `single` (`rle8[_packed]_single_compress`) or multi; `packed` is `PACKED`
(src/rle8_extreme_cpu.h:2-33, src/rle8_extreme_cpu.c). -/
structure R8Cfg where
  single : Bool
  packed : Bool
  deriving DecidableEq, Repr

/-- State of encoder and decoder: the mode of the stream and the current symbol. The multi
encoders do not look at the symbol unless packed, the single ones never change it
(`mode`, `lastSymbol`, `maxFreqSymbol`, `symbol`: src/rle8_extreme_cpu.h:359, 709, 740, 779, 1549). -/
structure R8St where
  single : Bool
  sym : List Byte
  deriving DecidableEq, Repr

/-- `RLE8_EXTREME_{MULTI,SINGLE}_MIN_RANGE_SHORT` (src/rle8_extreme_cpu.h:5, 10, 15, 21). -/
def r8short (packed single : Bool) : Nat :=
  if packed then (if single then 2 else 3) else (if single then 4 else 6)

/-- Encoder: count byte with `uint32_t` extension (src/rle8_extreme_cpu.h:131-142). -/
def cnt8 (sc : Nat) : List Byte := if sc ≤ 255 then [b8 sc] else 0 :: le32 sc

/-- Encoder: offset byte with `uint32_t` extension (src/rle8_extreme_cpu.h:164-175). -/
def off8 (lits : Nat) : List Byte := if lits + 1 ≤ 255 then [b8 (lits + 1)] else 0 :: le32 (lits + 1)

/-- Encoder: `uint32_t` offset (src/rle8_extreme_cpu.h:480-485, 1227-1230). -/
def offL8 (lits : Nat) : List Byte := 0 :: le32 (lits + 1)

/-- Encoder: `PREFER_7_BIT_OR_4_BYTE_COPY` offset (src/rle8_extreme_cpu.h:177-186). -/
def off7 (lits : Nat) : List Byte :=
  if lits + 1 ≤ 127 then [b8 ((lits + 1) <<< 1)] else le32 ((lits + 1) <<< 1 ||| 1)

/-- Decoder: byte with `uint32_t` extension (src/rle8_extreme_cpu.h:1561-1568). -/
def rd8or32 : Parser Nat := Parser.andThen rdU8 fun b => if b = 0 then rdU32 else Parser.ret b

/-- Decoder: offset (src/rle8_extreme_cpu.h:1590-1602, 2045-2057). `none`: `return`. -/
def rdOff8 : Parser (Option Nat) := rd8or32.andThen fun o => Parser.ret (if o = 0 then none else some o)

/-- Decoder: `PREFER_7_BIT_OR_4_BYTE_COPY` offset (src/rle8_extreme_cpu.h:1604-1620). -/
def rdOff7 : Parser (Option Nat) := fun src =>
  (rdU8 src).bind fun x =>
    if x.1 &&& 1 = 1 then (rdU32 src).map fun y => (if y.1 >>> 1 = 0 then none else some (y.1 >>> 1), y.2)
    else some (some (x.1 >>> 1), x.2)

namespace R8Cfg

/-- `..._MIN_RANGE_SHORT` (src/rle8_extreme_cpu.h:5, 10, 15, 21). -/
def short (c : R8Cfg) : Nat := r8short c.packed c.single

/-- `..._MIN_RANGE_LONG` where it is used: the packed multi codec and both single codecs
(src/rle8_extreme_cpu.h:11, 17, 23). -/
def long (c : R8Cfg) : Nat := if c.single then (if c.packed then 10 else 8) else 11

/-- `storedCount` (src/rle8_extreme_cpu.h:125); used for `count ≥ short` only. -/
def stored (c : R8Cfg) (count : Nat) : Nat := count + 1 - c.short

/-- The record of a single codec with 8 bit offset (src/rle8_extreme_cpu.h:400-430, 1148-1178). -/
def sRec (c : R8Cfg) (count lits : Nat) : List Byte := cnt8 (c.stored count) ++ [b8 (lits + 1)]

/-- The record of a single codec with 32 bit offset (src/rle8_extreme_cpu.h:445-485, 1198-1230). -/
def lRec (c : R8Cfg) (count lits : Nat) : List Byte := cnt8 (c.stored count) ++ offL8 lits

/-- The record written after three wasted chances (src/rle8_extreme_cpu.h:1267-1275). -/
def force (c : R8Cfg) (count lits : Nat) : List Byte := [b8 (c.stored count)] ++ offL8 lits

/-- The record of the packed multi codec (src/rle8_extreme_cpu.h:832-882). -/
def pRec (c : R8Cfg) (last sym : List Byte) (count lits : Nat) : List Byte :=
  (if c.stored count ≤ 127 then [b8 (c.stored count) ||| (if sym = last then 128 else 0)]
   else (if sym = last then 128 else 0) :: le32 (c.stored count)) ++
  (if sym = last then [] else sym) ++ off7 lits

/-- The record of the packed multi codec in the scalar loop and at the end: the symbol is
always stored (src/rle8_extreme_cpu.h:144-158, 177-186, 231-245, 262-271). -/
def pRecT (c : R8Cfg) (sym : List Byte) (count lits : Nat) : List Byte :=
  (if c.stored count ≤ 127 then [b8 (c.stored count)] else 0 :: le32 (c.stored count)) ++ sym ++ off7 lits

/-- The record of the multi codec (src/rle8_extreme_cpu.h:125-175). -/
def mRec (c : R8Cfg) (sym : List Byte) (count lits : Nat) : List Byte := sym ++ cnt8 (c.stored count) ++ off8 lits

/-- Emission test and record header of the vector loops
(src/rle8_extreme_cpu.h:805-883, 1138-1234; the avx2 loop is the same). The encoder never
leaves its own mode and, if single, its symbol. -/
def emit (c : R8Cfg) : Emit R8St := fun fs sym count lits =>
  if fs.single ≠ c.single then none
  else if c.single then
    if fs.sym ≠ sym ∨ count < c.short then none
    else if lits + 1 ≤ 255 then some (c.sRec count lits, fs)
    else if count ≥ c.long ∨ (c.packed ∧ c.stored count ≤ 255 ∧ count ≥ 6) then some (c.lRec count lits, fs)
    else none
  else if c.packed then
    if count ≥ c.long ∨ (lits + 1 ≤ 127 ∧ ((sym = fs.sym ∧ count ≥ c.short) ∨ count ≥ 4)) then
      some (c.pRec fs.sym sym count lits, ⟨false, sym⟩)
    else none
  else if count ≥ c.short then some (c.mRec sym count lits, ⟨false, sym⟩)
  else none

/-- The same in the scalar loops and at the end
(src/rle8_extreme_cpu.h:119-187, 204-272, 391-497, 513-560, 584-643). -/
def emitT (c : R8Cfg) : Emit R8St := fun fs sym count lits =>
  if fs.single ≠ c.single then none
  else if c.single then
    if fs.sym ≠ sym then none
    else if lits + 1 ≤ 255 ∧ count ≥ c.short then some (c.sRec count lits, fs)
    else if count ≥ c.long then some (c.lRec count lits, fs)
    else none
  else if c.packed then
    if count ≥ c.long then some (c.pRecT sym count lits, ⟨false, sym⟩) else none
  else if count ≥ c.short then some (c.mRec sym count lits, ⟨false, sym⟩)
  else none

/-- The unconditional record of `replay` (src/rle8_extreme_cpu.h:1254-1283) as an emission rule. -/
def emitF (c : R8Cfg) : Emit R8St := fun fs sym count lits =>
  if c.single = true ∧ fs = ⟨true, sym⟩ ∧ c.short ≤ count ∧ c.stored count ≤ 255 ∧ 255 ≤ lits then some (c.force count lits, fs)
  else none

/-- Terminator after a final run (src/rle8_extreme_cpu.h:281-303, 562-580, 645-663). -/
def endRun (c : R8Cfg) : List Byte :=
  if c.single then 0 :: le32 0 ++ 0 :: le32 0
  else if c.packed then 128 :: le32 0 ++ le32 1
  else 0 :: 0 :: le32 0 ++ 0 :: le32 0

/-- Terminator with final literals (src/rle8_extreme_cpu.h:309-333, 669-687). -/
def endLit (c : R8Cfg) (lits : Nat) : List Byte :=
  if c.single then 0 :: le32 0 ++ 0 :: le32 (lits + 1)
  else if c.packed then 128 :: le32 0 ++ le32 ((lits + 1) <<< 1 ||| 1)
  else 0 :: 0 :: le32 0 ++ 0 :: le32 (lits + 1)

/-- What a record header says: `symbol`, `symbolCount`, `offset` (src/rle8_extreme_cpu.h:1548-1549). -/
structure Fields where
  fs : R8St
  sc : Nat
  off : Option Nat

/-- Decoder: the fields of a record header. Single: src/rle8_extreme_cpu.h:2021-2057. Packed
multi: 1570-1586, 1604-1620. Multi: 1559-1568, 1590-1602. The five vector variants read the same fields. -/
def fields (packed : Bool) (fs : R8St) : Parser Fields :=
  if fs.single then
    rd8or32.andThen fun sc => rdOff8.andThen fun o => Parser.ret ⟨fs, sc, o⟩
  else if packed then
    Parser.andThen rdU8 fun v =>
    Parser.andThen (if v &&& 127 = 0 then rdU32 else Parser.ret (v &&& 127)) fun sc =>
    Parser.andThen (if v &&& 128 ≠ 0 then Parser.ret fs.sym else takeN 1) fun sym =>
    rdOff7.andThen fun o => Parser.ret ⟨⟨false, sym⟩, sc, o⟩
  else
    Parser.andThen (takeN 1) fun sym =>
    rd8or32.andThen fun sc => rdOff8.andThen fun o => Parser.ret ⟨⟨false, sym⟩, sc, o⟩

/-- Decoder: decisions after the fields are read (src/rle8_extreme_cpu.h:1598-1629, 2053-2084). -/
def toH (packed : Bool) (x : Fields) (r : List Byte) : Option (Hdr R8St) :=
  match x.off with
  | none => some .ret
  | some 0 => some (.wrap (if x.sc = 0 then none else some (x.sc + (r8short packed x.fs.single - 1))) r)
  | some (o + 1) =>
    some (.go o x.fs.sym (if x.sc = 0 then none else some (x.sc + (r8short packed x.fs.single - 1))) x.fs r)

/-- Decoder: one record header (src/rle8_extreme_cpu.h:1558-1629, 2020-2084). -/
def hdr (packed : Bool) : R8St → List Byte → Option (Hdr R8St) := Parser.toHdr (fields packed) (toH packed)

/-- Decoder: the mode byte, and the symbol of a single stream
(src/rle8_extreme_cpu.h:709, 718-761). The initial symbol of a multi stream is 0
(src/rle8_extreme_cpu.h:1549). Other modes: `return 0`. -/
def start (src : List Byte) : Option (Option (R8St × List Byte)) :=
  match rdU8 src with
  | none => none
  | some (m, r) =>
    if m = 0 then some (some (⟨false, [0]⟩, r))
    else if m = 1 then (takeN 1 r).map fun x => some (⟨true, x.1⟩, x.2)
    else some none

/-- Encoder: what follows the two sizes (src/rle8_extreme_cpu.h:93-95, 353-370). -/
def pre (c : R8Cfg) (fs : R8St) : List Byte := if c.single then 1 :: fs.sym else [0]

/-- Encoder: the state at the start (src/rle8_extreme_cpu.h:365, 779). -/
def first (c : R8Cfg) (inp : Mem) (n : Nat) : R8St := if c.single then ⟨true, [pick inp n]⟩ else ⟨false, [0]⟩

/-- Records and terminators of the stream (src/rle8_extreme_cpu.h). -/
def fmt (c : R8Cfg) : Fmt R8St where
  init := ⟨c.single, [0]⟩
  emit := c.emit
  endRun := c.endRun
  endLit := c.endLit
  hdr := hdr c.packed

/-- The scanner the dispatcher picks (src/rle8_extreme_cpu.h:102-109, 377-381). -/
def run (c : R8Cfg) (cpu : Cpu) : Mem → Nat → Option (ES R8St) :=
  if c.single then runWI c.emit c.emitT c.force c.short c.first pick
  else run8TI c.fmt c.emitT (if cpu.avx2 then .avx2 else .sse2)

/-- The scanner, without the vector instructions. -/
theorem run_eq (c : R8Cfg) (cpu : Cpu) : c.run cpu = if c.single then runW c.emit c.emitT c.force c.short c.first pick
    else run8T c.fmt c.emitT (if cpu.avx2 then 32 else 16) := by
  unfold run
  rw [runWI_eq]
  cases h : cpu.avx2
  · rw [run8TI_eq c.fmt c.emitT (k := if false = true then .avx2 else .sse2) (Or.inl rfl)]; rfl
  · rw [run8TI_eq c.fmt c.emitT (k := if true = true then .avx2 else .sse2) (Or.inr rfl)]; rfl

/-- The decoder the dispatcher picks (src/rle8_extreme_cpu.h:724-733, 745-754), with the
macros of src/rleX_extreme_common.h:30-312. -/
def decV (cpu : Cpu) : DecV :=
  if cpu.avx512f then ⟨64, .aligned 64⟩
  else if cpu.avx2 then ⟨32, .aligned 32⟩
  else if cpu.avx then ⟨32, .aligned 32⟩
  else if cpu.sse41 then ⟨16, .aligned 16⟩
  else ⟨16, .aligned 16⟩

/-- The codec (src/rle8_extreme_cpu.h). -/
def cdc (c : R8Cfg) : Cdc R8St where
  F := c.fmt
  emitEnd := c.emitT
  extra := [c.emitT, c.emitF]
  S := 1
  unb := true
  first := c.first
  pre := c.pre
  start := start
  run := c.run
  decV := decV

/-- `rle8[_packed]_{multi,single}_compress` (src/rle8_extreme_cpu.h:86-344, 346-700). -/
def compress (c : R8Cfg) (cpu : Cpu) : Compress := c.cdc.compress cpu

/-- `rle8[_packed]_decompress` (src/rle8_extreme_cpu.h:702-764). The sizes and the mode byte, nine bytes, are
read (707-709) before the sizes are compared (711). `apiDecompress` reads the mode byte a second time. The decoder does not depend on
which of the two encoders is meant. -/
def decompress (packed : Bool) (cpu : Cpu) : Decompress := fun a =>
  match a.pIn, a.pOut with
  | some src, some _ =>
    if a.inSize ≠ 0 ∧ a.outSize ≠ 0 ∧ src.length < 9 then .ub
    else apiDecompress start (hdr packed) (decV cpu) a
  | _, _ => .fail

theorem decompress_api (packed : Bool) (cpu : Cpu) (a : DArgs) :
    decompress packed cpu a = apiDecompress start (hdr packed) (decV cpu) a ∨
      decompress packed cpu a = .ub ∧ ∃ src, a.pIn = some src ∧ src.length < 9 := by
  unfold decompress
  cases hi : a.pIn with
  | none => left; simp [apiDecompress, hi]
  | some src =>
    cases ho : a.pOut with
    | none => left; simp [apiDecompress, hi, ho]
    | some m =>
      simp only
      split
      · next h => exact Or.inr ⟨rfl, src, rfl, h.2.2⟩
      · exact Or.inl rfl

/-- With nine readable bytes the order of the reads does not matter. -/
theorem decompress_eq {packed : Bool} {cpu : Cpu} {a : DArgs} {src : List Byte} (h : a.pIn = some src) (hl : 9 ≤ src.length) :
    decompress packed cpu a = apiDecompress start (hdr packed) (decV cpu) a := by
  rcases decompress_api packed cpu a with h' | ⟨_, s, h1, h2⟩
  · exact h'
  · rw [h] at h1
    cases h1
    omega

/-- Whoever returns successfully has read nine bytes. -/
theorem api_ok_len {packed : Bool} {cpu : Cpu} {a : DArgs} {r : Nat} {m' : Mem}
    (h : apiDecompress start (hdr packed) (decV cpu) a = .ok r m') : ∃ src, a.pIn = some src ∧ 9 ≤ src.length := by
  unfold apiDecompress at h
  split at h
  · cases h
  · cases h
  · next src m hi ho =>
    refine ⟨src, hi, ?_⟩
    split at h
    · cases h
    · split at h
      · cases h
      · next x r1 h1 =>
        split at h
        · cases h
        · next y r2 h2 =>
          split at h
          · cases h
          · split at h
            · cases h
            · cases h
            · next fs r3 h3 =>
              have l1 : src.length = r1.length + 4 := by
                match src, h1 with
                | _ :: _ :: _ :: _ :: r', h1 => simp only [rdU32, Option.some.injEq, Prod.mk.injEq] at h1; rw [← h1.2]; rfl
              have l2 : r1.length = r2.length + 4 := by
                match r1, h2 with
                | _ :: _ :: _ :: _ :: r', h2 => simp only [rdU32, Option.some.injEq, Prod.mk.injEq] at h2; rw [← h2.2]; rfl
              have l3 : 1 ≤ r2.length := by
                cases r2 with
                | nil => simp [start, rdU8] at h3
                | cons _ _ => simp
              omega

theorem decompress_of_ok {packed : Bool} {cpu : Cpu} {a : DArgs} {r : Nat} {m' : Mem}
    (h : apiDecompress start (hdr packed) (decV cpu) a = .ok r m') : decompress packed cpu a = .ok r m' := by
  obtain ⟨src, h1, h2⟩ := api_ok_len h
  rw [decompress_eq h1 h2, h]

theorem ok_of_decompress {packed : Bool} {cpu : Cpu} {a : DArgs} {r : Nat} {m' : Mem}
    (h : decompress packed cpu a = .ok r m') : apiDecompress start (hdr packed) (decV cpu) a = .ok r m' := by
  rcases decompress_api packed cpu a with h' | ⟨h', _⟩
  · rw [← h', h]
  · rw [h'] at h
    cases h

/-! ### Writer and parser are inverse -/

theorem rd8or32_short {x : Nat} (h1 : 0 < x) (h2 : x ≤ 255) (tail : List Byte) :
    rd8or32 (b8 x :: tail) = some (x, tail) := by
  unfold rd8or32
  rw [Parser.andThen_eq (rdU8_cons _ _), b8_toNat, Nat.mod_eq_of_lt (by omega), if_neg (by omega)]
  rfl

theorem rd8or32_long {x : Nat} (h : x < 4294967296) (tail : List Byte) :
    rd8or32 (0 :: (le32 x ++ tail)) = some (x, tail) := by
  unfold rd8or32
  rw [Parser.andThen_eq (rdU8_cons _ _), if_pos (by decide), rdU32_le32, Nat.mod_eq_of_lt h]

theorem rd8or32_cnt8 {x : Nat} (h1 : 0 < x) (h : x < 4294967296) (tail : List Byte) :
    rd8or32 (cnt8 x ++ tail) = some (x, tail) := by
  unfold cnt8
  by_cases h2 : x ≤ 255
  · rw [if_pos h2]; exact rd8or32_short h1 h2 tail
  · rw [if_neg h2]; exact rd8or32_long h tail

theorem rdOff8_of {src r : List Byte} {x : Nat} (hx : 0 < x) (h : rd8or32 src = some (x, r)) :
    rdOff8 src = some (some x, r) := by
  unfold rdOff8
  rw [Parser.andThen_eq h, if_neg (by omega)]
  rfl

theorem rdOff8_offL8 {lits : Nat} (h : lits < 4294967295) (tail : List Byte) :
    rdOff8 (offL8 lits ++ tail) = some (some (lits + 1), tail) :=
  rdOff8_of (by omega) (rd8or32_long (by omega) tail)

theorem rdOff8_off8 {lits : Nat} (h : lits < 4294967295) (tail : List Byte) :
    rdOff8 (off8 lits ++ tail) = some (some (lits + 1), tail) :=
  rdOff8_of (by omega) (rd8or32_cnt8 (by omega) (by omega) tail)

theorem rdOff8_zero (tail : List Byte) : rdOff8 (0 :: (le32 0 ++ tail)) = some (none, tail) := by
  unfold rdOff8
  rw [Parser.andThen_eq (rd8or32_long (by omega) tail)]
  rfl

theorem rdOff7_long {x : Nat} (h : x < 2147483648) (tail : List Byte) :
    rdOff7 (le32 (x <<< 1 ||| 1) ++ tail) = some (if x = 0 then none else some x, tail) := by
  unfold rdOff7
  rw [XCfg.shl1or, XCfg.rdU8_le32, rdU32_le32]
  simp only [Option.bind_some, Option.map_some, XCfg.and1, XCfg.shr1]
  rw [if_pos (by omega), Nat.mod_eq_of_lt (by omega), show (2 * x + 1) / 2 = x by omega]

theorem rdOff7_off7 {lits : Nat} (h : lits < 2147483647) (tail : List Byte) :
    rdOff7 (off7 lits ++ tail) = some (some (lits + 1), tail) := by
  unfold off7
  by_cases h2 : lits + 1 ≤ 127
  · rw [if_pos h2]
    unfold rdOff7
    simp only [List.cons_append, List.nil_append, rdU8_cons, Option.bind_some, XCfg.and1, XCfg.shr1, XCfg.shl1, b8_toNat]
    rw [if_neg (by omega)]
    congr 3
    omega
  · rw [if_neg h2, rdOff7_long (by omega), if_neg (by omega)]

theorem hdr_of_fields {packed : Bool} {fs : R8St} {src r : List Byte} {x : Fields}
    (h : fields packed fs src = some (x, r)) : hdr packed fs src = toH packed x r := by
  simp [hdr, Parser.toHdr, h]

/-- The invariants: mode and size of the symbol. -/
def Enc (c : R8Cfg) (fs : R8St) : Prop := fs.single = c.single ∧ fs.sym.length = 1

def Dec (fs : R8St) : Prop := fs.sym.length = 1

theorem go_of_fields (c : R8Cfg) {fs fs' : R8St} {src r : List Byte} {lits cnt : Nat} (hs : fs'.single = c.single)
    (hc : c.short ≤ cnt) (h : fields c.packed fs src = some (⟨fs', c.stored cnt, some (lits + 1)⟩, r)) :
    hdr c.packed fs src = some (.go lits fs'.sym (some cnt) fs' r) := by
  rw [hdr_of_fields h]
  simp only [toH, hs]
  have : c.stored cnt ≠ 0 := by unfold stored; omega
  rw [if_neg this]
  have h0 : 0 < c.short := by unfold short r8short; split <;> split <;> omega
  have : c.stored cnt + (r8short c.packed c.single - 1) = cnt := by
    unfold stored; unfold short at *; omega
  rw [this]

theorem fields_single {packed : Bool} {fs : R8St} (hs : fs.single = true) {a r tail : List Byte} {sc : Nat} {o : Option Nat}
    (h1 : rd8or32 (a ++ (r ++ tail)) = some (sc, r ++ tail)) (h2 : rdOff8 (r ++ tail) = some (o, tail)) :
    fields packed fs (a ++ r ++ tail) = some (⟨fs, sc, o⟩, tail) := by
  unfold fields
  rw [if_pos hs, List.append_assoc, Parser.andThen_eq h1, Parser.andThen_eq h2]
  rfl

theorem fields_multi {fs : R8St} (hs : fs.single = false) {b : Byte} {a r tail : List Byte} {sc : Nat} {o : Option Nat}
    (h1 : rd8or32 (a ++ (r ++ tail)) = some (sc, r ++ tail)) (h2 : rdOff8 (r ++ tail) = some (o, tail)) :
    fields false fs ([b] ++ a ++ r ++ tail) = some (⟨⟨false, [b]⟩, sc, o⟩, tail) := by
  unfold fields
  rw [if_neg (by simp [hs]), if_neg (by simp)]
  have : takeN 1 ([b] ++ a ++ r ++ tail) = some ([b], a ++ (r ++ tail)) := by simp [takeN]
  rw [Parser.andThen_eq this, Parser.andThen_eq h1, Parser.andThen_eq h2]
  rfl

theorem fields_packed {fs : R8St} (hs : fs.single = false) {v : Byte} {a s r tail sym : List Byte} {sc : Nat}
    {o : Option Nat}
    (h1 : (if v.toNat &&& 127 = 0 then rdU32 else Parser.ret (v.toNat &&& 127)) (a ++ (s ++ (r ++ tail)))
      = some (sc, s ++ (r ++ tail)))
    (h2 : (if v.toNat &&& 128 ≠ 0 then Parser.ret fs.sym else takeN 1) (s ++ (r ++ tail)) = some (sym, r ++ tail))
    (h3 : rdOff7 (r ++ tail) = some (o, tail)) :
    fields true fs (v :: a ++ s ++ r ++ tail) = some (⟨⟨false, sym⟩, sc, o⟩, tail) := by
  unfold fields
  rw [if_neg (by simp [hs]), if_pos rfl]
  simp only [List.cons_append, List.append_assoc]
  rw [Parser.andThen_eq (rdU8_cons _ _), Parser.andThen_eq h1, Parser.andThen_eq h2, Parser.andThen_eq h3]
  rfl

theorem or128' : ∀ x, x < 128 → (b8 x ||| 128).toNat &&& 127 = x ∧ (b8 x ||| 128).toNat &&& 128 ≠ 0 := XCfg.or128

/-- A packed record, with the flag `f`: 128 if the symbol is left out. -/
theorem fields_pack {fs : R8St} (hs : fs.single = false) {sym : List Byte} (hl : sym.length = 1) {sc : Nat}
    (h0 : 0 < sc) (h1 : sc < 4294967296) {lits : Nat} (h2 : lits < 2147483647) (same : Bool) (hsame : same = true → sym = fs.sym)
    (tail : List Byte) :
    fields true fs ((if sc ≤ 127 then [b8 sc ||| (if same then 128 else 0)] else (if same then 128 else 0) :: le32 sc) ++
      (if same then [] else sym) ++ off7 lits ++ tail) = some (⟨⟨false, sym⟩, sc, some (lits + 1)⟩, tail) := by
  have hsym : ∀ v : Byte, (v.toNat &&& 128 ≠ 0 ↔ same = true) → ∀ r,
      (if v.toNat &&& 128 ≠ 0 then Parser.ret fs.sym else takeN 1) ((if same then [] else sym) ++ r) = some (sym, r) := by
    intro v hv r
    cases same
    · rw [if_neg (by simpa using hv)]
      simp [takeN, hl]
    · rw [if_pos (by simpa using hv), ← hsame rfl]
      simp
  by_cases h : sc ≤ 127
  · rw [if_pos h]
    have g : ((b8 sc ||| (if same then 128 else 0)).toNat &&& 127 = sc) ∧
        ((b8 sc ||| (if same then 128 else 0)).toNat &&& 128 ≠ 0 ↔ same = true) := by
      cases same
      · have := XCfg.or0 sc (by omega); simp only [Bool.false_eq_true, if_false]; exact ⟨this.1, fun h => absurd this.2 h, fun h => nomatch h⟩
      · have := XCfg.or128 sc (by omega); simp only [if_true]; exact ⟨this.1, by simpa using this.2⟩
    refine fields_packed (a := []) hs ?_ (hsym _ g.2 _) (rdOff7_off7 h2 tail)
    rw [g.1, if_neg (by omega)]
    rfl
  · rw [if_neg h]
    have g : (((if same then 128 else 0 : Byte)).toNat &&& 127 = 0) ∧
        (((if same then 128 else 0 : Byte)).toNat &&& 128 ≠ 0 ↔ same = true) := by
      cases same <;> decide
    refine fields_packed (a := le32 sc) hs ?_ (hsym _ g.2 _) (rdOff7_off7 h2 tail)
    rw [if_pos g.1, rdU32_le32, Nat.mod_eq_of_lt h1]

theorem long_ge (c : R8Cfg) : c.short ≤ c.long := by
  cases c with | mk s p => cases s <;> cases p <;> decide

/-- The longest literals and runs for which writer and parser are inverse: 31 or 32 bits. -/
def lim (c : R8Cfg) : Nat := if c.packed = true ∧ c.single = false then 2147483646 else 4294967280

theorem lim_le (c : R8Cfg) : c.lim ≤ 4294967280 := by unfold lim; split <;> omega

theorem lim_packed {c : R8Cfg} (hc : c.single = false) (hp : c.packed = true) : c.lim = 2147483646 := by unfold lim; rw [if_pos ⟨hp, hc⟩]

theorem le_lim (c : R8Cfg) : 1073741824 + 16 ≤ c.lim := by unfold lim; split <;> omega

/-- A record of the single codecs. -/
theorem single_go (c : R8Cfg) (hc : c.single = true) {fs : R8St} (hf : fs.single = c.single) {cnt lits : Nat}
    (h1 : c.short ≤ cnt) (h2 : lits + cnt ≤ c.lim) {a r : List Byte}
    (ha : a = cnt8 (c.stored cnt) ∨ (c.stored cnt ≤ 255 ∧ a = [b8 (c.stored cnt)]))
    (hr : r = offL8 lits ∨ (lits + 1 ≤ 255 ∧ r = [b8 (lits + 1)])) (tail : List Byte) :
    hdr c.packed fs (a ++ r ++ tail) = some (.go lits fs.sym (some cnt) fs tail) := by
  have hL := c.lim_le
  have hs0 : 0 < c.stored cnt ∧ c.stored cnt < 4294967296 := by unfold stored; omega
  refine go_of_fields c hf h1 (fields_single (hf.trans hc) ?_ ?_)
  · rcases ha with rfl | ⟨h, rfl⟩
    · exact rd8or32_cnt8 hs0.1 hs0.2 _
    · exact rd8or32_short hs0.1 h _
  · rcases hr with rfl | ⟨h, rfl⟩
    · exact rdOff8_offL8 (by omega) tail
    · exact rdOff8_of (by omega) (rd8or32_short (by omega) h tail)

theorem multi_go (c : R8Cfg) (hc : c.single = false) (hp : c.packed = false) {fs : R8St} (hf : fs.single = c.single)
    {cnt lits : Nat} {sym : List Byte} (hl : sym.length = 1) (h1 : c.short ≤ cnt) (h2 : lits + cnt ≤ c.lim)
    (tail : List Byte) :
    hdr c.packed fs (c.mRec sym cnt lits ++ tail) = some (.go lits sym (some cnt) ⟨false, sym⟩ tail) := by
  have hL := c.lim_le
  have hs0 : 0 < c.stored cnt ∧ c.stored cnt < 4294967296 := by unfold stored; omega
  obtain ⟨b, rfl⟩ := List.length_eq_one_iff.mp hl
  refine go_of_fields c (fs' := ⟨false, [b]⟩) hc.symm h1 ?_
  rw [hp]
  exact fields_multi (hf.trans hc) (rd8or32_cnt8 hs0.1 hs0.2 _) (rdOff8_off8 (by omega) tail)

theorem packed_go (c : R8Cfg) (hc : c.single = false) (hp : c.packed = true) {fs : R8St} (hf : fs.single = c.single)
    {cnt lits : Nat} {sym : List Byte} (hl : sym.length = 1) (h1 : c.short ≤ cnt) (h2 : lits + cnt ≤ c.lim)
    (same : Bool) (hsame : same = true → sym = fs.sym) (tail : List Byte) :
    hdr c.packed fs ((if c.stored cnt ≤ 127 then [b8 (c.stored cnt) ||| (if same then 128 else 0)]
      else (if same then 128 else 0) :: le32 (c.stored cnt)) ++ (if same then [] else sym) ++ off7 lits ++ tail)
      = some (.go lits sym (some cnt) ⟨false, sym⟩ tail) := by
  have hL := c.lim_le
  have hs0 : 0 < c.stored cnt ∧ c.stored cnt < 4294967296 := by unfold stored; omega
  refine go_of_fields c (fs' := ⟨false, sym⟩) hc.symm h1 ?_
  rw [hp]
  exact fields_pack (hf.trans hc) hl hs0.1 hs0.2 (by have := lim_packed hc hp; omega) same hsame tail

theorem emit_okB (c : R8Cfg) : EmitOK c.emit (hdr c.packed) c.Enc 1 true c.lim := by
  rintro fs sym cnt lits bytes fs' ⟨hf, hl0⟩ hl _ hB he
  have hlen8 : ∀ x, 0 < (cnt8 x).length := by intro x; unfold cnt8; split <;> simp
  unfold emit at he
  rw [if_neg (by simp [hf])] at he
  cases hc : c.single
  · simp only [hc, Bool.false_eq_true, if_false] at he
    cases hp : c.packed
    · simp only [hp, Bool.false_eq_true, if_false] at he
      by_cases h1 : cnt ≥ c.short
      · rw [if_pos h1] at he
        simp only [Option.some.injEq, Prod.mk.injEq] at he
        obtain ⟨rfl, rfl⟩ := he
        refine ⟨⟨hc.symm, hl⟩, by simp [mRec, hl] <;> omega, fun tail => ?_⟩
        have := c.multi_go hc hp hf hl h1 hB tail
        rwa [hp] at this
      · rw [if_neg h1] at he; cases he
    · simp only [hp, if_true] at he
      by_cases h1 : cnt ≥ c.long ∨ (lits + 1 ≤ 127 ∧ ((sym = fs.sym ∧ cnt ≥ c.short) ∨ cnt ≥ 4))
      · rw [if_pos h1] at he
        simp only [Option.some.injEq, Prod.mk.injEq] at he
        obtain ⟨rfl, rfl⟩ := he
        have hsh : c.short = 3 := by simp [short, r8short, hc, hp]
        have := c.long_ge
        refine ⟨⟨hc.symm, hl⟩, ?_, fun tail => ?_⟩
        · unfold pRec; split <;> simp
        · have := c.packed_go hc hp hf hl (cnt := cnt) (lits := lits) (by omega) (by omega) (decide (sym = fs.sym)) (by simp) tail
          unfold pRec
          rw [hp] at this
          simpa using this
      · rw [if_neg h1] at he; cases he
  · simp only [hc, if_true] at he
    by_cases h0 : fs.sym ≠ sym ∨ cnt < c.short
    · rw [if_pos h0] at he; cases he
    · rw [if_neg h0] at he
      have h0' : fs.sym = sym ∧ c.short ≤ cnt := by
        constructor
        · exact Decidable.byContradiction fun h => h0 (Or.inl h)
        · omega
      by_cases h1 : lits + 1 ≤ 255
      · rw [if_pos h1] at he
        simp only [Option.some.injEq, Prod.mk.injEq] at he
        obtain ⟨rfl, rfl⟩ := he
        refine ⟨⟨hf, hl0⟩, by simp [sRec], fun tail => ?_⟩
        rw [← h0'.1]
        exact c.single_go hc hf h0'.2 hB (Or.inl rfl) (Or.inr ⟨h1, rfl⟩) tail
      · rw [if_neg h1] at he
        by_cases h2 : cnt ≥ c.long ∨ (c.packed = true ∧ c.stored cnt ≤ 255 ∧ cnt ≥ 6)
        · rw [if_pos h2] at he
          simp only [Option.some.injEq, Prod.mk.injEq] at he
          obtain ⟨rfl, rfl⟩ := he
          refine ⟨⟨hf, hl0⟩, by simp [lRec, offL8], fun tail => ?_⟩
          rw [← h0'.1]
          exact c.single_go hc hf h0'.2 hB (Or.inl rfl) (Or.inl rfl) tail
        · rw [if_neg h2] at he; cases he

theorem emitT_okB (c : R8Cfg) : EmitOK c.emitT (hdr c.packed) c.Enc 1 true c.lim := by
  rintro fs sym cnt lits bytes fs' ⟨hf, hl0⟩ hl _ hB he
  unfold emitT at he
  rw [if_neg (by simp [hf])] at he
  cases hc : c.single
  · simp only [hc, Bool.false_eq_true, if_false] at he
    cases hp : c.packed
    · simp only [hp, Bool.false_eq_true, if_false] at he
      by_cases h1 : cnt ≥ c.short
      · rw [if_pos h1] at he
        simp only [Option.some.injEq, Prod.mk.injEq] at he
        obtain ⟨rfl, rfl⟩ := he
        refine ⟨⟨hc.symm, hl⟩, by simp [mRec, hl] <;> omega, fun tail => ?_⟩
        have := c.multi_go hc hp hf hl h1 hB tail
        rwa [hp] at this
      · rw [if_neg h1] at he; cases he
    · simp only [hp, if_true] at he
      by_cases h1 : cnt ≥ c.long
      · rw [if_pos h1] at he
        simp only [Option.some.injEq, Prod.mk.injEq] at he
        obtain ⟨rfl, rfl⟩ := he
        have := c.long_ge
        refine ⟨⟨hc.symm, hl⟩, ?_, fun tail => ?_⟩
        · unfold pRecT; split <;> simp
        · have := c.packed_go hc hp hf hl (cnt := cnt) (lits := lits) (by omega) (by omega) false (by simp) tail
          unfold pRecT
          rw [hp] at this
          simpa using this
      · rw [if_neg h1] at he; cases he
  · simp only [hc, if_true] at he
    by_cases h0 : fs.sym ≠ sym
    · rw [if_pos h0] at he; cases he
    · rw [if_neg h0] at he
      have h0' : fs.sym = sym := Decidable.byContradiction h0
      by_cases h1 : lits + 1 ≤ 255 ∧ cnt ≥ c.short
      · rw [if_pos h1] at he
        simp only [Option.some.injEq, Prod.mk.injEq] at he
        obtain ⟨rfl, rfl⟩ := he
        refine ⟨⟨hf, hl0⟩, by simp [sRec], fun tail => ?_⟩
        rw [← h0']
        exact c.single_go hc hf h1.2 hB (Or.inl rfl) (Or.inr ⟨h1.1, rfl⟩) tail
      · rw [if_neg h1] at he
        by_cases h2 : cnt ≥ c.long
        · rw [if_pos h2] at he
          simp only [Option.some.injEq, Prod.mk.injEq] at he
          obtain ⟨rfl, rfl⟩ := he
          refine ⟨⟨hf, hl0⟩, by simp [lRec, offL8], fun tail => ?_⟩
          rw [← h0']
          exact c.single_go hc hf (Nat.le_trans c.long_ge h2) hB (Or.inl rfl) (Or.inl rfl) tail
        · rw [if_neg h2] at he; cases he

theorem emitF_okB (c : R8Cfg) : EmitOK c.emitF (hdr c.packed) c.Enc 1 true c.lim := by
  rintro fs sym cnt lits bytes fs' ⟨hf, hl0⟩ hl _ hB he
  unfold emitF at he
  by_cases h : c.single = true ∧ fs = ⟨true, sym⟩ ∧ c.short ≤ cnt ∧ c.stored cnt ≤ 255 ∧ 255 ≤ lits
  · rw [if_pos h] at he
    simp only [Option.some.injEq, Prod.mk.injEq] at he
    obtain ⟨rfl, rfl⟩ := he
    refine ⟨⟨hf, hl0⟩, by simp [force], fun tail => ?_⟩
    have : sym = fs.sym := by rw [h.2.1]
    rw [this]
    exact c.single_go h.1 hf h.2.2.1 hB (Or.inr ⟨h.2.2.2.1, rfl⟩) (Or.inl rfl) tail
  · rw [if_neg h] at he; cases he

theorem ends_okB (c : R8Cfg) : EndOK c.endRun c.endLit (hdr c.packed) c.Enc c.lim where
  endRun := by
    rintro fs tail ⟨hf, hl⟩
    left
    unfold endRun
    cases hc : c.single
    · cases hp : c.packed
      · simp only [Bool.false_eq_true, if_false]
        exact hdr_of_fields (fields_multi (b := 0) (a := 0 :: le32 0) (r := 0 :: le32 0) (hf.trans hc)
          (rd8or32_long (by omega) _) (rdOff8_zero tail))
      · simp only [Bool.false_eq_true, if_false, if_true]
        have h3 := rdOff7_long (x := 0) (by omega) tail
        rw [show (0 <<< 1 ||| 1 : Nat) = 1 by rfl] at h3
        have := fields_packed (fs := fs) (v := 128) (a := le32 0) (s := []) (r := le32 1) (tail := tail) (sc := 0)
          (sym := fs.sym) (hf.trans hc) (by rw [if_pos (by decide), rdU32_le32]) (by rw [if_pos (by decide)]; rfl) h3
        simp only [List.append_nil] at this
        rw [hdr_of_fields this]
        rfl
    · simp only [if_true]
      rw [hdr_of_fields (fields_single (a := 0 :: le32 0) (r := 0 :: le32 0) (hf.trans hc)
        (rd8or32_long (by omega) _) (rdOff8_zero tail))]
      rfl
  endLit := by
    rintro fs lits tail ⟨hf, hl⟩ hB
    have hL := c.lim_le
    unfold endLit
    cases hc : c.single
    · cases hp : c.packed
      · simp only [Bool.false_eq_true, if_false]
        exact ⟨_, _, hdr_of_fields (fields_multi (b := 0) (a := 0 :: le32 0) (r := 0 :: le32 (lits + 1)) (hf.trans hc)
          (rd8or32_long (by omega) _) (rdOff8_offL8 (by omega) tail))⟩
      · simp only [Bool.false_eq_true, if_false, if_true]
        have h3 := rdOff7_long (x := lits + 1) (by have := lim_packed hc hp; omega) tail
        rw [if_neg (by omega)] at h3
        have := fields_packed (fs := fs) (v := 128) (a := le32 0) (s := []) (tail := tail) (sc := 0)
          (sym := fs.sym) (hf.trans hc) (by rw [if_pos (by decide), rdU32_le32]) (by rw [if_pos (by decide)]; rfl) h3
        simp only [List.append_nil] at this
        rw [hdr_of_fields this]
        exact ⟨_, _, rfl⟩
    · simp only [if_true]
      rw [hdr_of_fields (fields_single (a := 0 :: le32 0) (r := 0 :: le32 (lits + 1)) (hf.trans hc)
        (rd8or32_long (by omega) _) (rdOff8_offL8 (by omega) tail))]
      exact ⟨_, _, rfl⟩

theorem fmtOKB (c : R8Cfg) : FmtOK c.fmt c.Enc 1 true c.lim where
  init := ⟨rfl, rfl⟩
  emit := c.emit_okB
  ends := c.ends_okB

theorem fmtOK (c : R8Cfg) : FmtOK c.fmt c.Enc 1 true (1073741824 + 16) := c.fmtOKB.mono c.le_lim

theorem emitT_ok (c : R8Cfg) : EmitOK c.emitT (hdr c.packed) c.Enc 1 true (1073741824 + 16) := c.emitT_okB.mono c.le_lim

theorem emitF_ok (c : R8Cfg) : EmitOK c.emitF (hdr c.packed) c.Enc 1 true (1073741824 + 16) := c.emitF_okB.mono c.le_lim

theorem toH_go {packed : Bool} {x : Fields} {r : List Byte} {lit : Nat} {sym : List Byte} {cnt : Option Nat} {fs' : R8St}
    {rest : List Byte} (h : toH packed x r = some (.go lit sym cnt fs' rest)) :
    rest = r ∧ sym = x.fs.sym ∧ fs' = x.fs := by
  unfold toH at h
  split at h
  · cases h
  · cases h
  · cases h; exact ⟨rfl, rfl, rfl⟩

theorem fields_dec {packed : Bool} {fs : R8St} (hd : Dec fs) {src r : List Byte} {x : Fields}
    (h : fields packed fs src = some (x, r)) : Dec x.fs := by
  unfold fields at h
  by_cases hs : fs.single = true
  · rw [if_pos hs] at h
    obtain ⟨sc, r1, h1, h⟩ := Parser.andThen_some h
    obtain ⟨o, r2, h2, h⟩ := Parser.andThen_some h
    cases h
    exact hd
  · rw [if_neg hs] at h
    by_cases hp : packed = true
    · rw [if_pos hp] at h
      obtain ⟨v, r1, h1, h⟩ := Parser.andThen_some h
      obtain ⟨sc, r2, h2, h⟩ := Parser.andThen_some h
      obtain ⟨sym, r3, h3, h⟩ := Parser.andThen_some h
      obtain ⟨o, r4, h4, h⟩ := Parser.andThen_some h
      cases h
      by_cases hv : v &&& 128 ≠ 0
      · rw [if_pos hv] at h3; cases h3; exact hd
      · rw [if_neg hv] at h3; exact takeN_len h3
    · rw [if_neg hp] at h
      obtain ⟨sym, r1, h1, h⟩ := Parser.andThen_some h
      obtain ⟨sc, r2, h2, h⟩ := Parser.andThen_some h
      obtain ⟨o, r3, h3, h⟩ := Parser.andThen_some h
      cases h
      exact takeN_len h1

theorem hdrOK (packed : Bool) : HdrOK (hdr packed) Dec 1 := by
  intro fs src lit sym cnt fs' rest hd h
  obtain ⟨⟨x, r⟩, h1, h2⟩ := Option.bind_eq_some_iff.mp h
  obtain ⟨_, rfl, rfl⟩ := toH_go h2
  have := fields_dec hd h1
  exact ⟨this, this⟩

theorem rd8or32_local : Parser.Local 1 rd8or32 :=
  Parser.Local.weaken (k := 1 + 0) (Parser.Local.u8.andThen fun b =>
    .ite (Parser.Local.u32.weaken (by omega)) (.ret _)) (by omega)

theorem rdOff8_local : Parser.Local 1 rdOff8 :=
  Parser.Local.weaken (k := 1 + 0) (rd8or32_local.andThen fun b => .ret _) (by omega)

theorem rdOff7_local : Parser.Local 1 rdOff7 := by
  intro src x r h
  unfold rdOff7 at h ⊢
  obtain ⟨⟨b, r1⟩, h1, h⟩ := Option.bind_eq_some_iff.mp h
  obtain ⟨g1, g2⟩ := Parser.Local.u8 _ _ _ h1
  simp only [g2, Option.bind_some]
  by_cases hb : b &&& 1 = 1
  · simp only [if_pos hb] at h ⊢
    obtain ⟨⟨y, r2⟩, h2, h⟩ := Option.map_eq_some_iff.mp h
    obtain ⟨k1, k2⟩ := Parser.Local.u32 _ _ _ h2
    simp only [Prod.mk.injEq] at h
    obtain ⟨rfl, rfl⟩ := h
    exact ⟨by omega, fun t => by rw [k2 t]; rfl⟩
  · simp only [if_neg hb] at h ⊢
    simp only [Option.some.injEq, Prod.mk.injEq] at h
    obtain ⟨rfl, rfl⟩ := h
    exact ⟨g1, fun t => rfl⟩

theorem fields_local (packed : Bool) (fs : R8St) : Parser.Local 1 (fields packed fs) := by
  unfold fields
  refine .ite ?_ (.ite ?_ ?_)
  · exact Parser.Local.weaken (k := 1 + (1 + 0)) (rd8or32_local.andThen fun _ => rdOff8_local.andThen fun _ => .ret _) (by omega)
  · refine Parser.Local.weaken (k := 1 + (0 + (0 + (1 + 0)))) (Parser.Local.u8.andThen fun v => ?_) (by omega)
    refine Parser.Local.andThen (.ite (Parser.Local.u32.weaken (by omega)) (.ret _)) fun sc => ?_
    refine Parser.Local.andThen (.ite (.ret _) ((Parser.Local.take 1).weaken (by omega))) fun sym => ?_
    exact rdOff7_local.andThen fun o => .ret _
  · exact Parser.Local.weaken (k := 1 + (1 + (1 + 0))) ((Parser.Local.take 1).andThen fun _ =>
      rd8or32_local.andThen fun _ => rdOff8_local.andThen fun _ => .ret _) (by omega)

theorem toH_local (packed : Bool) : Parser.MkLocal (toH packed) where
  app := by
    intro x r h t he
    unfold toH at he ⊢
    split at he <;> cases he <;> rfl
  go := by
    intro x r lit sym cnt fs' rest he
    exact (toH_go he).1

theorem hdrLocal (packed : Bool) : HdrLocal (hdr packed) := Parser.toHdr_local (fields_local packed) (toH_local packed)

theorem start_local : StartLocal Dec start := by
  intro src fs' r he
  unfold start at he ⊢
  cases h : rdU8 src with
  | none => rw [h] at he; cases he
  | some x =>
    obtain ⟨m, r1⟩ := x
    rw [h] at he
    obtain ⟨_, g2⟩ := Parser.Local.u8 _ _ _ h
    simp only [g2]
    by_cases h0 : m = 0
    · simp only [if_pos h0] at he ⊢
      cases he
      exact ⟨rfl, fun _ => rfl⟩
    · simp only [if_neg h0] at he ⊢
      by_cases h1 : m = 1
      · simp only [if_pos h1] at he ⊢
        obtain ⟨⟨s, r'⟩, k1, k2⟩ := Option.map_eq_some_iff.mp he
        simp only [Option.some.injEq, Prod.mk.injEq] at k2
        obtain ⟨rfl, rfl⟩ := k2
        exact ⟨takeN_len k1, fun t => by rw [(Parser.Local.take 1 _ _ _ k1).2 t]; rfl⟩
      · simp only [if_neg h1] at he
        cases he

theorem wrules (c : R8Cfg) (hc : c.single = true) (inp : Mem) (n : Nat) :
    WRules c.emit c.emitT c.emitF c.force c.short c.long 255 (c.first inp n) (pick inp n) where
  pos := by cases c with | mk s p => cases s <;> cases p <;> decide
  wide := Nat.le_refl _
  keep := by
    intro cnt lits bytes fs' he
    unfold emit at he
    simp only [first, hc, if_true] at he ⊢
    repeat' split at he
    all_goals first | cases he; done | (simp only [Option.some.injEq, Prod.mk.injEq] at he; exact he.2.symm)
  keepT := by
    intro cnt lits bytes fs' he
    unfold emitT at he
    simp only [first, hc, if_true] at he ⊢
    repeat' split at he
    all_goals first | cases he; done | (simp only [Option.some.injEq, Prod.mk.injEq] at he; exact he.2.symm)
  skip := by
    intro cnt lits h he
    unfold emit at he
    simp only [first, hc, if_true] at he
    rw [if_neg (by simp), if_neg (by simp <;> omega)] at he
    split at he
    · cases he
    · refine ⟨Nat.lt_of_not_le fun hl => ?_, by omega⟩
      rw [if_pos (Or.inl hl)] at he; cases he
  back := by
    intro cnt lits h1 h2 h3
    unfold emitF
    rw [if_pos]
    refine ⟨hc, by simp [first, hc], h1, ?_, h3⟩
    have : c.long ≤ 10 := by unfold long; rw [if_pos hc]; split <;> omega
    unfold stored; omega

theorem decV_ok (cpu : Cpu) : 0 < (decV cpu).copyW ∧ (decV cpu).copyW ≤ 64 ∧ (decV cpu).setK.ok 1 ∧
    (decV cpu).setK.width ≤ 112 := by
  unfold decV
  repeat' split
  all_goals simp [SetK.ok, SetK.width]

theorem cdc_ok (c : R8Cfg) : c.cdc.OK c.Enc Dec where
  sub := fun fs h => h.2
  extra := by
    intro e he
    simp only [cdc, List.mem_cons, List.not_mem_nil, or_false] at he
    rcases he with rfl | rfl
    · exact c.emitT_ok
    · exact c.emitF_ok
  pos := Nat.one_pos
  le := by show 1 ≤ 16; omega
  fmt := c.fmtOK
  emitEnd := c.emitT_ok
  hdr := hdrOK c.packed
  loc := hdrLocal c.packed
  decV := decV_ok
  scan := by
    intro cpu
    show ScanRun [c.emit, c.emitT, c.emitF] 1 true c.first (c.run cpu)
    rw [run_eq]
    cases hc : c.single
    · simp only [Bool.false_eq_true, if_false]
      have : c.first = fun _ _ => c.fmt.init := by funext inp n; simp [first, fmt, hc]
      rw [this]
      exact run8T_scan c.fmt c.emitT (by split <;> omega) (by simp [fmt]) (by simp)
    · simp only [if_true]
      exact runW_scan (emitF := c.emitF) (long := c.long) (by simp) (by simp) (by simp) (c.wrules hc)
  congr := by
    intro cpu
    show ScanCongr 1 (c.run cpu)
    rw [run_eq]
    cases hc : c.single
    · simp only [Bool.false_eq_true, if_false]
      exact run8T_congr c.fmt c.emitT (by split <;> omega)
    · simp only [if_true]
      exact runW_congr (emitF := c.emitF) (long := c.long) (c.wrules hc) fun inp inp' n hi =>
        ⟨pick_congr hi, by simp [first, hc, pick_congr hi]⟩
  first := by
    intro inp n
    show c.Enc (c.first inp n)
    unfold first
    cases hc : c.single
    · simp only [Bool.false_eq_true, if_false]; exact ⟨hc.symm, rfl⟩
    · simp only [if_true]; exact ⟨hc.symm, rfl⟩
  firstCongr := by
    intro inp inp' n hi
    show c.first inp n = c.first inp' n
    unfold first
    rw [pick_congr hi]
  start := by
    intro inp n tail
    show start (c.pre (c.first inp n) ++ tail) = some (some (c.first inp n, tail))
    unfold start pre first
    cases hc : c.single
    · simp [rdU8_cons]
    · simp [rdU8_cons, takeN]
  startLoc := start_local
  rel := fun cpu => HdrRel.refl _
  locV := fun cpu => hdrLocal c.packed

end R8Cfg

end Hrk
