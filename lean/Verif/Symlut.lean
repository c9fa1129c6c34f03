import Verif.Fill
import Verif.Parser
import Verif.Masks

/-
The codecs with a table of 3 or 7 recently used symbols
(rle8_3symlut, rle16_7symlut_byte, ...).
-/

namespace Hrk

/-- One of rle{8*S}_{N}symlut[_sym|_byte] (src/rleX_Xsl.h:1-106). For `S = 1` there is only
one codec; it counts bytes, so `unb` is `true` (`defined(UNBOUND) || TYPE_SIZE == 8`). -/
structure SlCfg where
  N : Nat
  S : Nat
  unb : Bool

namespace SlCfg

/-- The codecs that exist (src/rleX_Xsl.c). -/
def valid (c : SlCfg) : Prop := c.N ∈ [3, 7] ∧ c.S ∈ [1, 2, 3, 4, 6, 8] ∧ (c.S = 1 → c.unb = true)

instance (c : SlCfg) : Decidable c.valid := by unfold valid; infer_instance

/-- `RLE8_XSYMLUT_RANGE_BITS` (src/rleX_Xsl.h:4-14). -/
def RB (c : SlCfg) : Nat := if c.N = 3 then 7 else 6

/-- `RLE8_XSYMLUT_MAX_TINY_RANGE` (src/rleX_Xsl.h:8, 13). -/
def tinyR (c : SlCfg) : Nat := 1 <<< c.RB - 1

/-- `RLE8_XSYMLUT_MIN_RANGE_LONG` (src/rleX_Xsl.h:2). -/
def long (c : SlCfg) : Nat := 2 + 4 + 4 + c.S

/-- `storedCount` (src/rleX_Xsl.h:124-128), with `RLE8_XSYMLUT_MIN_RANGE_SHORT = 3` and
`RLE8_XSYMLUT_COUNT_VALUE_OFFSET = 2`. The subtraction stops at 0 where the code gets -1
(`count = 0`); nothing is emitted then. -/
def stored (c : SlCfg) (count : Nat) : Nat :=
  if c.unb then count + 2 - 3 else count / c.S + 2 - 3 / c.S

/-- Cost of the extension fields, with the limit as in the code (`0xFFFFF`; src/rleX_Xsl.h:130). -/
def pen (tiny x : Nat) : Nat := if x ≤ 0xFFFFF then (if x ≤ tiny then 0 else 2) else 4

/-- Emission test, table update and record header (src/rleX_Xsl.h:114-257). -/
def emit (c : SlCfg) : Emit Lut := fun lut sym count lits =>
  let idx := lut.find sym
  let range := lits + 2
  let sc := c.stored count
  let penalty := pen c.tinyR range + pen 127 sc + (if idx = c.N then 1 else 0)
  if count ≥ c.long ∨ count ≥ 3 + penalty then
    some (le16 (idx <<< (7 + c.RB) ||| tinyOf 127 sc <<< c.RB ||| tinyOf c.tinyR range) ++
        (if idx = c.N then sym else []) ++ extOf 127 sc ++ extOf c.tinyR range,
      lut.use idx sym)
  else none

/-- Terminator after a final run (src/rleX_Xsl.h:319-324, src/rleX_Xsl_multibyte_encoder.h). -/
def endRun (c : SlCfg) : List Byte := le16 (1 <<< c.RB ||| 1) ++ le16 0 ++ le16 0

/-- Terminator with final literals (src/rleX_Xsl.h:328-338, src/rleX_Xsl_multibyte_encoder.h). -/
def endLit (c : SlCfg) (lits : Nat) : List Byte := le16 (1 <<< c.RB) ++ le16 0 ++ le32 (lits + 2)

/-- What a record header holds: symbol, table, stored count, stored offset. `none`
for the offset: `return` (src/rleX_Xsl.h:744-745). -/
structure Fields where
  sym : List Byte
  lut : Lut
  sc : Nat
  off : Option Nat

/-- Decoder: the symbol (src/rleX_Xsl.h:594-685). -/
def rdSym (c : SlCfg) (lut : Lut) (idx : Nat) : Parser (List Byte) :=
  if idx = c.N then takeN c.S else Parser.ret (lut.getD idx [])

/-- Decoder: the offset (src/rleX_Xsl.h:734-746). -/
def rdOff (v : Nat) : Parser (Option Nat) :=
  (rdTiny v).andThen fun o => Parser.ret (if v = 1 ∧ o = 0 then none else some o)

/-- Decoder: the fields of a record header, in the order they are stored
(src/rleX_Xsl.h:582-746). -/
def fields (c : SlCfg) (lut : Lut) : Parser Fields :=
  Parser.andThen rdU16 fun v =>
  (c.rdSym lut (v >>> (7 + c.RB))).andThen fun sym =>
  (rdTiny (v >>> c.RB &&& 127)).andThen fun sc =>
  (rdOff (v &&& c.tinyR)).andThen fun off =>
  Parser.ret ⟨sym, lut.use (v >>> (7 + c.RB)) sym, sc, off⟩

/-- Decoder: `symbolCount` in bytes (src/rleX_Xsl.h:756-760). -/
def cntOf (c : SlCfg) (sc : Nat) : Nat :=
  if c.unb then sc + 1 else (sc + 3 / c.S - 2) * c.S

/-- Decoder: decisions after the fields are read (src/rleX_Xsl.h:744-760). A stored offset
below 2 wraps around. A stored count too small for the codec wraps around too and makes the
fill loop leave the buffer: `none`. -/
def toH (c : SlCfg) (x : Fields) (r : List Byte) : Option (Hdr Lut) :=
  match x.off with
  | none => some .ret
  | some o =>
    if o < 2 then some (.wrap (if x.sc = 0 then none else some (c.cntOf x.sc)) r)
    else if x.sc ≠ 0 ∧ c.unb = false ∧ x.sc + 3 / c.S < 2 then none
    else some (.go (o - 2) x.sym (if x.sc = 0 then none else some (c.cntOf x.sc)) x.lut r)

/-- Decoder: one record header (src/rleX_Xsl.h:582-760). -/
def hdr (c : SlCfg) : Lut → List Byte → Option (Hdr Lut) := Parser.toHdr c.fields c.toH

/-- The AVX-512 decoder also returns on a 32 bit offset of 0 (src/rleX_Xsl.h:1823-1824). -/
def toH512 (c : SlCfg) (x : Fields) (r : List Byte) : Option (Hdr Lut) :=
  if x.off = some 0 then some .ret else c.toH x r

/-- One record header of the AVX-512 decoder (src/rleX_Xsl.h:1676-1843). -/
def hdr512 (c : SlCfg) : Lut → List Byte → Option (Hdr Lut) := Parser.toHdr c.fields c.toH512

/-- Initial table (src/rleX_Xsl.h:279-287, src/rleX_Xsl_multibyte_encoder.h:31-39). -/
def init (c : SlCfg) : Lut :=
  ((if c.N = 3 then [0x00, 0x7F, 0xFF] else [0x00, 0x7F, 0xFF, 0x01, 0x7E, 0x80, 0xFE]) : List Byte).map
    (List.replicate c.S)

/-- Records and terminators of the stream (src/rleX_Xsl.h). -/
def fmt (c : SlCfg) : Fmt Lut where
  init := c.init
  emit := c.emit
  endRun := c.endRun
  endLit := c.endLit
  hdr := c.hdr

/-- 24 and 48 bit symbols (`SYMBOL_MASK`; src/rleX_Xsl.h:38-49). -/
def odd (c : SlCfg) : Bool := c.S == 3 || c.S == 6

/-- The multi byte encoder the dispatcher picks (src/rleX_Xsl.h:513-524). -/
def simd (c : SlCfg) (cpu : Cpu) : Simd :=
  if cpu.avx2 then .avx2
  else if c.odd && cpu.ssse3 then .ssse3
  else if cpu.sse2 then .sse2
  else .base

/-- The single byte encoder the dispatcher picks (src/rleX_Xsl.h:293-298). -/
def simd8 (_ : SlCfg) (cpu : Cpu) : Simd := if cpu.avx2 then .avx2 else .sse2

/-- Vector width of the encoder, 0 = `_compress_base` (src/rleX_Xsl.h:293-298, 513-524). -/
def encW (c : SlCfg) (cpu : Cpu) : Nat :=
  if c.S = 1 then (if cpu.avx2 then 32 else 16)
  else if cpu.avx2 then 32
  else if c.odd && cpu.ssse3 then 16
  else if cpu.sse2 then 16
  else 0

/-- Decoder the dispatcher picks (src/rleX_Xsl.h:1862-1878), with the copy and fill macros
of src/rleX_Xsl.h:67-89 and src/rleX_extreme_common.h:30-312, and the 24 and 48 bit fill
loops of src/rleX_Xsl.h:762-779 and its siblings. -/
def decV (c : SlCfg) (cpu : Cpu) : DecV :=
  if c.S = 1 then
    if cpu.avx512f then ⟨64, .aligned 64⟩
    else if cpu.avx2 then ⟨32, .aligned 32⟩
    else if cpu.avx then ⟨32, .aligned 32⟩
    else ⟨16, .aligned 16⟩
  else if c.odd then
    if cpu.avx2 then ⟨32, oddK .avx2 c.S⟩
    else if cpu.avx then ⟨32, oddK .ssse3 c.S⟩
    else if cpu.sse41 then ⟨16, oddK .ssse3 c.S⟩
    else if cpu.ssse3 then ⟨16, oddK .ssse3 c.S⟩
    else ⟨16, oddK .sse2 c.S⟩
  else
    if cpu.avx512f then ⟨32, oneK 64⟩
    else if cpu.avx2 then ⟨32, oneK 32⟩
    else if cpu.avx then ⟨32, oneK 32⟩
    else ⟨16, oneK 16⟩

/-- The header parser of that decoder (src/rleX_Xsl.h:1862-1878). -/
def hdrV (c : SlCfg) (cpu : Cpu) : Lut → List Byte → Option (Hdr Lut) :=
  if cpu.avx512f ∧ c.odd = false then c.hdr512 else c.hdr

/-- The codec (src/rleX_Xsl.h). -/
def cdc (c : SlCfg) : Cdc Lut where
  F := c.fmt
  emitEnd := c.emit
  S := c.S
  unb := c.unb
  run := fun cpu =>
    if c.S = 1 then run8TI c.fmt c.fmt.emit (c.simd8 cpu) else runXI c.fmt c.S (c.simd cpu) c.unb
  hdrV := c.hdrV
  decV := c.decV

/-- `rle8_{N}symlut_compress` (src/rleX_Xsl.h:269-346), `rle{8*S}_{N}symlut_{sym,byte}_compress`
(src/rleX_Xsl.h:508-525). -/
def compress (c : SlCfg) (cpu : Cpu) : Compress := c.cdc.compress cpu

/-- `rle{8*S}_{N}symlut[_sym|_byte]_decompress` (src/rleX_Xsl.h:1848-1881). -/
def decompress (c : SlCfg) (cpu : Cpu) : Decompress := c.cdc.decompress cpu

/-- The single byte scanner, without the vector instructions. -/
theorem run8I (c : SlCfg) (h1 : c.S = 1) (F : Fmt Lut) (cpu : Cpu) :
    run8TI F F.emit (c.simd8 cpu) = run8 F (c.encW cpu) := by
  unfold simd8 encW
  rw [if_pos h1]
  cases h : cpu.avx2
  · rw [if_neg (by simp), if_neg (by simp), run8TI_eq _ _ (Or.inl rfl)]; rfl
  · rw [if_pos rfl, if_pos rfl, run8TI_eq _ _ (Or.inr rfl)]; rfl

/-- The multi byte scanner, without the vector instructions. -/
theorem runI (c : SlCfg) (hS : c.S ∈ [1, 2, 3, 4, 6, 8]) (h1 : c.S ≠ 1) (F : Fmt Lut) (cpu : Cpu) :
    runXI F c.S (c.simd cpu) c.unb = runX F c.S (c.encW cpu) c.unb := by
  have hS : symSize c.S := by
    simpa [symSize, h1] using hS
  have : (c.simd cpu).width = c.encW cpu := by
    unfold simd encW
    rw [if_neg h1]
    (repeat' split) <;> rfl
  rw [runXI_eq F hS, this]

/-! ### Writer and parser are inverse -/

theorem valid_S (c : SlCfg) (h : c.valid) : 0 < c.S ∧ c.S ≤ 8 := by
  obtain ⟨_, h, _⟩ := h
  simp only [List.mem_cons, List.not_mem_nil, or_false] at h
  omega

theorem tinyR_eq (c : SlCfg) : c.tinyR = if c.N = 3 then 127 else 63 := by
  unfold tinyR RB; split <;> rfl

theorem pack (c : SlCfg) (hc : c.valid) {idx a b : Nat} (hi : idx ≤ c.N) (ha : a ≤ 127) (hb : b ≤ c.tinyR) :
    (idx <<< (7 + c.RB) ||| a <<< c.RB ||| b) < 65536 ∧
    (idx <<< (7 + c.RB) ||| a <<< c.RB ||| b) >>> (7 + c.RB) = idx ∧
    (idx <<< (7 + c.RB) ||| a <<< c.RB ||| b) >>> c.RB &&& 127 = a ∧
    (idx <<< (7 + c.RB) ||| a <<< c.RB ||| b) &&& c.tinyR = b := by
  obtain ⟨hN, _⟩ := hc
  rw [tinyR_eq] at hb ⊢
  unfold RB
  simp only [List.mem_cons, List.not_mem_nil, or_false] at hN
  rcases hN with h | h <;> simp only [h, if_true, if_false, Nat.reduceEqDiff, Nat.reduceAdd] at hb hi ⊢
  · have e : idx <<< 14 ||| a <<< 7 ||| b = idx * 16384 + a * 128 + b := by
      rw [← Nat.shiftLeft_add_eq_or_of_lt (by rw [Nat.shiftLeft_eq]; omega),
        show idx <<< 14 + a <<< 7 = (idx * 128 + a) <<< 7 by simp only [Nat.shiftLeft_eq]; omega,
        ← Nat.shiftLeft_add_eq_or_of_lt (by omega)]
      simp only [Nat.shiftLeft_eq]; omega
    rw [e]
    simp only [Nat.shiftRight_eq_div_pow, show (127 : Nat) = 2 ^ 7 - 1 by rfl, Nat.and_two_pow_sub_one_eq_mod]
    omega
  · have e : idx <<< 13 ||| a <<< 6 ||| b = idx * 8192 + a * 64 + b := by
      rw [← Nat.shiftLeft_add_eq_or_of_lt (by rw [Nat.shiftLeft_eq]; omega),
        show idx <<< 13 + a <<< 6 = (idx * 128 + a) <<< 6 by simp only [Nat.shiftLeft_eq]; omega,
        ← Nat.shiftLeft_add_eq_or_of_lt (by omega)]
      simp only [Nat.shiftLeft_eq]; omega
    rw [e]
    simp only [Nat.shiftRight_eq_div_pow, show (127 : Nat) = 2 ^ 7 - 1 by rfl,
      show (63 : Nat) = 2 ^ 6 - 1 by rfl, Nat.and_two_pow_sub_one_eq_mod]
    omega

theorem rdOff_ext {tiny x : Nat} (h1 : 2 ≤ x) (h2 : x < 4294967296) (tail : List Byte) :
    rdOff (tinyOf tiny x) (extOf tiny x ++ tail) = some (some x, tail) := by
  unfold rdOff
  rw [Parser.andThen_eq (rdTiny_ext h1 h2 tail), if_neg (by omega)]
  rfl

theorem rdSym_sym (c : SlCfg) {lut : Lut} (hl : Lut.ok c.N c.S lut) {sym : List Byte} (hs : sym.length = c.S)
    (tail : List Byte) :
    c.rdSym lut (lut.find sym) ((if lut.find sym = c.N then sym else []) ++ tail) = some (sym, tail) := by
  unfold rdSym
  by_cases h : lut.find sym = c.N
  · simp only [if_pos h]
    exact takeN_append _ _ hs
  · simp only [if_neg h, List.nil_append, Parser.ret_apply]
    rw [Lut.find_get]
    have := Lut.find_le hl sym
    rw [hl.1]; omega

theorem stored_ok (c : SlCfg) (hc : c.valid) {cnt : Nat} (h1 : 3 ≤ cnt) (hu : c.unb = true ∨ c.S ∣ cnt) :
    2 ≤ c.stored cnt ∧ c.stored cnt ≤ cnt + 2 ∧ c.cntOf (c.stored cnt) = cnt := by
  unfold stored cntOf
  cases h : c.unb
  · have hd : c.S ∣ cnt := by simpa [h] using hu
    have hS := c.valid_S hc
    have h3 : 3 / c.S ≤ cnt / c.S := Nat.div_le_div_right h1
    have h4 : cnt / c.S ≤ cnt := Nat.div_le_self _ _
    have h5 : cnt / c.S * c.S = cnt := Nat.div_mul_cancel hd
    have h6 : 1 ≤ cnt / c.S := Nat.div_pos (Nat.le_of_dvd (by omega) hd) hS.1
    simp only [Bool.false_eq_true, if_false]
    generalize 3 / c.S = x at *
    generalize cnt / c.S = y at *
    refine ⟨by omega, by omega, ?_⟩
    rw [show y + 2 - x + x - 2 = y by omega, h5]
  · simp only [if_true]
    omega

theorem hdr_of_fields (c : SlCfg) {lut : Lut} {src r : List Byte} {x : Fields} (h : c.fields lut src = some (x, r)) :
    c.hdr lut src = c.toH x r := by
  simp [hdr, Parser.toHdr, h]

theorem emit_pos (c : SlCfg) {lut lut' : Lut} {sym bytes : List Byte} {cnt lits : Nat}
    (h : c.emit lut sym cnt lits = some (bytes, lut')) : 3 ≤ cnt ∧ lut' = lut.use (lut.find sym) sym ∧
    bytes = le16 (lut.find sym <<< (7 + c.RB) ||| tinyOf 127 (c.stored cnt) <<< c.RB ||| tinyOf c.tinyR (lits + 2)) ++
        (if lut.find sym = c.N then sym else []) ++ extOf 127 (c.stored cnt) ++ extOf c.tinyR (lits + 2) ∧
    (cnt ≥ c.long ∨ cnt ≥ 3 + (pen c.tinyR (lits + 2) + pen 127 (c.stored cnt) + (if lut.find sym = c.N then 1 else 0))) := by
  simp only [emit] at h
  by_cases hh : cnt ≥ c.long ∨ cnt ≥ 3 + (pen c.tinyR (lits + 2) + pen 127 (c.stored cnt) + (if lut.find sym = c.N then 1 else 0))
  · rw [if_pos hh] at h
    simp only [Option.some.injEq, Prod.mk.injEq] at h
    obtain ⟨rfl, rfl⟩ := h
    refine ⟨?_, rfl, rfl, hh⟩
    rcases hh with hh | hh
    · unfold long at hh; omega
    · omega
  · rw [if_neg hh] at h
    cases h

theorem init_ok (c : SlCfg) (hc : c.valid) : Lut.ok c.N c.S c.init := by
  obtain ⟨hN, _⟩ := hc
  simp only [List.mem_cons, List.not_mem_nil, or_false] at hN
  unfold init
  rcases hN with h | h
  · rw [h]; simp [Lut.ok]
  · rw [h]; simp [Lut.ok]

theorem use_ok (c : SlCfg) (hc : c.valid) {lut : Lut} (h : Lut.ok c.N c.S lut) {idx : Nat} {sym : List Byte}
    (hs : sym.length = c.S) : Lut.ok c.N c.S (lut.use idx sym) := by
  rcases Lut.use_ok h (idx := idx) hs with h' | h'
  · exact h'
  · obtain ⟨hN, _⟩ := hc
    simp only [List.mem_cons, List.not_mem_nil, or_false] at hN
    have := h.1
    rw [h'] at this
    simp at this
    omega

theorem fields_emit (c : SlCfg) (hc : c.valid) {lut : Lut} (hl : Lut.ok c.N c.S lut) {sym : List Byte}
    (hs : sym.length = c.S) {sc range : Nat} (h1 : 2 ≤ sc) (h2 : sc < 4294967296) (h3 : 2 ≤ range)
    (h4 : range < 4294967296) (tail : List Byte) :
    c.fields lut (le16 (lut.find sym <<< (7 + c.RB) ||| tinyOf 127 sc <<< c.RB ||| tinyOf c.tinyR range) ++
      (if lut.find sym = c.N then sym else []) ++ extOf 127 sc ++ extOf c.tinyR range ++ tail)
      = some (⟨sym, lut.use (lut.find sym) sym, sc, some range⟩, tail) := by
  obtain ⟨p1, p2, p3, p4⟩ := c.pack hc (idx := lut.find sym) (a := tinyOf 127 sc) (b := tinyOf c.tinyR range)
    (Lut.find_le hl sym) (tinyOf_le (by omega)) (tinyOf_le (by rw [tinyR_eq]; split <;> omega))
  unfold fields
  simp only [List.append_assoc]
  rw [Parser.andThen_eq (rdU16_le16 _ _), Nat.mod_eq_of_lt p1]
  simp only [p2, p3, p4]
  rw [Parser.andThen_eq (c.rdSym_sym hl hs _), Parser.andThen_eq (rdTiny_ext h1 h2 _),
    Parser.andThen_eq (rdOff_ext h3 h4 _)]
  rfl

theorem fmtOKB (c : SlCfg) (hc : c.valid) : FmtOK c.fmt (Lut.ok c.N c.S) c.S c.unb 4294967280 where
  init := c.init_ok hc
  emit := by
    intro lut sym cnt lits bytes lut' hl hs hu hB he
    obtain ⟨h3, rfl, rfl, _⟩ := c.emit_pos he
    obtain ⟨g1, g2, g3⟩ := c.stored_ok hc h3 hu
    refine ⟨c.use_ok hc hl hs, by simp <;> omega, ?_⟩
    intro tail
    have := c.fields_emit hc hl hs (sc := c.stored cnt) (range := lits + 2) g1 (by omega) (by omega) (by omega) tail
    show c.hdr _ _ = _
    rw [c.hdr_of_fields this]
    simp only [toH]
    rw [if_neg (by omega), if_neg (by generalize 3 / c.S = q; omega), if_neg (by omega), g3]
    rfl
  ends := by
    obtain ⟨p1, p2, p3, p4⟩ := c.pack hc (idx := 0) (a := 1) (b := 1) (by omega) (by omega)
      (by rw [tinyR_eq]; split <;> omega)
    obtain ⟨q1, q2, q3, q4⟩ := c.pack hc (idx := 0) (a := 1) (b := 0) (by omega) (by omega) (by omega)
    simp only [Nat.zero_shiftLeft, Nat.zero_or, Nat.or_zero] at p1 p2 p3 p4 q1 q2 q3 q4
    have hN : c.N ≠ 0 := by
      obtain ⟨hN, _⟩ := hc
      simp only [List.mem_cons, List.not_mem_nil, or_false] at hN
      omega
    refine ⟨?_, ?_⟩
    · intro lut tail hl
      left
      have : c.fields lut (c.endRun ++ tail) = some (⟨lut.getD 0 [], lut, 0, none⟩, tail) := by
        unfold fields endRun
        simp only [List.append_assoc]
        rw [Parser.andThen_eq (rdU16_le16 _ _), Nat.mod_eq_of_lt p1]
        simp only [p2, p3, p4, rdSym, if_neg hN.symm]
        rw [Parser.andThen_eq (Parser.ret_apply _ _)]
        rw [Parser.andThen_eq (x := 0) (r := le16 0 ++ tail) (by simp [rdTiny])]
        rw [Parser.andThen_eq (x := none) (r := tail)
          (by unfold rdOff; rw [Parser.andThen_eq (x := 0) (r := tail) (by simp [rdTiny])]; simp)]
        simp [Lut.use]
      show c.hdr lut (c.endRun ++ tail) = _
      rw [c.hdr_of_fields this]
      rfl
    · intro lut lits tail hl hB
      have : c.fields lut (c.endLit lits ++ tail) = some (⟨lut.getD 0 [], lut, 0, some (lits + 2)⟩, tail) := by
        unfold fields endLit
        simp only [List.append_assoc]
        rw [Parser.andThen_eq (rdU16_le16 _ _), Nat.mod_eq_of_lt q1]
        simp only [q2, q3, q4, rdSym, if_neg hN.symm]
        rw [Parser.andThen_eq (Parser.ret_apply _ _)]
        rw [Parser.andThen_eq (x := 0) (r := le32 (lits + 2) ++ tail) (by simp [rdTiny])]
        rw [Parser.andThen_eq (x := some (lits + 2)) (r := tail)
          (by unfold rdOff; rw [Parser.andThen_eq (x := lits + 2) (r := tail)
                (by simp only [rdTiny, if_true]; rw [rdU32_le32, Nat.mod_eq_of_lt (by omega)])]; simp)]
        simp [Lut.use]
      refine ⟨lut.getD 0 [], lut, ?_⟩
      show c.hdr lut (c.endLit lits ++ tail) = _
      rw [c.hdr_of_fields this]
      simp only [toH]
      rw [if_neg (by omega), if_neg (by simp)]
      simp

theorem fmtOK (c : SlCfg) (hc : c.valid) : FmtOK c.fmt (Lut.ok c.N c.S) c.S c.unb (1073741824 + 16) :=
  (c.fmtOKB hc).mono (by decide)

theorem fields_spec (c : SlCfg) (hc : c.valid) {lut : Lut} (hl : Lut.ok c.N c.S lut) {src r : List Byte} {x : Fields}
    (h : c.fields lut src = some (x, r)) : x.sym.length = c.S ∧ Lut.ok c.N c.S x.lut := by
  obtain ⟨v, r1, h1, h⟩ := Parser.andThen_some h
  obtain ⟨sym, r2, h2, h⟩ := Parser.andThen_some h
  obtain ⟨sc, r3, h3, h⟩ := Parser.andThen_some h
  obtain ⟨off, r4, h4, h⟩ := Parser.andThen_some h
  cases h
  have hv : v < 65536 := by
    match src, h1 with
    | a :: b :: r', h => simp [rdU16] at h; have := a.toNat_lt; have := b.toNat_lt; omega
  have hs : sym.length = c.S := by
    unfold rdSym at h2
    split at h2
    · exact takeN_len h2
    · next hne =>
      cases h2
      have hi : v >>> (7 + c.RB) < lut.length := by
        rw [hl.1]
        obtain ⟨hN, _⟩ := hc
        simp only [List.mem_cons, List.not_mem_nil, or_false] at hN
        unfold RB at hne ⊢
        rw [Nat.shiftRight_eq_div_pow] at hne ⊢
        rcases hN with h | h <;> simp only [h] at hne ⊢ <;> simp at hne ⊢ <;> omega
      rw [List.getD, List.getElem?_eq_getElem hi]
      exact hl.2 _ (List.getElem_mem hi)
  exact ⟨hs, c.use_ok hc hl hs⟩

theorem toH_go {c : SlCfg} {x : Fields} {r : List Byte} {lit : Nat} {sym : List Byte} {cnt : Option Nat} {fs' : Lut}
    {rest : List Byte} (h : c.toH x r = some (.go lit sym cnt fs' rest)) : rest = r ∧ sym = x.sym ∧ fs' = x.lut := by
  unfold toH at h
  split at h
  · cases h
  · split at h
    · cases h
    · split at h
      · cases h
      · cases h; exact ⟨rfl, rfl, rfl⟩

theorem hdrOK (c : SlCfg) (hc : c.valid) : HdrOK c.hdr (Lut.ok c.N c.S) c.S := by
  intro lut src lit sym cnt lut' rest hl h
  obtain ⟨⟨x, r⟩, h1, h2⟩ := Option.bind_eq_some_iff.mp h
  obtain ⟨_, rfl, rfl⟩ := toH_go h2
  exact c.fields_spec hc hl h1

theorem fields_local (c : SlCfg) (lut : Lut) : Parser.Local 1 (c.fields lut) := by
  refine Parser.Local.weaken (k := 2 + 0) (Parser.Local.u16.andThen fun v => ?_) (by omega)
  refine Parser.Local.andThen (k := 0) (l := 0) ?_ fun sym => ?_
  · unfold rdSym
    exact .ite ((Parser.Local.take _).weaken (by omega)) (.ret _)
  refine Parser.Local.andThen (k := 0) (l := 0) (rdTiny_local _) fun sc => ?_
  refine Parser.Local.andThen (k := 0) (l := 0) ?_ fun off => .ret _
  exact Parser.Local.andThen (k := 0) (l := 0) (rdTiny_local _) fun o => .ret _

theorem toH_local (c : SlCfg) : Parser.MkLocal c.toH where
  app := by
    intro x r h t he
    unfold toH at he ⊢
    split at he
    · cases he; rfl
    · split at he
      · next hn =>
        cases he
        rw [if_pos hn]; rfl
      · next hn =>
        rw [if_neg hn]
        split at he
        · cases he
        · next hn =>
          cases he
          rw [if_neg hn]; rfl
  go := fun _ _ _ _ _ _ _ h => (toH_go h).1

theorem toH512_local (c : SlCfg) : Parser.MkLocal c.toH512 where
  app := by
    intro x r h t he
    unfold toH512 at he ⊢
    by_cases h0 : x.off = some 0
    · rw [if_pos h0] at he ⊢
      cases he; rfl
    · rw [if_neg h0] at he ⊢
      exact c.toH_local.app _ _ _ _ he
  go := by
    intro x r lit sym cnt fs' rest h
    unfold toH512 at h
    split at h
    · cases h
    · exact (toH_go h).1

theorem hdrLocal (c : SlCfg) : HdrLocal c.hdr := Parser.toHdr_local c.fields_local c.toH_local

theorem rel512 (c : SlCfg) : HdrRel c.hdr c.hdr512 := by
  intro lut src
  unfold hdr hdr512 Parser.toHdr
  cases h : c.fields lut src with
  | none => exact Or.inl rfl
  | some x =>
    simp only [Option.bind_some, toH512]
    by_cases h0 : x.1.off = some 0
    · right
      rw [if_pos h0]
      simp [toH, h0]
    · left
      rw [if_neg h0]

theorem hdrLocal512 (c : SlCfg) : HdrLocal c.hdr512 := Parser.toHdr_local c.fields_local c.toH512_local

theorem encW_ok (c : SlCfg) (hc : c.valid) (cpu : Cpu) : c.encW cpu = 0 ∨ c.S < c.encW cpu := by
  have hS := c.valid_S hc
  unfold encW
  repeat' split
  all_goals omega

theorem encW1 (c : SlCfg) (h : c.S = 1) (cpu : Cpu) : 2 ≤ c.encW cpu := by
  unfold encW
  rw [if_pos h]
  split <;> omega

theorem decV_ok : ∀ S ∈ [1, 2, 3, 4, 6, 8], ∀ a b c d e f : Bool, ∀ N unb,
    0 < (decV ⟨N, S, unb⟩ ⟨a, b, c, d, e, f⟩).copyW ∧ (decV ⟨N, S, unb⟩ ⟨a, b, c, d, e, f⟩).copyW ≤ 64 ∧
    (decV ⟨N, S, unb⟩ ⟨a, b, c, d, e, f⟩).setK.ok S ∧ (decV ⟨N, S, unb⟩ ⟨a, b, c, d, e, f⟩).setK.width ≤ 112 := by
  intro S hS a b c d e f N unb
  simp only [List.mem_cons, List.not_mem_nil, or_false] at hS
  rcases hS with rfl | rfl | rfl | rfl | rfl | rfl <;> cases b <;> cases c <;> cases d <;> cases e <;> cases f <;>
    simp [decV, odd, oddK_ok, oddK_width, oneK_ok, oneK_width, alignedK_ok, alignedK_width]

theorem cdc_ok (c : SlCfg) (hc : c.valid) : c.cdc.OK (Lut.ok c.N c.S) where
  pos := (c.valid_S hc).1
  le := by have := (c.valid_S hc).2; show c.S ≤ 16; omega
  fmt := c.fmtOK hc
  emitEnd := (c.fmtOK hc).emit
  hdr := c.hdrOK hc
  loc := c.hdrLocal
  decV := fun cpu => decV_ok c.S hc.2.1 _ _ _ _ _ _ _ _
  scan := by
    intro cpu
    simp only [cdc]
    by_cases h : c.S = 1
    · rw [if_pos h, c.run8I h, h]
      exact run8_scan _ (c.encW1 h cpu)
    · rw [if_neg h, c.runI hc.2.1 h]
      exact runX_scan _ (c.valid_S hc).1 (c.encW_ok hc cpu)
  congr := by
    intro cpu
    simp only [cdc]
    by_cases h : c.S = 1
    · rw [if_pos h, c.run8I h, h]
      exact run8_congr _ (c.encW1 h cpu)
    · rw [if_neg h, c.runI hc.2.1 h]
      exact runX_congr _ (c.valid_S hc).1 (c.encW_ok hc cpu)
  first := fun _ _ => c.init_ok hc
  firstCongr := fun _ _ _ _ => rfl
  start := fun _ _ _ => rfl
  startLoc := Cdc.startId (c.init_ok hc)
  rel := by
    intro cpu
    show HdrRel c.hdr (c.hdrV cpu)
    unfold hdrV
    split
    · exact c.rel512
    · exact HdrRel.refl _
  locV := by
    intro cpu
    show HdrLocal (c.hdrV cpu)
    unfold hdrV
    split
    · exact c.hdrLocal512
    · exact c.hdrLocal

end SlCfg

end Hrk
