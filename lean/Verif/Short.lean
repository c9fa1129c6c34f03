import Verif.Symlut
import Verif.Greedy

/-
The codecs with one byte record headers (rle8_multi_short, rle8_single_short,
rle16_3symlut_byte_short, ...), including their greedy encoders.
-/

namespace Hrk

/-- How the encoder looks for runs: `process`ing every repeated symbol, only one
symbol (`SINGLE`), or `compress_greedy` (src/rleX_Xsl_short.h:426-437, 746). -/
inductive ShMode where
  | normal | single | greedy
  deriving DecidableEq, Repr

/-- One of rle{8*S}_[{N}symlut_]{sym,byte}_short, rle8_multi_short, rle8_single_short
(src/rleX_Xsl_short.h:1-66). For `S = 1` the codec counts bytes, so `unb` is `true`
(`defined(UNBOUND) || TYPE_SIZE == 8`). -/
structure ShCfg where
  N : Nat
  S : Nat
  unb : Bool
  mode : ShMode

namespace ShCfg

/-- The codecs that exist (src/rleX_Xsl_short.c, src/rle.h:202-416). -/
def valid (c : ShCfg) : Prop := c.N ∈ [0, 1, 3, 7] ∧ c.S ∈ [1, 2, 3, 4, 6, 8] ∧ (c.S = 1 → c.unb = true) ∧
  (c.mode = .single → c.N = 0 ∧ c.S = 1) ∧ (c.mode = .greedy → 0 < c.N ∧ 2 ≤ c.S ∧ c.unb = true)

instance (c : ShCfg) : Decidable c.valid := by unfold valid; infer_instance

/-- `RLE8_XSYMLUT_SHORT_MIN_RANGE_SHORT` (src/rleX_Xsl_short.h:2, 9). -/
def minR (c : ShCfg) : Nat := if c.N ≠ 0 ∨ c.mode = .single then 2 else 1 + c.S + 1

/-- `RLE8_XSYMLUT_SHORT_MIN_RANGE_LONG` (src/rleX_Xsl_short.h:4, 6, 10). -/
def long (c : ShCfg) : Nat :=
  if c.N ≠ 0 then 3 + 4 + 4 + c.S else if c.mode = .single then 3 + 4 + 4 else 3 + 4 + 4 + c.S + 1

/-- `RLE8_XSYMLUT_SHORT_COUNT_BITS_PACKED` (src/rleX_Xsl_short.h:13-25). -/
def CB (c : ShCfg) : Nat := if c.N = 3 then 3 else if c.N = 1 then 3 else if c.N = 0 then 4 else 2

/-- `RLE8_XSYMLUT_SHORT_RANGE_BITS_PACKED` (src/rleX_Xsl_short.h:27). -/
def RP (c : ShCfg) : Nat :=
  8 - (if c.N = 3 then 2 else if c.N = 1 then 1 else if c.N = 0 then 0 else 3) - c.CB

/-- `RLE8_XSYMLUT_SHORT_RANGE_BITS - 8` (src/rleX_Xsl_short.h:31-37). -/
def RX (c : ShCfg) : Nat :=
  (if c.N ≠ 7 then 24 - (if c.N = 3 then 2 else if c.N = 1 then 1 else if c.N = 0 then 0 else 3) - c.CB - 9
   else 24 - 3 - c.RP - 9) - 8

/-- `RLE8_XSYMLUT_SHORT_MAX_PACKED_RANGE` (src/rleX_Xsl_short.h:28). -/
def maxPR (c : ShCfg) : Nat := 1 <<< c.RP - 1

/-- `RLE8_XSYMLUT_SHORT_PACKED_COUNT_INVALID` (src/rleX_Xsl_short.h:30); one more than
`RLE8_XSYMLUT_SHORT_MAX_PACKED_COUNT`. -/
def inval (c : ShCfg) : Nat := 1 <<< c.CB - 1

/-- `RLE8_XSYMLUT_SHORT_MAX_TINY_RANGE` (src/rleX_Xsl_short.h:40). -/
def tinyR (c : ShCfg) : Nat := 1 <<< (c.RX + 8) - 1

/-- `storedCount` (src/rleX_Xsl_short.h:171-175), with a value offset of 2. The subtraction
stops at 0 where the code gets a negative value; nothing is emitted then. -/
def stored (c : ShCfg) (count : Nat) : Nat :=
  if c.unb then count + 2 - c.minR else count / c.S + 2 - c.minR / c.S

/-- `isSingleValuePack` (src/rleX_Xsl_short.h:180-183). `count3` is unsigned, so a count
below the minimum fails the test. -/
def packs (c : ShCfg) (sc lits : Nat) : Bool := lits ≤ c.maxPR && (2 ≤ sc && sc - 2 ≤ c.inval - 1)

/-- `penalty` (src/rleX_Xsl_short.h:184-198). -/
def penalty (c : ShCfg) (idx sc lits : Nat) : Nat :=
  (if c.N ≠ 0 ∧ idx = c.N then c.S else 0) +
  (if c.packs sc lits then 0
   else 2 + (if sc ≤ 511 ∧ lits + 2 ≤ c.tinyR then 0 else SlCfg.pen c.tinyR (lits + 2) + SlCfg.pen 511 sc))

/-- Is the symbol stored (src/rleX_Xsl_short.h:350-358)? -/
def news (c : ShCfg) (idx : Nat) : Bool := c.mode != .single && idx == c.N

/-- The value bytes of a record header (src/rleX_Xsl_short.h:266-348). -/
def pack (c : ShCfg) (idx sc lits : Nat) : List Byte :=
  if c.packs sc lits then [b8 (idx <<< (c.CB + c.RP) ||| (sc - 2) <<< c.RP ||| lits)]
  else
    [b8 (idx <<< (c.CB + c.RP) ||| c.inval <<< c.RP ||| (tinyOf 511 sc <<< c.RX) >>> 8),
     b8 (tinyOf 511 sc <<< c.RX ||| tinyOf c.tinyR (lits + 2) >>> 8),
     b8 (tinyOf c.tinyR (lits + 2))] ++ extOf 511 sc ++ extOf c.tinyR (lits + 2)

/-- `process_symbol`: emission test, table update and record header
(src/rleX_Xsl_short.h:156-372). The table is empty for `SYMBOL_COUNT == 0` and holds the one
symbol of a `SINGLE` codec, whose encoder never calls this with another one. -/
def emit (c : ShCfg) : Emit Lut := fun lut sym count lits =>
  if c.mode = .single ∧ lut ≠ [sym] then none
  else if count ≥ c.long ∨ count ≥ c.minR + c.penalty (lut.find sym) (c.stored count) lits then
    some (c.pack (lut.find sym) (c.stored count) lits ++ (if c.news (lut.find sym) then sym else []),
      lut.use (lut.find sym) sym)
  else none

/-- Terminator after a final run (src/rleX_Xsl_short.h:462-484, 995-1017,
src/rleX_Xsl_short_multibyte_encoder.h:351-373). -/
def endRun (c : ShCfg) : List Byte :=
  [b8 (c.inval <<< c.RP), b8 (1 <<< c.RX), 1] ++ le16 0 ++ le16 0 ++ (if c.news 0 then [0] else [])

/-- Terminator with final literals (src/rleX_Xsl_short.h:490-512, 1023-1045,
src/rleX_Xsl_short_multibyte_encoder.h:379-401). -/
def endLit (c : ShCfg) (lits : Nat) : List Byte :=
  [b8 (c.inval <<< c.RP), b8 (1 <<< c.RX), 0] ++ le16 0 ++ le32 (lits + 2) ++
    (if c.news 0 then List.replicate c.S 0 else [])

/-- Decoder: stored count and offset behind the first byte `v` (src/rleX_Xsl_short.h:1264-1311).
`none` for the offset: `return`. -/
def rdCO (c : ShCfg) (v : Nat) : Parser (Nat × Option Nat) :=
  if v >>> c.RP &&& c.inval = c.inval then
    Parser.andThen rdU8 fun p2 =>
    Parser.andThen rdU8 fun p3 =>
    (rdTiny (p2 >>> c.RX ||| (v &&& c.maxPR) <<< (8 - c.RX))).andThen fun sc =>
    (SlCfg.rdOff (p3 ||| (p2 &&& (1 <<< c.RX - 1)) <<< 8)).andThen fun off =>
    Parser.ret (sc, off)
  else Parser.ret ((v >>> c.RP &&& c.inval) + 2, some ((v &&& c.maxPR) + 2))

/-- Decoder: the symbol (src/rleX_Xsl_short.h:1313-1387). -/
def rdSym (c : ShCfg) (lut : Lut) (idx : Nat) : Parser (List Byte) :=
  if c.news idx then takeN c.S else Parser.ret (lut.getD idx [])

/-- Decoder: the fields of a record header, in the order they are stored
(src/rleX_Xsl_short.h:1257-1387). -/
def fields (c : ShCfg) (lut : Lut) : Parser SlCfg.Fields :=
  Parser.andThen rdU8 fun v =>
  (c.rdCO v).andThen fun co =>
  if co.2 = none then Parser.ret ⟨[], lut, co.1, none⟩
  else
    (c.rdSym lut (v >>> (c.CB + c.RP))).andThen fun sym =>
    Parser.ret ⟨sym, lut.use (v >>> (c.CB + c.RP)) sym, co.1, co.2⟩

/-- Decoder: `symbolCount` in bytes (src/rleX_Xsl_short.h:1435-1439). -/
def cntOf (c : ShCfg) (sc : Nat) : Nat :=
  if c.unb then sc + (c.minR - 2) else (sc + c.minR / c.S - 2) * c.S

/-- Decoder: decisions after the fields are read (src/rleX_Xsl_short.h:1427-1439). A stored
offset below 2 wraps around. A stored count too small for the codec wraps around too and
makes the fill loop leave the buffer: `none`. -/
def toH (c : ShCfg) (x : SlCfg.Fields) (r : List Byte) : Option (Hdr Lut) :=
  match x.off with
  | none => some .ret
  | some o =>
    if o < 2 then some (.wrap (if x.sc = 0 then none else some (c.cntOf x.sc)) r)
    else if x.sc ≠ 0 ∧ c.unb = false ∧ x.sc + c.minR / c.S < 2 then none
    else some (.go (o - 2) x.sym (if x.sc = 0 then none else some (c.cntOf x.sc)) x.lut r)

/-- Decoder: one record header (src/rleX_Xsl_short.h:1257-1439). -/
def hdr (c : ShCfg) : Lut → List Byte → Option (Hdr Lut) := Parser.toHdr c.fields c.toH

/-- Initial table (src/rleX_Xsl_short.h:392-406, 759-773;
src/rleX_Xsl_short_multibyte_encoder.h:31-45). For `SINGLE` see `first`. -/
def init (c : ShCfg) : Lut :=
  if c.mode = .single then [[0]]
  else ((if c.N = 7 then [0x00, 0x7F, 0xFF, 0x01, 0x7E, 0x80, 0xFE] else if c.N = 3 then [0x00, 0x7F, 0xFF]
    else if c.N = 1 then [0x00] else []) : List Byte).map (List.replicate c.S)

/-- Records and terminators of the stream (src/rleX_Xsl_short.h). -/
def fmt (c : ShCfg) : Fmt Lut where
  init := c.init
  emit := c.emit
  endRun := c.endRun
  endLit := c.endLit
  hdr := c.hdr

/-- The state the encoder starts with: the picked symbol for `SINGLE`
(src/rleX_Xsl_short.h:418). -/
def first (c : ShCfg) (inp : Mem) (n : Nat) : Lut := if c.mode = .single then [[pick inp n]] else c.init

/-- What is stored in front of the first record: the symbol of a `SINGLE` codec
(src/rleX_Xsl_short.h:420-421). -/
def pre (c : ShCfg) (lut : Lut) : List Byte := if c.mode = .single then lut.getD 0 [] else []

/-- The decoder reads it back (src/rleX_Xsl_short.h:1203-1204). -/
def start (c : ShCfg) (src : List Byte) : Option (Option (Lut × List Byte)) :=
  if c.mode = .single then (takeN 1 src).map fun x => some ([x.1], x.2) else some (some (c.init, src))

/-- Number of symbols in the table (src/rleX_Xsl_short.h:130-135). -/
def tab (c : ShCfg) : Nat := if c.mode = .single then 1 else c.N

/-- The scanner the dispatcher picks (src/rleX_Xsl_short.h:426-437, 690-701, 746). Vector
widths as for `SlCfg.encW`. -/
def run (c : ShCfg) (cpu : Cpu) : Mem → Nat → Option (ES Lut) :=
  match c.mode with
  | .single => runS8I c.fmt c.first c.minR pick
  | .greedy => runGI c.fmt c.S
  | .normal =>
    if c.S = 1 then run8TI c.fmt c.fmt.emit (SlCfg.simd8 ⟨c.N, c.S, c.unb⟩ cpu)
    else runXI c.fmt c.S (SlCfg.simd ⟨c.N, c.S, c.unb⟩ cpu) c.unb

/-- Decoder the dispatcher picks (src/rleX_Xsl_short.h:2629-2645): same copy and fill macros
as `SlCfg.decV` (src/rleX_Xsl_short.h:102-124). -/
def cdc (c : ShCfg) : Cdc Lut where
  F := c.fmt
  emitEnd := c.emit
  S := c.S
  unb := c.unb
  first := c.first
  pre := c.pre
  start := c.start
  run := c.run
  decV := SlCfg.decV ⟨c.N, c.S, c.unb⟩

/-- `rle8_..._short_compress` (src/rleX_Xsl_short.h:381-523), `rle{8*S}_..._short_compress`
(src/rleX_Xsl_short.h:685-702), `rle{8*S}_..._short_compress_greedy` (src/rleX_Xsl_short.h:746-1054). -/
def compress (c : ShCfg) (cpu : Cpu) : Compress := c.cdc.compress cpu

/-- `rle{8*S}_..._short_decompress` (src/rleX_Xsl_short.h:2611-2648). -/
def decompress (c : ShCfg) (cpu : Cpu) : Decompress := c.cdc.decompress cpu

/-! ### Writer and parser are inverse -/

theorem valid_S (c : ShCfg) (h : c.valid) : 0 < c.S ∧ c.S ≤ 8 := by
  obtain ⟨_, h, _⟩ := h
  simp only [List.mem_cons, List.not_mem_nil, or_false] at h
  omega

theorem or_add {a b k : Nat} (h : b < 2 ^ k) : a <<< k ||| b = a * 2 ^ k + b := by
  rw [← Nat.shiftLeft_add_eq_or_of_lt h, Nat.shiftLeft_eq]

/-- The first byte. -/
theorem pack1 (c : ShCfg) (hc : c.valid) {idx a b : Nat} (hi : idx ≤ c.N) (ha : a ≤ c.inval) (hb : b ≤ c.maxPR) :
    (b8 (idx <<< (c.CB + c.RP) ||| a <<< c.RP ||| b)).toNat >>> (c.CB + c.RP) = idx ∧
    (b8 (idx <<< (c.CB + c.RP) ||| a <<< c.RP ||| b)).toNat >>> c.RP &&& c.inval = a ∧
    (b8 (idx <<< (c.CB + c.RP) ||| a <<< c.RP ||| b)).toNat &&& c.maxPR = b := by
  obtain ⟨hN, _⟩ := hc
  unfold maxPR inval at *
  have key : ∀ C R, b < 2 ^ R → a < 2 ^ C → idx * 2 ^ (C + R) + 2 ^ (C + R) ≤ 256 →
      (b8 (idx <<< (C + R) ||| a <<< R ||| b)).toNat = idx * 2 ^ (C + R) + a * 2 ^ R + b := by
    intro C R h1 h2 h3
    have e : idx <<< (C + R) ||| a <<< R = (idx * 2 ^ C + a) <<< R := by
      rw [show idx <<< (C + R) = (idx <<< C) <<< R by rw [← Nat.shiftLeft_add], ← Nat.shiftLeft_or_distrib, or_add h2]
    have h4 : a * 2 ^ R + b < 2 ^ (C + R) := by
      rw [Nat.pow_add]
      have : (a + 1) * 2 ^ R ≤ 2 ^ C * 2 ^ R := Nat.mul_le_mul_right _ (by omega)
      rw [Nat.add_mul] at this; omega
    rw [e, or_add h1, b8_toNat, Nat.add_mul, Nat.mul_assoc, ← Nat.pow_add]
    exact Nat.mod_eq_of_lt (by omega)
  simp only [List.mem_cons, List.not_mem_nil, or_false] at hN
  rcases hN with h | h | h | h <;> simp only [CB, RP, h] at hi ha hb ⊢ <;> simp at hi ha hb ⊢
  · subst hi
    have := key 4 4 (by omega) (by omega) (by omega)
    simp only [b8_toNat] at this
    rw [this]
    simp only [Nat.shiftRight_eq_div_pow, show (15 : Nat) = 2 ^ 4 - 1 by rfl, Nat.and_two_pow_sub_one_eq_mod]
    omega
  · have := key 3 4 (by omega) (by omega) (by omega)
    simp only [b8_toNat] at this
    rw [this]
    simp only [Nat.shiftRight_eq_div_pow, show (15 : Nat) = 2 ^ 4 - 1 by rfl, show (7 : Nat) = 2 ^ 3 - 1 by rfl,
      Nat.and_two_pow_sub_one_eq_mod]
    omega
  · have := key 3 3 (by omega) (by omega) (by omega)
    simp only [b8_toNat] at this
    rw [this]
    simp only [Nat.shiftRight_eq_div_pow, show (7 : Nat) = 2 ^ 3 - 1 by rfl,
      Nat.and_two_pow_sub_one_eq_mod]
    omega
  · have := key 2 3 (by omega) (by omega) (by omega)
    simp only [b8_toNat] at this
    rw [this]
    simp only [Nat.shiftRight_eq_div_pow, show (7 : Nat) = 2 ^ 3 - 1 by rfl, show (3 : Nat) = 2 ^ 2 - 1 by rfl,
      Nat.and_two_pow_sub_one_eq_mod]
    omega

/-- The split of the 9 bit count and the range over three bytes. -/
theorem pack2 (c : ShCfg) (hc : c.valid) {sc r : Nat} (hs : sc ≤ 511) (hr : r ≤ c.tinyR) :
    (sc <<< c.RX) >>> 8 ≤ c.maxPR ∧
    (b8 (sc <<< c.RX ||| r >>> 8)).toNat >>> c.RX ||| ((sc <<< c.RX) >>> 8) <<< (8 - c.RX) = sc ∧
    (b8 r).toNat ||| ((b8 (sc <<< c.RX ||| r >>> 8)).toNat &&& (1 <<< c.RX - 1)) <<< 8 = r := by
  obtain ⟨hN, _⟩ := hc
  have key : ∀ k, k ≤ 8 → r < 2 ^ (k + 8) →
      (b8 (sc <<< k ||| r >>> 8)).toNat = (sc * 2 ^ k + r / 256) % 256 := by
    intro k hk h
    rw [Nat.shiftRight_eq_div_pow, or_add (by rw [Nat.pow_add] at h; omega), b8_toNat]
  have or2 : ∀ a b k : Nat, b < 2 ^ k → b ||| a <<< k = a * 2 ^ k + b := by
    intro a b k h
    rw [Nat.or_comm, or_add h]
  simp only [List.mem_cons, List.not_mem_nil, or_false] at hN
  have fin : ∀ k, k = 1 ∨ k = 2 ∨ k = 3 → r < 2 ^ (k + 8) →
      (b8 (sc <<< k ||| r >>> 8)).toNat >>> k ||| ((sc <<< k) >>> 8) <<< (8 - k) = sc ∧
      (b8 r).toNat ||| ((b8 (sc <<< k ||| r >>> 8)).toNat &&& (1 <<< k - 1)) <<< 8 = r := by
    intro k hk h
    rw [key k (by omega) h]
    have hb : (sc * 2 ^ k + r / 256) % 256 < 256 := Nat.mod_lt _ (by omega)
    rcases hk with rfl | rfl | rfl
    all_goals
      refine ⟨?_, ?_⟩
      · rw [or2 _ _ _ (by rw [Nat.shiftRight_eq_div_pow]; omega)]
        simp only [Nat.shiftRight_eq_div_pow, Nat.shiftLeft_eq]
        omega
      · rw [or2 _ _ _ (by rw [b8_toNat]; omega), b8_toNat]
        simp only [Nat.one_shiftLeft, Nat.and_two_pow_sub_one_eq_mod]
        omega
  unfold maxPR tinyR at *
  rcases hN with h | h | h | h <;> simp only [CB, RP, RX, h] at hr ⊢ <;> simp at hr ⊢
  · exact ⟨by simp only [Nat.shiftRight_eq_div_pow, Nat.shiftLeft_eq]; omega,
      by have := fin 3 (by omega) (by omega); simpa using this⟩
  · exact ⟨by simp only [Nat.shiftRight_eq_div_pow, Nat.shiftLeft_eq]; omega,
      by have := fin 3 (by omega) (by omega); simpa using this⟩
  · exact ⟨by simp only [Nat.shiftRight_eq_div_pow, Nat.shiftLeft_eq]; omega,
      by have := fin 2 (by omega) (by omega); simpa using this⟩
  · exact ⟨by simp only [Nat.shiftRight_eq_div_pow, Nat.shiftLeft_eq]; omega,
      by have := fin 1 (by omega) (by omega); simpa using this⟩

theorem inval_pos (c : ShCfg) (hc : c.valid) : 3 ≤ c.inval ∧ 511 ≤ c.tinyR := by
  obtain ⟨hN, _⟩ := hc
  simp only [List.mem_cons, List.not_mem_nil, or_false] at hN
  unfold inval tinyR
  rcases hN with h | h | h | h <;> simp [CB, RX, RP, h]

theorem pack_parse (c : ShCfg) (hc : c.valid) {idx sc lits : Nat} (hi : idx ≤ c.N) (h1 : 2 ≤ sc) (h2 : sc < 4294967296)
    (h3 : lits + 2 < 4294967296) : ∃ b r, c.pack idx sc lits = b :: r ∧ b.toNat >>> (c.CB + c.RP) = idx ∧
      ∀ tail, c.rdCO b.toNat (r ++ tail) = some ((sc, some (lits + 2)), tail) := by
  obtain ⟨v1, v2⟩ := c.inval_pos hc
  unfold pack
  by_cases hp : c.packs sc lits = true
  · rw [if_pos hp]
    simp only [packs, Bool.and_eq_true, decide_eq_true_eq] at hp
    obtain ⟨p1, p2, p3⟩ := c.pack1 hc (a := sc - 2) (b := lits) hi (by omega) hp.1
    refine ⟨_, [], rfl, p1, fun tail => ?_⟩
    unfold rdCO
    rw [p2, p3, if_neg (by omega), show sc - 2 + 2 = sc by omega]
    rfl
  · rw [if_neg hp]
    obtain ⟨q1, q2, q3⟩ := c.pack2 hc (sc := tinyOf 511 sc) (r := tinyOf c.tinyR (lits + 2))
      (tinyOf_le (by omega)) (tinyOf_le (by omega))
    obtain ⟨p1, p2, p3⟩ := c.pack1 hc (a := c.inval) hi (Nat.le_refl _) q1
    simp only [List.cons_append, List.nil_append]
    refine ⟨_, _, rfl, p1, fun tail => ?_⟩
    unfold rdCO
    rw [p2, p3, if_pos rfl]
    simp only [List.cons_append, List.append_assoc]
    rw [Parser.andThen_eq (rdU8_cons _ _), Parser.andThen_eq (rdU8_cons _ _), q2, q3,
      Parser.andThen_eq (rdTiny_ext h1 h2 _), Parser.andThen_eq (SlCfg.rdOff_ext (by omega) h3 _)]
    rfl

theorem stored_ok (c : ShCfg) (hc : c.valid) {cnt : Nat} (h1 : c.minR ≤ cnt) (hu : c.unb = true ∨ c.S ∣ cnt) :
    2 ≤ c.stored cnt ∧ c.stored cnt ≤ cnt + 2 ∧ c.cntOf (c.stored cnt) = cnt := by
  have hm : 2 ≤ c.minR := by unfold minR; split <;> omega
  unfold stored cntOf
  cases h : c.unb
  · have hd : c.S ∣ cnt := by simpa [h] using hu
    have hS := c.valid_S hc
    have h3 : c.minR / c.S ≤ cnt / c.S := Nat.div_le_div_right h1
    have h4 : cnt / c.S ≤ cnt := Nat.div_le_self _ _
    have h5 : cnt / c.S * c.S = cnt := Nat.div_mul_cancel hd
    simp only [Bool.false_eq_true, if_false]
    generalize c.minR / c.S = x at *
    generalize cnt / c.S = y at *
    refine ⟨by omega, by omega, ?_⟩
    rw [show y + 2 - x + x - 2 = y by omega, h5]
  · simp only [if_true]
    omega

theorem hdr_of_fields (c : ShCfg) {lut : Lut} {src r : List Byte} {x : SlCfg.Fields}
    (h : c.fields lut src = some (x, r)) : c.hdr lut src = c.toH x r := by
  simp [hdr, Parser.toHdr, h]

theorem emit_pos (c : ShCfg) {lut lut' : Lut} {sym bytes : List Byte} {cnt lits : Nat}
    (h : c.emit lut sym cnt lits = some (bytes, lut')) : c.minR ≤ cnt ∧ lut' = lut.use (lut.find sym) sym ∧
    bytes = c.pack (lut.find sym) (c.stored cnt) lits ++ (if c.news (lut.find sym) then sym else []) ∧
    (c.mode = .single → lut = [sym]) ∧
    (cnt ≥ c.long ∨ cnt ≥ c.minR + c.penalty (lut.find sym) (c.stored cnt) lits) := by
  simp only [emit] at h
  by_cases hs : c.mode = .single ∧ lut ≠ [sym]
  · rw [if_pos hs] at h; cases h
  · rw [if_neg hs] at h
    by_cases hh : cnt ≥ c.long ∨ cnt ≥ c.minR + c.penalty (lut.find sym) (c.stored cnt) lits
    · rw [if_pos hh] at h
      simp only [Option.some.injEq, Prod.mk.injEq] at h
      obtain ⟨rfl, rfl⟩ := h
      refine ⟨?_, rfl, rfl, fun hm => ?_, hh⟩
      · rcases hh with hh | hh
        · unfold long at hh; unfold minR
          by_cases h0 : c.N = 0 <;> by_cases h1 : c.mode = .single <;> simp [h0, h1] at hh ⊢ <;> omega
        · omega
      · exact Decidable.byContradiction fun hn => hs ⟨hm, hn⟩
    · rw [if_neg hh] at h
      cases h

theorem init_ok (c : ShCfg) (hc : c.valid) : Lut.ok c.tab c.S c.init := by
  obtain ⟨hN, _, _, h1, _⟩ := hc
  simp only [List.mem_cons, List.not_mem_nil, or_false] at hN
  unfold init tab
  by_cases hm : c.mode = .single
  · simp [hm, Lut.ok, (h1 hm).2]
  · rw [if_neg hm, if_neg hm]
    rcases hN with h | h | h | h <;> rw [h] <;> simp [Lut.ok]

theorem use_ok (c : ShCfg) {lut : Lut} (h : Lut.ok c.tab c.S lut) {idx : Nat} {sym : List Byte}
    (hi : lut = [] → idx = 0) (hs : sym.length = c.S) : Lut.ok c.tab c.S (lut.use idx sym) := by
  rcases Lut.use_ok h (idx := idx) hs with h' | h'
  · exact h'
  · simp only [Lut.use, hi h', if_true]
    exact h

theorem find_le (c : ShCfg) {lut : Lut} {sym : List Byte} (h : Lut.ok c.tab c.S lut)
    (hm : c.mode = .single → lut = [sym]) : lut.find sym ≤ c.N := by
  by_cases h1 : c.mode = .single
  · rw [hm h1]; simp [Lut.find]
  · have := Lut.find_le h sym
    unfold tab at this
    rwa [if_neg h1] at this

theorem fields_emit (c : ShCfg) (hc : c.valid) {lut : Lut} (hl : Lut.ok c.tab c.S lut) {sym : List Byte}
    (hs : sym.length = c.S) (hm : c.mode = .single → lut = [sym])
    {sc lits : Nat} (h1 : 2 ≤ sc) (h2 : sc < 4294967296) (h4 : lits + 2 < 4294967296) (tail : List Byte) :
    c.fields lut (c.pack (lut.find sym) sc lits ++ (if c.news (lut.find sym) then sym else []) ++ tail)
      = some (⟨sym, lut.use (lut.find sym) sym, sc, some (lits + 2)⟩, tail) := by
  obtain ⟨b, r, g1, g2, g3⟩ := c.pack_parse hc (c.find_le hl hm) h1 h2 h4
  unfold fields
  rw [g1]
  simp only [List.append_assoc, List.cons_append]
  rw [Parser.andThen_eq (rdU8_cons _ _), Parser.andThen_eq (g3 _)]
  simp only [reduceCtorEq, if_false, g2]
  have : c.rdSym lut (lut.find sym) ((if c.news (lut.find sym) then sym else []) ++ tail) = some (sym, tail) := by
    unfold rdSym
    by_cases hn : c.news (lut.find sym) = true
    · simp only [if_pos hn]
      exact takeN_append _ _ hs
    · simp only [if_neg hn, List.nil_append, Parser.ret_apply]
      rw [Lut.find_get]
      by_cases hsg : c.mode = .single
      · rw [hm hsg]; simp [Lut.find]
      · have := Lut.find_le hl sym
        simp only [news, Bool.and_eq_true, bne_iff_ne, ne_eq, hsg, not_false_eq_true, beq_iff_eq, true_and] at hn
        have h0 := hl.1
        unfold tab at this h0
        rw [if_neg hsg] at this h0
        omega
  rw [Parser.andThen_eq this]
  rfl

theorem find_nil (sym : List Byte) (lut : Lut) (h : lut = []) : lut.find sym = 0 := by
  subst h; rfl

theorem end_parse (c : ShCfg) (hc : c.valid) (x : Byte) :
    (b8 (c.inval <<< c.RP)).toNat >>> (c.CB + c.RP) = 0 ∧
    (b8 (c.inval <<< c.RP)).toNat >>> c.RP &&& c.inval = c.inval ∧
    (b8 (1 <<< c.RX)).toNat >>> c.RX ||| ((b8 (c.inval <<< c.RP)).toNat &&& c.maxPR) <<< (8 - c.RX) = 1 ∧
    x.toNat ||| ((b8 (1 <<< c.RX)).toNat &&& (1 <<< c.RX - 1)) <<< 8 = x.toNat := by
  obtain ⟨hN, _⟩ := hc
  simp only [List.mem_cons, List.not_mem_nil, or_false] at hN
  unfold inval maxPR
  rcases hN with h | h | h | h <;> simp [CB, RX, RP, h, b8]

theorem endRun_fields (c : ShCfg) (hc : c.valid) (lut : Lut) (tail : List Byte) :
    ∃ r, c.fields lut (c.endRun ++ tail) = some (⟨[], lut, 0, none⟩, r) := by
  obtain ⟨p1, p2, p3, p4⟩ := c.end_parse hc 1
  refine ⟨(if c.news 0 then [0] else []) ++ tail, ?_⟩
  unfold fields endRun
  simp only [List.append_assoc, List.cons_append, List.nil_append]
  rw [Parser.andThen_eq (rdU8_cons _ _)]
  rw [Parser.andThen_eq (x := (0, none)) (r := (if c.news 0 then [0] else []) ++ tail)]
  · rfl
  · unfold rdCO
    rw [p2, if_pos rfl, Parser.andThen_eq (rdU8_cons _ _), Parser.andThen_eq (rdU8_cons _ _), p3, p4]
    rw [Parser.andThen_eq (x := 0) (r := le16 0 ++ ((if c.news 0 then [0] else []) ++ tail)) (by simp [rdTiny])]
    rw [Parser.andThen_eq (x := none) (r := (if c.news 0 then [0] else []) ++ tail)
      (by unfold SlCfg.rdOff; rw [Parser.andThen_eq (x := 0) (r := (if c.news 0 then [0] else []) ++ tail) (by simp [rdTiny])]; simp)]
    rfl

theorem endLit_fields (c : ShCfg) (hc : c.valid) (lut : Lut) (lits : Nat) (h : lits + 2 < 4294967296)
    (tail : List Byte) :
    ∃ sym, c.fields lut (c.endLit lits ++ tail) = some (⟨sym, lut, 0, some (lits + 2)⟩, tail) := by
  obtain ⟨p1, p2, p3, p4⟩ := c.end_parse hc 0
  refine ⟨if c.news 0 then List.replicate c.S 0 else lut.getD 0 [], ?_⟩
  unfold fields endLit
  simp only [List.append_assoc, List.cons_append, List.nil_append]
  rw [Parser.andThen_eq (rdU8_cons _ _)]
  rw [Parser.andThen_eq (x := (0, some (lits + 2))) (r := (if c.news 0 then List.replicate c.S 0 else []) ++ tail)]
  · simp only [reduceCtorEq, if_false, p1]
    rw [Parser.andThen_eq (x := if c.news 0 then List.replicate c.S 0 else lut.getD 0 []) (r := tail)]
    · simp [Lut.use]
    · unfold rdSym
      by_cases hn : c.news 0 = true
      · simp only [if_pos hn]
        exact takeN_append _ _ (by simp)
      · simp only [if_neg hn]
        rfl
  · unfold rdCO
    rw [p2, if_pos rfl, Parser.andThen_eq (rdU8_cons _ _), Parser.andThen_eq (rdU8_cons _ _), p3, p4]
    rw [Parser.andThen_eq (x := 0) (r := le32 (lits + 2) ++ ((if c.news 0 then List.replicate c.S 0 else []) ++ tail))
      (by simp [rdTiny])]
    rw [Parser.andThen_eq (x := some (lits + 2)) (r := (if c.news 0 then List.replicate c.S 0 else []) ++ tail)
      (by unfold SlCfg.rdOff
          rw [Parser.andThen_eq (x := lits + 2) (r := (if c.news 0 then List.replicate c.S 0 else []) ++ tail)
            (by simp only [rdTiny, UInt8.toNat_ofNat, Nat.reducePow, Nat.reduceMod, Nat.zero_mod, if_true]
                rw [rdU32_le32, Nat.mod_eq_of_lt h])]
          simp)]
    rfl

theorem fmtOKB (c : ShCfg) (hc : c.valid) : FmtOK c.fmt (Lut.ok c.tab c.S) c.S c.unb 4294967280 where
  init := c.init_ok hc
  emit := by
    intro lut sym cnt lits bytes lut' hl hs hu hB he
    obtain ⟨h3, rfl, rfl, hm, _⟩ := c.emit_pos he
    obtain ⟨g1, g2, g3⟩ := c.stored_ok hc h3 hu
    obtain ⟨b, r, e1, _⟩ := c.pack_parse hc (c.find_le hl hm) (sc := c.stored cnt) (lits := lits) g1 (by omega) (by omega)
    refine ⟨c.use_ok hl (find_nil _ _) hs, by rw [e1]; simp, ?_⟩
    intro tail
    have := c.fields_emit hc hl hs hm (sc := c.stored cnt) (lits := lits) g1 (by omega) (by omega) tail
    show c.hdr _ _ = _
    rw [c.hdr_of_fields this]
    simp only [toH]
    rw [if_neg (by omega), if_neg (by generalize c.minR / c.S = q; omega), if_neg (by omega), g3]
    rfl
  ends := by
    refine ⟨?_, ?_⟩
    · intro lut tail hl
      left
      obtain ⟨r, this⟩ := c.endRun_fields hc lut tail
      show c.hdr lut (c.endRun ++ tail) = _
      rw [c.hdr_of_fields this]
      rfl
    · intro lut lits tail hl hB
      obtain ⟨sym, this⟩ := c.endLit_fields hc lut lits (by omega) tail
      refine ⟨sym, lut, ?_⟩
      show c.hdr lut (c.endLit lits ++ tail) = _
      rw [c.hdr_of_fields this]
      simp only [toH]
      rw [if_neg (by omega), if_neg (by simp)]
      simp

theorem fmtOK (c : ShCfg) (hc : c.valid) : FmtOK c.fmt (Lut.ok c.tab c.S) c.S c.unb (1073741824 + 16) :=
  (c.fmtOKB hc).mono (by decide)

theorem u8_lt {src r : List Byte} {v : Nat} (h : rdU8 src = some (v, r)) : v < 256 := by
  match src, h with
  | a :: r', h => simp [rdU8] at h; have := a.toNat_lt; omega

theorem idx_bound (c : ShCfg) (hc : c.valid) {v : Nat} (hv : v < 256) : v >>> (c.CB + c.RP) ≤ c.N := by
  obtain ⟨hN, _⟩ := hc
  simp only [List.mem_cons, List.not_mem_nil, or_false] at hN
  rw [Nat.shiftRight_eq_div_pow]
  rcases hN with h | h | h | h <;> simp [CB, RP, h] <;> omega

theorem rdSym_len (c : ShCfg) (hc : c.valid) {lut : Lut} (hl : Lut.ok c.tab c.S lut) {idx : Nat} (hi : idx ≤ c.N)
    {src r sym : List Byte} (h : c.rdSym lut idx src = some (sym, r)) : sym.length = c.S := by
  unfold rdSym at h
  by_cases hn : c.news idx = true
  · rw [if_pos hn] at h
    exact takeN_len h
  · rw [if_neg hn] at h
    cases h
    have hi : idx < lut.length := by
      rw [hl.1]
      unfold tab
      by_cases hsg : c.mode = .single
      · rw [if_pos hsg]
        have := hc.2.2.2.1 hsg
        omega
      · rw [if_neg hsg]
        simp only [news, Bool.and_eq_true, bne_iff_ne, ne_eq, hsg, not_false_eq_true, beq_iff_eq, true_and] at hn
        omega
    rw [List.getD, List.getElem?_eq_getElem hi]
    exact hl.2 _ (List.getElem_mem hi)

theorem fields_spec (c : ShCfg) (hc : c.valid) {lut : Lut} (hl : Lut.ok c.tab c.S lut) {src r : List Byte}
    {x : SlCfg.Fields} (h : c.fields lut src = some (x, r)) :
    x.off = none ∨ (x.sym.length = c.S ∧ Lut.ok c.tab c.S x.lut) := by
  obtain ⟨v, r1, h1, h⟩ := Parser.andThen_some h
  obtain ⟨co, r2, h2, h⟩ := Parser.andThen_some h
  by_cases hco : co.2 = none
  · rw [if_pos hco] at h
    cases h
    exact Or.inl rfl
  · rw [if_neg hco] at h
    obtain ⟨sym, r3, h3, h⟩ := Parser.andThen_some h
    cases h
    have hi := c.idx_bound hc (u8_lt h1)
    have hs := c.rdSym_len hc hl hi h3
    refine Or.inr ⟨hs, c.use_ok hl (fun he => ?_) hs⟩
    have h0 := hl.1
    rw [he] at h0
    unfold tab at h0
    by_cases hsg : c.mode = .single
    · simp [hsg] at h0
    · simp [hsg] at h0
      generalize v >>> (c.CB + c.RP) = q at *
      omega

theorem toH_go {c : ShCfg} {x : SlCfg.Fields} {r : List Byte} {lit : Nat} {sym : List Byte} {cnt : Option Nat} {fs' : Lut}
    {rest : List Byte} (h : c.toH x r = some (.go lit sym cnt fs' rest)) :
    rest = r ∧ sym = x.sym ∧ fs' = x.lut ∧ x.off ≠ none := by
  unfold toH at h
  split at h
  · cases h
  · next o ho =>
    split at h
    · cases h
    · split at h
      · cases h
      · cases h; exact ⟨rfl, rfl, rfl, by simp [ho]⟩

theorem hdrOK (c : ShCfg) (hc : c.valid) : HdrOK c.hdr (Lut.ok c.tab c.S) c.S := by
  intro lut src lit sym cnt lut' rest hl h
  obtain ⟨⟨x, r⟩, h1, h2⟩ := Option.bind_eq_some_iff.mp h
  obtain ⟨_, rfl, rfl, hn⟩ := toH_go h2
  rcases c.fields_spec hc hl h1 with h | h
  · exact absurd h hn
  · exact h

theorem rdCO_local (c : ShCfg) (v : Nat) : Parser.Local 0 (c.rdCO v) := by
  unfold rdCO
  refine .ite ?_ (.ret _)
  refine Parser.Local.weaken (k := 1 + 0) (Parser.Local.u8.andThen fun p2 => ?_) (by omega)
  refine Parser.Local.weaken (k := 1 + 0) (Parser.Local.u8.andThen fun p3 => ?_) (by omega)
  refine Parser.Local.andThen (k := 0) (l := 0) (rdTiny_local _) fun sc => ?_
  refine Parser.Local.andThen (k := 0) (l := 0) ?_ fun off => .ret _
  exact Parser.Local.andThen (k := 0) (l := 0) (rdTiny_local _) fun o => .ret _

theorem fields_local (c : ShCfg) (lut : Lut) : Parser.Local 1 (c.fields lut) := by
  refine Parser.Local.weaken (k := 1 + 0) (Parser.Local.u8.andThen fun v => ?_) (by omega)
  refine Parser.Local.andThen (k := 0) (l := 0) (c.rdCO_local v) fun co => ?_
  refine .ite (.ret _) ?_
  refine Parser.Local.andThen (k := 0) (l := 0) ?_ fun sym => .ret _
  unfold rdSym
  exact .ite ((Parser.Local.take _).weaken (by omega)) (.ret _)

theorem toH_local (c : ShCfg) : Parser.MkLocal c.toH where
  app := by
    intro x r h t he
    unfold toH at he ⊢
    split at he
    · cases he; rfl
    · split at he
      · next hn =>
        cases he
        rw [if_pos hn]; rfl
      · next hn =>
        rw [if_neg hn]
        split at he
        · cases he
        · next hn =>
          cases he
          rw [if_neg hn]; rfl
  go := fun _ _ _ _ _ _ _ h => (toH_go h).1

theorem hdrLocal (c : ShCfg) : HdrLocal c.hdr := Parser.toHdr_local c.fields_local c.toH_local

theorem encW_ok {N S : Nat} {unb : Bool} (h : S ≤ 8) (cpu : Cpu) :
    SlCfg.encW ⟨N, S, unb⟩ cpu = 0 ∨ S < SlCfg.encW ⟨N, S, unb⟩ cpu := by
  have : SlCfg.encW ⟨N, S, unb⟩ cpu = 0 ∨ SlCfg.encW ⟨N, S, unb⟩ cpu = 16 ∨ SlCfg.encW ⟨N, S, unb⟩ cpu = 32 := by
    unfold SlCfg.encW
    repeat' split
    all_goals simp
  omega

theorem first_ok (c : ShCfg) (hc : c.valid) (inp : Mem) (n : Nat) : Lut.ok c.tab c.S (c.first inp n) := by
  unfold first
  by_cases hm : c.mode = .single
  · simp [hm, Lut.ok, tab, (hc.2.2.2.1 hm).2]
  · rw [if_neg hm]; exact c.init_ok hc

theorem emit_lut (c : ShCfg) (lut : Lut) (sym : List Byte) (cnt lits : Nat) (bytes : List Byte) (lut' : Lut)
    (hl : Lut.ok c.tab c.S lut) (hs : sym.length = c.S) (he : c.emit lut sym cnt lits = some (bytes, lut')) :
    Lut.ok c.tab c.S lut' := by
  obtain ⟨_, rfl, _⟩ := c.emit_pos he
  exact c.use_ok hl (find_nil _ _) hs

theorem first_normal (c : ShCfg) (h : c.mode ≠ .single) : c.first = fun _ _ => c.fmt.init := by
  funext inp n
  simp [first, h, fmt]

theorem cdc_ok (c : ShCfg) (hc : c.valid) : c.cdc.OK (Lut.ok c.tab c.S) where
  pos := (c.valid_S hc).1
  le := by have := (c.valid_S hc).2; show c.S ≤ 16; omega
  fmt := c.fmtOK hc
  emitEnd := (c.fmtOK hc).emit
  hdr := c.hdrOK hc
  loc := c.hdrLocal
  decV := fun cpu => SlCfg.decV_ok c.S hc.2.1 _ _ _ _ _ _ _ _
  scan := by
    intro cpu
    show ScanRun [c.emit] c.S c.unb c.first (c.run cpu)
    unfold run
    cases hm : c.mode with
    | single =>
      simp only [(hc.2.2.2.1 hm).2]
      rw [runS8I_eq]
      exact runS8_scan c.fmt c.first
    | greedy =>
      rw [c.first_normal (by simp [hm])]
      have := hc.2.2.2.2 hm
      simp only
      rw [runGI_eq c.fmt (by have := hc.2.1; simp only [List.mem_cons, List.not_mem_nil, or_false] at this; unfold symSize; omega) c.emit_lut (c.init_ok hc)]
      exact runG_scan c.fmt (by omega) this.2.2 c.emit_lut (c.init_ok hc)
    | normal =>
      rw [c.first_normal (by simp [hm])]
      simp only
      by_cases h : c.S = 1
      · rw [if_pos h, SlCfg.run8I ⟨c.N, c.S, c.unb⟩ h c.fmt]
        have := run8_scan c.fmt (W := SlCfg.encW ⟨c.N, c.S, c.unb⟩ cpu) (unb := c.unb) (SlCfg.encW1 _ h cpu)
        rw [h] at this ⊢
        exact this
      · rw [if_neg h, SlCfg.runI ⟨c.N, c.S, c.unb⟩ hc.2.1 h c.fmt]
        exact runX_scan c.fmt (c.valid_S hc).1 (encW_ok (c.valid_S hc).2 cpu)
  congr := by
    intro cpu
    show ScanCongr c.S (c.run cpu)
    unfold run
    cases hm : c.mode with
    | single =>
      simp only [(hc.2.2.2.1 hm).2]
      rw [runS8I_eq]
      exact runS8_congr c.fmt c.first fun inp inp' n hi =>
        ⟨pick_congr hi, by simp [first, hm, pick_congr hi]⟩
    | greedy =>
      have := hc.2.2.2.2 hm
      simp only
      rw [runGI_eq c.fmt (by have := hc.2.1; simp only [List.mem_cons, List.not_mem_nil, or_false] at this; unfold symSize; omega) c.emit_lut (c.init_ok hc)]
      exact runG_congr c.fmt (by omega) c.emit_lut (c.init_ok hc)
    | normal =>
      simp only
      by_cases h : c.S = 1
      · rw [if_pos h, SlCfg.run8I ⟨c.N, c.S, c.unb⟩ h c.fmt]
        have := run8_congr c.fmt (W := SlCfg.encW ⟨c.N, c.S, c.unb⟩ cpu) (SlCfg.encW1 _ h cpu)
        rw [h] at this ⊢
        exact this
      · rw [if_neg h, SlCfg.runI ⟨c.N, c.S, c.unb⟩ hc.2.1 h c.fmt]
        exact runX_congr _ (c.valid_S hc).1 (encW_ok (c.valid_S hc).2 cpu)
  first := c.first_ok hc
  firstCongr := by
    intro inp inp' n hi
    show c.first inp n = c.first inp' n
    unfold first
    by_cases hm : c.mode = .single
    · rw [if_pos hm, if_pos hm, pick_congr (fun k hk => hi k (by have := (c.valid_S hc).1; show k < n + c.S; omega))]
    · rw [if_neg hm, if_neg hm]
  start := by
    intro inp n tail
    show c.start (c.pre (c.first inp n) ++ tail) = some (some (c.first inp n, tail))
    unfold start pre first
    by_cases hm : c.mode = .single
    · simp only [if_pos hm]
      simp [takeN]
    · simp only [if_neg hm]
      rfl
  startLoc := by
    intro src fs' r he
    change c.start src = some (some (fs', r)) at he
    show _ ∧ ∀ t, c.start (src ++ t) = some (some (fs', r ++ t))
    unfold start at he ⊢
    by_cases hm : c.mode = .single
    · simp only [if_pos hm] at he ⊢
      obtain ⟨⟨s, r'⟩, h1, h2⟩ := Option.map_eq_some_iff.mp he
      simp only [Option.some.injEq, Prod.mk.injEq] at h2
      obtain ⟨rfl, rfl⟩ := h2
      refine ⟨?_, fun t => ?_⟩
      · have := takeN_len h1
        simp [Lut.ok, tab, hm, (hc.2.2.2.1 hm).2, this]
      · rw [(Parser.Local.take 1 _ _ _ h1).2 t]
        rfl
    · simp only [if_neg hm] at he ⊢
      cases he
      exact ⟨c.init_ok hc, fun _ => rfl⟩
  rel := fun cpu => HdrRel.refl _
  locV := fun cpu => c.hdrLocal

end ShCfg

end Hrk
