import Verif.Fill

/-
The 16, 24, 32, 48 and 64 bit plain and packed codecs.
-/

namespace Hrk

/-- One of rle{8*S}_{sym,byte}[_packed]: symbol size in bytes, `UNBOUND`, `PACKED`.
(src/rleX_extreme_cpu.c:1-64, src/rle24_extreme_cpu.c, src/rle48_extreme_cpu.c) -/
structure XCfg where
  S : Nat
  unb : Bool
  packed : Bool

namespace XCfg

/-- `PREFER_7_BIT_OR_4_BYTE_COPY` is defined only for `*_byte_packed`
(src/rleX_extreme_cpu.c:30-52, src/rle24_extreme_cpu.c:14-28). -/
def b7 (c : XCfg) : Bool := c.unb && c.packed

/-- `RLEX_EXTREME_MAX_COPY_RANGE` (src/rleX_extreme_cpu.h:1-7). -/
def maxR (c : XCfg) : Nat := if c.b7 then 127 else 255

/-- `RLEX_EXTRRME_FULL_COPY_SIZE` (src/rleX_extreme_cpu.h:1-7). -/
def fc (c : XCfg) : Nat := if c.b7 then 4 + 1 else 4

/-- `RLEX_EXTREME_MULTI_MIN_RANGE_SHORT` (src/rleX_extreme_cpu.h:10, 13). -/
def short (c : XCfg) : Nat := if c.packed then (1 + 1) + 1 else (c.S + 1 + 1) + 2

/-- `RLEX_EXTREME_MULTI_MIN_RANGE_MEDIUM` (src/rleX_extreme_cpu.h:14), packed only. -/
def medium (c : XCfg) : Nat := (c.S + 1 + 1) + 1

/-- `RLEX_EXTREME_MULTI_MIN_RANGE_LONG` (src/rleX_extreme_cpu.h:11, 15). -/
def long (c : XCfg) : Nat := (c.S + 1 + 4 + c.fc) + (if c.packed then 1 else 2)

/-- `storedCount` (src/rleX_extreme_cpu_encode.h:187-191, 251-255). -/
def stored (c : XCfg) (count : Nat) : Nat :=
  if c.unb then count - c.short + 1 else count / c.S - c.short / c.S + 1

/-- Symbol and count part of a record
(src/rleX_extreme_cpu_encode.h:182-228 and 246-293). -/
def cntBytes (c : XCfg) (last sym : List Byte) (count : Nat) : List Byte :=
  if c.packed then
    (if c.stored count ≤ 127 then [b8 (c.stored count) ||| (if sym = last then 128 else 0)]
      else (if sym = last then 128 else 0) :: le32 (c.stored count)) ++
    (if sym = last then [] else sym)
  else
    sym ++ (if c.stored count ≤ 255 then [b8 (c.stored count)] else 0 :: le32 (c.stored count))

/-- Emission test and record header (src/rleX_extreme_cpu_encode.h:172-312); the
state is `lastSymbol` (packed only). -/
def emit (c : XCfg) : Emit (List Byte) := fun last sym count lits =>
  if lits + 1 ≤ c.maxR ∧
      (if c.packed then (count ≥ c.short ∧ sym = last) ∨ count ≥ c.medium else count ≥ c.short) then
    some (c.cntBytes last sym count ++ [if c.b7 then b8 ((lits + 1) <<< 1) else b8 (lits + 1)],
      if c.packed then sym else last)
  else if count ≥ c.long then
    some (c.cntBytes last sym count ++
        (if c.b7 then le32 ((lits + 1) <<< 1 ||| 1) else 0 :: le32 (lits + 1)),
      if c.packed then sym else last)
  else none

/-- Common part of the terminators (src/rleX_extreme_cpu_encode.h:454-466, 574-586). -/
def endSym (c : XCfg) : List Byte :=
  if c.packed then 128 :: le32 0 else List.replicate c.S 0 ++ 0 :: le32 0

/-- Terminator after a final run (src/rleX_extreme_cpu_encode.h:454-476, 546-568). -/
def endRun (c : XCfg) : List Byte :=
  c.endSym ++ (if c.b7 then le32 1 else 0 :: le32 0)

/-- Terminator with final literals (src/rleX_extreme_cpu_encode.h:574-598). -/
def endLit (c : XCfg) (lits : Nat) : List Byte :=
  c.endSym ++ (if c.b7 then le32 ((lits + 1) <<< 1 ||| 1) else 0 :: le32 (lits + 1))

/-- Decoder: `symbolCount` as read from the stream, scaled to bytes; `none` for
`if (!symbolCount) return;` (src/rleX_extreme_cpu_decode.h:144-151). -/
def cntOf (c : XCfg) (sc : Nat) : Option Nat :=
  if sc = 0 then none
  else some (if c.unb then sc + c.short - 1 else (sc + c.short / c.S - 1) * c.S)

/-- Decoder: count byte with `uint32_t` extension when it is 0
(src/rleX_extreme_cpu_decode.h:61-65, 73-77). -/
def rdExt (b : Nat) (r : List Byte) : Option (Nat × List Byte) :=
  if b = 0 then rdU32 r else some (b, r)

/-- Decoder: the symbol of a packed record (src/rleX_extreme_cpu_decode.h:79-92). -/
def rdSym (c : XCfg) (b : Nat) (last r : List Byte) : Option (List Byte × List Byte) :=
  if b &&& 128 ≠ 0 then some (last, r) else takeN c.S r

/-- `if (offset == 0) return; ... offset--;` after a `uint32_t` offset
(src/rleX_extreme_cpu_decode.h:100-127). -/
def offLong (last sym : List Byte) (cnt : Option Nat) (x : Nat × List Byte) : Option (Hdr (List Byte)) :=
  if x.1 = 0 then some .ret else some (.go (x.1 - 1) sym cnt last x.2)

/-- Decoder: the offset field (src/rleX_extreme_cpu_decode.h:95-127). -/
def hdrTail (c : XCfg) (last sym : List Byte) (cnt : Option Nat) (src : List Byte) :
    Option (Hdr (List Byte)) :=
  (rdU8 src).bind fun (b, r) =>
    if c.b7 then
      if b &&& 1 = 1 then (rdU32 src).bind fun (x, r) => offLong last sym cnt (x >>> 1, r)
      else if b >>> 1 = 0 then some (.wrap cnt r)
      else some (.go (b >>> 1 - 1) sym cnt last r)
    else
      if b = 0 then (rdU32 r).bind (offLong last sym cnt)
      else some (.go (b - 1) sym cnt last r)

/-- Decoder: one record header (src/rleX_extreme_cpu_decode.h:45-127;
src/rle24_extreme_cpu_decode.h:72-174; src/rle48_extreme_cpu_decode.h). The state is the
current symbol; it matters for the packed codecs only. -/
def hdr (c : XCfg) (last src : List Byte) : Option (Hdr (List Byte)) :=
  if c.packed then
    (rdU8 src).bind fun (b, r) =>
    (rdExt (b &&& 127) r).bind fun (sc, r) =>
    (c.rdSym b last r).bind fun (sym, r) =>
    c.hdrTail sym sym (c.cntOf sc) r
  else
    (takeN c.S src).bind fun (sym, r) =>
    (rdU8 r).bind fun (b, r) =>
    (rdExt b r).bind fun (sc, r) =>
    c.hdrTail last sym (c.cntOf sc) r

/-- The stream format of the codec; `lastSymbol = 0` initially
(src/rleX_extreme_cpu_encode.h:42-44, src/rleX_extreme_cpu_decode.h:31-39). -/
def fmt (c : XCfg) : Fmt (List Byte) where
  init := List.replicate c.S 0
  emit := c.emit
  endRun := c.endRun
  endLit := c.endLit
  hdr := c.hdr

/-- 24 and 48 bit symbols have their own sources (src/rle24_extreme_cpu.c, src/rle48_extreme_cpu.c). -/
def odd (c : XCfg) : Bool := c.S == 3 || c.S == 6

/-- The encoder the dispatcher picks (src/rleX_extreme_cpu.h:54-59, src/rle24_extreme_cpu.h:62-69,
src/rle48_extreme_cpu.h:62-69). -/
def simd (c : XCfg) (cpu : Cpu) : Simd :=
  if cpu.avx2 then .avx2
  else if c.odd && cpu.ssse3 then .ssse3
  else if cpu.sse2 then .sse2
  else .base

/-- Its vector width, 0 = `_compress_base` (src/rleX_extreme_cpu_encode.h:34-40). -/
def encW (c : XCfg) (cpu : Cpu) : Nat :=
  if cpu.avx2 then 32
  else if c.odd && cpu.ssse3 then 16
  else if cpu.sse2 then 16
  else 0

/-- Decoder the dispatcher picks (src/rleX_extreme_cpu.h:99-108,
src/rle24_extreme_cpu.h:101-106); widths from src/rleX_extreme_cpu_decode.h:129-162,
src/rleX_extreme_common.h:308-312 and src/rle24_extreme_cpu_decode.h:176-247. -/
def decV (c : XCfg) (cpu : Cpu) : DecV :=
  if c.odd then
    if cpu.avx2 then ⟨32, oddK .avx2 c.S⟩
    else if cpu.ssse3 then ⟨16, oddK .ssse3 c.S⟩
    else ⟨16, oddK .sse2 c.S⟩
  else
    if cpu.avx512f then ⟨32, oneK 64⟩
    else if cpu.avx2 then ⟨32, oneK 32⟩
    else if cpu.avx then ⟨32, oneK 32⟩
    else if cpu.sse41 then ⟨16, oneK 16⟩
    else ⟨16, oneK 16⟩

/-- rle{8*S}_{codec} (src/rleX_extreme_cpu.h:47-60, 82-111). -/
def cdc (c : XCfg) : Cdc (List Byte) where
  F := c.fmt
  emitEnd := c.emit
  S := c.S
  unb := c.unb
  run := fun cpu => runXI c.fmt c.S (c.simd cpu) c.unb
  decV := c.decV

/-- `rle{8*S}_{codec}_compress` (src/rleX_extreme_cpu.h:47-60). -/
def compress (c : XCfg) (cpu : Cpu) : Compress := c.cdc.compress cpu

/-- `rle{8*S}_{codec}_decompress` (src/rleX_extreme_cpu.h:82-111). -/
def decompress (c : XCfg) (cpu : Cpu) : Decompress := c.cdc.decompress cpu

/-- The symbol sizes that exist
(src/rleX_extreme_cpu.c, src/rle24_extreme_cpu.c, src/rle48_extreme_cpu.c). -/
def valid (c : XCfg) : Prop := c.S ∈ [2, 3, 4, 6, 8]

instance (c : XCfg) : Decidable c.valid := by unfold valid; infer_instance

/-- The scanner, without the vector instructions. -/
theorem runI (c : XCfg) (hc : c.valid) (cpu : Cpu) :
    runXI c.fmt c.S (c.simd cpu) c.unb = runX c.fmt c.S (c.encW cpu) c.unb := by
  have hS : symSize c.S := by
    unfold valid at hc
    simpa [symSize] using hc
  have : (c.simd cpu).width = c.encW cpu := by
    unfold simd encW
    (repeat' split) <;> rfl
  rw [runXI_eq c.fmt hS, this]

/-! ### Writer and parser are inverse -/

theorem or128 : ∀ x, x < 128 → (b8 x ||| 128).toNat &&& 127 = x ∧ (b8 x ||| 128).toNat &&& 128 ≠ 0 := by
  decide +kernel

theorem or0 : ∀ x, x < 128 → (b8 x ||| 0).toNat &&& 127 = x ∧ (b8 x ||| 0).toNat &&& 128 = 0 := by
  decide +kernel

theorem and1 (x : Nat) : x &&& 1 = x % 2 := Nat.and_one_is_mod x

theorem shl1 (x : Nat) : x <<< 1 = 2 * x := by rw [Nat.shiftLeft_eq]; omega

theorem shl1or (x : Nat) : x <<< 1 ||| 1 = 2 * x + 1 := by
  rw [← Nat.shiftLeft_add_eq_or_of_lt (by omega : 1 < 2 ^ 1), shl1]

theorem shr1 (x : Nat) : x >>> 1 = x / 2 := by rw [Nat.shiftRight_eq_div_pow]

theorem rdU8_le32 (x : Nat) (r : List Byte) : rdU8 (le32 x ++ r) = some (x % 256, le32 x ++ r |>.tail) := by
  simp [le32]

/-- The longest literals and runs for which writer and parser are inverse: 31 or 32 bits. -/
def lim (c : XCfg) : Nat := if c.b7 then 2147483646 else 4294967280

theorem lim_le (c : XCfg) : c.lim ≤ 4294967280 := by unfold lim; split <;> omega

theorem le_lim (c : XCfg) : 1073741824 + 16 ≤ c.lim := by unfold lim; split <;> omega

theorem hdrTail_long (c : XCfg) (last sym : List Byte) (cnt : Option Nat) (lits : Nat) (tail : List Byte)
    (h : lits ≤ c.lim) :
    c.hdrTail last sym cnt
      ((if c.b7 then le32 ((lits + 1) <<< 1 ||| 1) else 0 :: le32 (lits + 1)) ++ tail)
      = some (.go lits sym cnt last tail) := by
  unfold lim at h
  unfold hdrTail
  cases h7 : c.b7 <;> rw [h7] at h
  · simp only [Bool.false_eq_true, if_false, List.cons_append, rdU8_cons, Option.bind_some] at h ⊢
    rw [if_pos (by decide), rdU32_le32]
    simp only [Option.bind_some, offLong]
    rw [if_neg (by omega)]
    congr 2
    omega
  · simp only [if_true, rdU8_le32, shl1or, Option.bind_some, rdU32_le32, offLong] at h ⊢
    rw [if_pos (by rw [and1]; omega)]
    simp only [shr1]
    rw [if_neg (by omega)]
    congr 2
    omega

theorem hdrTail_short (c : XCfg) (last sym : List Byte) (cnt : Option Nat) (lits : Nat) (tail : List Byte)
    (h : lits + 1 ≤ c.maxR) :
    c.hdrTail last sym cnt
      ([if c.b7 then b8 ((lits + 1) <<< 1) else b8 (lits + 1)] ++ tail)
      = some (.go lits sym cnt last tail) := by
  unfold hdrTail
  unfold maxR at h
  cases h7 : c.b7 <;> rw [h7] at h
  · simp only [Bool.false_eq_true, if_false, List.cons_append, List.nil_append, rdU8_cons,
      Option.bind_some, b8_toNat] at h ⊢
    rw [if_neg (by omega)]
    congr 2
    omega
  · simp only [if_true, shl1, List.cons_append, List.nil_append, rdU8_cons,
      Option.bind_some, b8_toNat] at h ⊢
    rw [if_neg (by rw [and1]; omega)]
    simp only [shr1]
    rw [if_neg (by omega)]
    congr 2
    omega

theorem stored_cntOf (c : XCfg) (cnt : Nat) (h1 : c.short ≤ cnt)
    (h2 : c.unb = true ∨ c.S ∣ cnt) : 0 < c.stored cnt ∧ c.stored cnt ≤ cnt + 1 ∧
    c.cntOf (c.stored cnt) = some cnt := by
  unfold cntOf stored
  cases hu : c.unb
  · simp only [Bool.false_eq_true, if_false]
    have hd : c.S ∣ cnt := by simpa [hu] using h2
    have h3 : c.short / c.S ≤ cnt / c.S := Nat.div_le_div_right h1
    have h4 : cnt / c.S ≤ cnt := Nat.div_le_self _ _
    have h5 : cnt / c.S * c.S = cnt := Nat.div_mul_cancel hd
    generalize c.short / c.S = x at *
    generalize cnt / c.S = y at *
    refine ⟨by omega, by omega, ?_⟩
    rw [if_neg (by omega)]
    rw [show y - x + 1 + x - 1 = y by omega, h5]
  · simp only [if_true]
    refine ⟨by omega, by omega, ?_⟩
    rw [if_neg (by omega)]
    congr 1
    omega

theorem hdr_cntBytes (c : XCfg) (last sym : List Byte) (cnt : Nat) (rest : List Byte)
    (hs : sym.length = c.S) (h1 : c.short ≤ cnt)
    (h2 : c.unb = true ∨ c.S ∣ cnt) (h3 : cnt ≤ c.lim) :
    c.hdr last (c.cntBytes last sym cnt ++ rest)
      = c.hdrTail (if c.packed then sym else last) sym (some cnt) rest := by
  have h3 := Nat.le_trans h3 c.lim_le
  obtain ⟨g1, g2, g3⟩ := stored_cntOf c cnt h1 h2
  unfold hdr cntBytes
  cases c.packed
  · simp only [Bool.false_eq_true, if_false, List.append_assoc, takeN_append _ _ hs, Option.bind_some]
    by_cases h255 : c.stored cnt ≤ 255
    · simp only [if_pos h255, List.cons_append, List.nil_append, rdU8_cons, Option.bind_some, b8_toNat, rdExt]
      rw [if_neg (by omega), Option.bind_some, Nat.mod_eq_of_lt (by omega), g3]
    · simp only [if_neg h255, List.cons_append, rdU8_cons, Option.bind_some, rdExt]
      rw [if_pos (by decide), rdU32_le32, Option.bind_some, Nat.mod_eq_of_lt (by omega), g3]
  · simp only [if_true]
    by_cases hl : sym = last
    · subst hl
      simp only [if_true, List.append_nil]
      by_cases h127 : c.stored cnt ≤ 127
      · have := or128 (c.stored cnt) (by omega)
        simp only [if_pos h127, List.cons_append, List.nil_append, rdU8_cons, Option.bind_some, rdExt, this.1,
          rdSym]
        rw [if_neg (by omega), Option.bind_some, if_pos this.2, Option.bind_some, g3]
      · simp only [if_neg h127, List.cons_append, rdU8_cons, Option.bind_some, rdExt, rdSym]
        rw [if_pos (by decide), rdU32_le32, Option.bind_some, if_pos (by decide), Option.bind_some,
          Nat.mod_eq_of_lt (by omega), g3]
    · simp only [if_neg hl]
      by_cases h127 : c.stored cnt ≤ 127
      · have := or0 (c.stored cnt) (by omega)
        simp only [if_pos h127, List.cons_append, List.nil_append, rdU8_cons, Option.bind_some, rdExt, this.1,
          rdSym, this.2]
        rw [if_neg (by omega), Option.bind_some, if_neg (by simp), takeN_append _ _ hs, Option.bind_some, g3]
      · simp only [if_neg h127, List.cons_append, rdU8_cons, Option.bind_some, rdExt, rdSym, List.append_assoc]
        rw [if_pos (by decide), rdU32_le32, Option.bind_some, if_neg (by decide), takeN_append _ _ hs,
          Option.bind_some, Nat.mod_eq_of_lt (by omega), g3]

theorem hdr_endSym (c : XCfg) (last : List Byte) (rest : List Byte) :
    ∃ sym, c.hdr last (c.endSym ++ rest) = c.hdrTail last sym none rest := by
  unfold hdr endSym
  cases c.packed
  · refine ⟨List.replicate c.S 0, ?_⟩
    simp only [Bool.false_eq_true, if_false, List.append_assoc,
      takeN_append _ _ (List.length_replicate (n := c.S) (a := (0 : Byte))),
      Option.bind_some, List.cons_append, rdU8_cons, rdExt]
    rw [if_pos (by decide), rdU32_le32]
    simp [cntOf]
  · refine ⟨last, ?_⟩
    simp only [if_true, List.cons_append, rdU8_cons, Option.bind_some, rdExt, rdSym]
    rw [if_pos (by decide), rdU32_le32, Option.bind_some, if_pos (by decide)]
    simp [cntOf]

theorem cntBytes_pos (c : XCfg) (last sym : List Byte) (cnt : Nat) : 0 < (c.cntBytes last sym cnt).length := by
  unfold cntBytes
  split
  · split <;> simp
  · split <;> simp

theorem short_le (c : XCfg) : c.short ≤ c.long := by
  unfold short long fc
  split <;> split <;> omega

theorem fmtOKB (c : XCfg) :
    FmtOK c.fmt (fun l => l.length = c.S) c.S c.unb c.lim where
  init := by simp [fmt]
  emit := by
    intro last sym cnt lits bytes last' hl hs hu hB he
    have hsl := c.short_le
    have hpos := c.cntBytes_pos last sym cnt
    have hlast : (if c.packed then sym else last).length = c.S := by split <;> assumption
    simp only [fmt, emit] at he ⊢
    by_cases h : lits + 1 ≤ c.maxR ∧
      (if c.packed then (cnt ≥ c.short ∧ sym = last) ∨ cnt ≥ c.medium else cnt ≥ c.short)
    · rw [if_pos h] at he
      obtain ⟨hr, hcond⟩ := h
      have hshort : c.short ≤ cnt := by
        cases hp : c.packed <;> simp only [hp, if_true, Bool.false_eq_true, if_false] at hcond
        · exact hcond
        · rcases hcond with ⟨h, _⟩ | h
          · exact h
          · unfold medium at h
            simp only [short, hp, if_true]
            omega
      cases he
      refine ⟨hlast, by simp, ?_⟩
      intro tail
      rw [List.append_assoc, hdr_cntBytes c _ _ _ _ hs hshort hu (by omega), hdrTail_short c _ _ _ _ _ hr]
    · rw [if_neg h] at he
      by_cases h' : cnt ≥ c.long
      · rw [if_pos h'] at he
        cases he
        refine ⟨hlast, by rw [List.length_append]; omega, ?_⟩
        intro tail
        rw [List.append_assoc, hdr_cntBytes c _ _ _ _ hs (by omega) hu (by omega),
            hdrTail_long c _ _ _ _ _ (by omega)]
      · rw [if_neg h'] at he
        cases he
  ends := by
    refine ⟨?_, ?_⟩
    · intro last tail hl
      left
      simp only [fmt, endRun, List.append_assoc]
      obtain ⟨sym, h⟩ := c.hdr_endSym last ((if c.b7 then le32 1 else 0 :: le32 0) ++ tail)
      rw [h]
      unfold hdrTail
      cases c.b7
      · simp only [Bool.false_eq_true, if_false, List.cons_append, rdU8_cons, Option.bind_some]
        rw [if_pos (by decide)]
        simp [offLong]
      · simp only [if_true, rdU8_le32, Option.bind_some, rdU32_le32]
        rw [if_pos (by decide)]
        simp [offLong]
    · intro last lits tail hl hB
      simp only [fmt, endLit, List.append_assoc]
      obtain ⟨sym, h⟩ := c.hdr_endSym last
        ((if c.b7 then le32 ((lits + 1) <<< 1 ||| 1) else 0 :: le32 (lits + 1)) ++ tail)
      exact ⟨sym, last, by rw [h, hdrTail_long c _ _ _ _ _ hB]⟩

theorem fmtOK (c : XCfg) : FmtOK c.fmt (fun l => l.length = c.S) c.S c.unb (1073741824 + 16) := c.fmtOKB.mono c.le_lim

theorem takeN_length {k : Nat} {src s r : List Byte} (h : takeN k src = some (s, r)) : s.length = k := by
  unfold takeN at h
  split at h
  · cases h; simp; omega
  · cases h

theorem offLong_sym {last sym : List Byte} {cnt : Option Nat} {x : Nat × List Byte} {lit : Nat}
    {sym' : List Byte} {cnt' : Option Nat} {last' rest : List Byte}
    (h : offLong last sym cnt x = some (.go lit sym' cnt' last' rest)) : sym' = sym ∧ last' = last := by
  unfold offLong at h
  split at h <;> cases h
  exact ⟨rfl, rfl⟩

theorem hdrTail_sym (c : XCfg) {last sym : List Byte} {cnt : Option Nat} {src : List Byte} {lit : Nat}
    {sym' : List Byte} {cnt' : Option Nat} {last' rest : List Byte}
    (h : c.hdrTail last sym cnt src = some (.go lit sym' cnt' last' rest)) : sym' = sym ∧ last' = last := by
  unfold hdrTail at h
  obtain ⟨⟨b, r⟩, _, h⟩ := Option.bind_eq_some_iff.mp h
  simp only at h
  split at h
  · split at h
    · obtain ⟨⟨x, r⟩, _, h⟩ := Option.bind_eq_some_iff.mp h
      exact offLong_sym h
    · split at h <;> cases h
      exact ⟨rfl, rfl⟩
  · split at h
    · obtain ⟨⟨x, r⟩, _, h⟩ := Option.bind_eq_some_iff.mp h
      exact offLong_sym h
    · cases h
      exact ⟨rfl, rfl⟩

theorem hdrOK (c : XCfg) : HdrOK c.hdr (fun l => l.length = c.S) c.S := by
  intro last src lit sym cnt last' rest hl h
  unfold hdr at h
  split at h
  · obtain ⟨⟨b, r⟩, _, h⟩ := Option.bind_eq_some_iff.mp h
    obtain ⟨⟨sc, r2⟩, _, h⟩ := Option.bind_eq_some_iff.mp h
    obtain ⟨⟨sym', r3⟩, h3, h⟩ := Option.bind_eq_some_iff.mp h
    obtain ⟨rfl, rfl⟩ := c.hdrTail_sym h
    unfold rdSym at h3
    split at h3
    · cases h3; exact ⟨hl, hl⟩
    · exact ⟨takeN_length h3, takeN_length h3⟩
  · obtain ⟨⟨sym', r⟩, h0, h⟩ := Option.bind_eq_some_iff.mp h
    obtain ⟨⟨b, r2⟩, _, h⟩ := Option.bind_eq_some_iff.mp h
    obtain ⟨⟨sc, r3⟩, _, h⟩ := Option.bind_eq_some_iff.mp h
    obtain ⟨rfl, rfl⟩ := c.hdrTail_sym h
    exact ⟨takeN_length h0, hl⟩

theorem rdExt_app {b : Nat} {src r t : List Byte} {x : Nat} (h : rdExt b src = some (x, r)) :
    rdExt b (src ++ t) = some (x, r ++ t) ∧ r.length ≤ src.length := by
  unfold rdExt at h ⊢
  split
  · next hb =>
    rw [if_pos hb] at h
    have := rdU32_app (t := t) h
    exact ⟨this.1, by omega⟩
  · next hb =>
    rw [if_neg hb] at h
    cases h
    exact ⟨rfl, Nat.le_refl _⟩

theorem rdSym_app (c : XCfg) {b : Nat} {last src r t : List Byte} {x : List Byte}
    (h : c.rdSym b last src = some (x, r)) :
    c.rdSym b last (src ++ t) = some (x, r ++ t) ∧ r.length ≤ src.length := by
  unfold rdSym at h ⊢
  split
  · next hb =>
    rw [if_pos hb] at h
    cases h
    exact ⟨rfl, Nat.le_refl _⟩
  · next hb =>
    rw [if_neg hb] at h
    have := takeN_app (t := t) h
    exact ⟨this.1, by omega⟩

theorem offLong_app {last sym : List Byte} {cnt : Option Nat} {x : Nat} {r t : List Byte} {h : Hdr (List Byte)}
    (hh : offLong last sym cnt (x, r) = some h) : offLong last sym cnt (x, r ++ t) = some (h.app t) := by
  unfold offLong at hh ⊢
  simp only at hh ⊢
  split
  · next h0 => rw [if_pos h0] at hh; cases hh; rfl
  · next h0 => rw [if_neg h0] at hh; cases hh; rfl

theorem hdrTail_app (c : XCfg) {last sym : List Byte} {cnt : Option Nat} {src t : List Byte} {h : Hdr (List Byte)}
    (hh : c.hdrTail last sym cnt src = some h) : c.hdrTail last sym cnt (src ++ t) = some (h.app t) := by
  unfold hdrTail at hh ⊢
  obtain ⟨⟨b, r⟩, h1, hh⟩ := Option.bind_eq_some_iff.mp hh
  rw [(rdU8_app h1).1]
  simp only [Option.bind_some] at hh ⊢
  cases h7 : c.b7
  · simp only [h7, Bool.false_eq_true, if_false] at hh ⊢
    split
    · next h0 =>
      rw [if_pos h0] at hh
      obtain ⟨⟨x, r⟩, h2, hh⟩ := Option.bind_eq_some_iff.mp hh
      rw [(rdU32_app h2).1]
      exact offLong_app hh
    · next h0 => rw [if_neg h0] at hh; cases hh; rfl
  · simp only [h7, if_true] at hh ⊢
    split
    · next h0 =>
      rw [if_pos h0] at hh
      obtain ⟨⟨x, r⟩, h2, hh⟩ := Option.bind_eq_some_iff.mp hh
      rw [(rdU32_app h2).1]
      exact offLong_app hh
    · next h0 =>
      rw [if_neg h0] at hh
      split
      · next h0 => rw [if_pos h0] at hh; cases hh; rfl
      · next h0 => rw [if_neg h0] at hh; cases hh; rfl

theorem offLong_rest {last sym : List Byte} {cnt : Option Nat} {x : Nat × List Byte} {lit : Nat}
    {sym' : List Byte} {cnt' : Option Nat} {last' rest : List Byte}
    (h : offLong last sym cnt x = some (.go lit sym' cnt' last' rest)) : rest = x.2 := by
  unfold offLong at h
  split at h <;> cases h
  rfl

theorem hdrTail_rest (c : XCfg) {last sym : List Byte} {cnt : Option Nat} {src : List Byte} {lit : Nat}
    {sym' : List Byte} {cnt' : Option Nat} {last' rest : List Byte}
    (h : c.hdrTail last sym cnt src = some (.go lit sym' cnt' last' rest)) : rest.length < src.length := by
  unfold hdrTail at h
  obtain ⟨⟨b, r⟩, h1, h⟩ := Option.bind_eq_some_iff.mp h
  have hr := (rdU8_app (t := []) h1).2
  simp only at h
  split at h
  · split at h
    · obtain ⟨⟨x, r2⟩, h2, h⟩ := Option.bind_eq_some_iff.mp h
      have := (rdU32_app (t := []) h2).2
      rw [offLong_rest h]; simp only; omega
    · split at h <;> cases h
      omega
  · split at h
    · obtain ⟨⟨x, r2⟩, h2, h⟩ := Option.bind_eq_some_iff.mp h
      have := (rdU32_app (t := []) h2).2
      rw [offLong_rest h]; simp only; omega
    · cases h
      omega

theorem hdrLocal (c : XCfg) : HdrLocal c.hdr where
  app := by
    intro last src h t hh
    unfold hdr at hh ⊢
    cases h7 : c.packed
    · simp only [h7, Bool.false_eq_true, if_false] at hh ⊢
      obtain ⟨⟨sym', r⟩, h0, hh⟩ := Option.bind_eq_some_iff.mp hh
      obtain ⟨⟨b, r2⟩, h1, hh⟩ := Option.bind_eq_some_iff.mp hh
      obtain ⟨⟨sc, r3⟩, h2, hh⟩ := Option.bind_eq_some_iff.mp hh
      simp only [(takeN_app h0).1, Option.bind_some, (rdU8_app h1).1, (rdExt_app h2).1]
      exact c.hdrTail_app hh
    · simp only [h7, if_true] at hh ⊢
      obtain ⟨⟨b, r⟩, h0, hh⟩ := Option.bind_eq_some_iff.mp hh
      obtain ⟨⟨sc, r2⟩, h1, hh⟩ := Option.bind_eq_some_iff.mp hh
      obtain ⟨⟨sym, r3⟩, h2, hh⟩ := Option.bind_eq_some_iff.mp hh
      simp only [(rdU8_app h0).1, Option.bind_some, (rdExt_app h1).1, (c.rdSym_app h2).1]
      exact c.hdrTail_app hh
  go := by
    intro last src lit sym cnt last' rest hh
    unfold hdr at hh
    split at hh
    · obtain ⟨⟨b, r⟩, h0, hh⟩ := Option.bind_eq_some_iff.mp hh
      obtain ⟨⟨sc, r2⟩, h1, hh⟩ := Option.bind_eq_some_iff.mp hh
      obtain ⟨⟨sym, r3⟩, h2, hh⟩ := Option.bind_eq_some_iff.mp hh
      have := c.hdrTail_rest hh
      have := (rdU8_app (t := []) h0).2
      have := (rdExt_app (t := []) h1).2
      have := (c.rdSym_app (t := []) h2).2
      omega
    · obtain ⟨⟨sym', r⟩, h0, hh⟩ := Option.bind_eq_some_iff.mp hh
      obtain ⟨⟨b, r2⟩, h1, hh⟩ := Option.bind_eq_some_iff.mp hh
      obtain ⟨⟨sc, r3⟩, h2, hh⟩ := Option.bind_eq_some_iff.mp hh
      have := c.hdrTail_rest hh
      have := (takeN_app (t := []) h0).2
      have := (rdU8_app (t := []) h1).2
      have := (rdExt_app (t := []) h2).2
      omega

/-! ### Sizes -/

theorem cntBytes_length (c : XCfg) (last sym : List Byte) (cnt : Nat) (hs : sym.length = c.S) :
    (c.cntBytes last sym cnt).length ≤ (if c.packed = true ∧ sym = last then 0 else c.S)
      + (if c.stored cnt ≤ 127 then 1 else 5) := by
  unfold cntBytes
  cases c.packed
  · simp only [Bool.false_eq_true, if_false, false_and, List.length_append, hs]
    by_cases h : c.stored cnt ≤ 255
    · simp only [if_pos h]; split <;> simp
    · simp only [if_neg h, if_neg (show ¬ c.stored cnt ≤ 127 by omega)]; simp
  · simp only [if_true, true_and]
    by_cases hl : sym = last
    · simp only [hl, if_true]; split <;> simp
    · simp only [if_neg hl]; split <;> simp [hs] <;> omega

theorem emitSize (c : XCfg) (hS : c.S ≤ 16) : EmitSize c.emit (fun l => l.length = c.S) c.S c.unb := by
  intro last sym cnt lits bytes last' hl hs hu he
  have h1 := c.cntBytes_length last sym cnt hs
  have hlast : (if c.packed then sym else last).length = c.S := by split <;> assumption
  have hst : ¬ c.stored cnt ≤ 127 → cnt ≥ 127 := by
    unfold stored
    have : cnt / c.S ≤ cnt := Nat.div_le_self _ _
    generalize cnt / c.S = y at *
    generalize c.short / c.S = x at *
    split <;> omega
  simp only [emit] at he
  by_cases h : lits + 1 ≤ c.maxR ∧
      (if c.packed then (cnt ≥ c.short ∧ sym = last) ∨ cnt ≥ c.medium else cnt ≥ c.short)
  · rw [if_pos h] at he
    obtain ⟨hr, hcond⟩ := h
    cases he
    refine ⟨hlast, ?_⟩
    simp only [List.length_append, List.length_cons, List.length_nil]
    cases hp : c.packed <;> simp only [hp, if_true, Bool.false_eq_true, if_false, false_and, true_and] at hcond h1
    · unfold short at hcond
      simp only [hp, Bool.false_eq_true, if_false] at hcond
      by_cases hs : c.stored cnt ≤ 127
      · rw [if_pos hs] at h1; omega
      · have := hst hs
        rw [if_neg hs] at h1; omega
    · unfold short at hcond
      unfold medium at hcond
      by_cases hs : c.stored cnt ≤ 127
      · rw [if_pos hs] at h1
        rcases hcond with ⟨h, hsl⟩ | h
        · simp only [hp, if_true] at h
          rw [if_pos hsl] at h1; omega
        · split at h1 <;> omega
      · have := hst hs
        rw [if_neg hs] at h1
        split at h1 <;> omega
  · rw [if_neg h] at he
    by_cases h' : cnt ≥ c.long
    · rw [if_pos h'] at he
      cases he
      refine ⟨hlast, ?_⟩
      unfold long fc at h'
      have h2 : (if c.b7 = true then le32 ((lits + 1) <<< 1 ||| 1) else 0 :: le32 (lits + 1)).length
          ≤ (if c.b7 = true then 4 else 5) := by
        split <;> simp
      rw [List.length_append]
      generalize hX : (if c.b7 = true then le32 ((lits + 1) <<< 1 ||| 1) else 0 :: le32 (lits + 1)) = X at *
      have h3 : (if c.packed = true ∧ sym = last then 0 else c.S) ≤ c.S := by split <;> omega
      have h4 : (if c.stored cnt ≤ 127 then 1 else 5) ≤ 5 := by split <;> omega
      have h5 : (if c.b7 = true then 4 else 5) ≤ (if c.b7 = true then 4 + 1 else 4) + 1 := by split <;> omega
      have h6 : 1 ≤ (if c.packed = true then 1 else 2) := by split <;> omega
      omega
    · rw [if_neg h'] at he
      cases he

theorem end_length (c : XCfg) : c.endRun.length ≤ c.S + 10 ∧ ∀ k, (c.endLit k).length ≤ c.S + 10 := by
  unfold endRun endLit endSym
  refine ⟨?_, fun k => ?_⟩
  · split <;> split <;> simp <;> omega
  · split <;> split <;> simp <;> omega

theorem encW_ok (c : XCfg) (hc : c.valid) (cpu : Cpu) : c.encW cpu = 0 ∨ c.S < c.encW cpu := by
  have : c.S ≤ 8 := by
    unfold valid at hc
    simp only [List.mem_cons, List.not_mem_nil, or_false] at hc
    omega
  unfold encW
  split
  · omega
  · split
    · omega
    · split <;> omega

theorem valid_S (c : XCfg) (hc : c.valid) : 0 < c.S ∧ c.S ≤ 8 := by
  unfold valid at hc
  simp only [List.mem_cons, List.not_mem_nil, or_false] at hc
  omega

theorem decV_ok (c : XCfg) (hc : c.valid) (cpu : Cpu) :
    0 < (c.decV cpu).copyW ∧ (c.decV cpu).copyW ≤ 64 ∧ (c.decV cpu).setK.ok c.S ∧
      (c.decV cpu).setK.width ≤ 112 := by
  obtain ⟨S, unb, packed⟩ := c
  unfold valid at hc
  simp only [List.mem_cons, List.not_mem_nil, or_false] at hc
  unfold decV odd
  rcases hc with rfl | rfl | rfl | rfl | rfl <;> simp only [] <;>
    (repeat' split) <;> simp_all [oddK_ok, oddK_width, oneK_ok, oneK_width]

/-! ### The encoder -/

theorem cdc_ok (c : XCfg) (hc : c.valid) : c.cdc.OK (fun l => l.length = c.S) where
  pos := (c.valid_S hc).1
  le := Nat.le_trans (c.valid_S hc).2 (by omega)
  fmt := c.fmtOK
  emitEnd := c.fmtOK.emit
  hdr := c.hdrOK
  loc := c.hdrLocal
  decV := c.decV_ok hc
  scan := fun cpu => by
    simp only [cdc]
    rw [c.runI hc]
    exact runX_scan _ (c.valid_S hc).1 (c.encW_ok hc cpu)
  congr := fun cpu => by
    simp only [cdc]
    rw [c.runI hc]
    exact runX_congr _ (c.valid_S hc).1 (c.encW_ok hc cpu)
  first := fun _ _ => c.fmtOK.init
  firstCongr := fun _ _ _ _ => rfl
  start := fun _ _ _ => rfl
  startLoc := Cdc.startId c.fmtOK.init
  rel := fun _ => HdrRel.refl _
  locV := fun _ => c.hdrLocal

theorem enc_size (c : XCfg) (hc : c.valid) (cpu : Cpu) (inp : Mem) (n : Nat) :
    ∃ b, c.cdc.body cpu inp n = some b ∧ b.length ≤ n + 2 * c.S + 10 := by
  have hS := c.valid_S hc
  obtain ⟨b, h1, h2⟩ := (c.cdc_ok hc).size cpu 0 (c.S + 10)
    (List.forall_mem_cons.mpr ⟨c.emitSize (by omega), fun _ h => nomatch h⟩) (c.emitSize (by omega))
    c.end_length.1 c.end_length.2 (by simp [cdc]) inp n
  simp only [cdc] at h2
  exact ⟨b, h1, by omega⟩

theorem body_encX (c : XCfg) (hc : c.valid) (cpu : Cpu) (inp : Mem) (n : Nat) :
    c.cdc.body cpu inp n = encX c.fmt c.S (c.encW cpu) c.unb inp n := by
  unfold Cdc.body
  simp only [cdc]
  rw [c.runI hc]
  rfl

theorem emit_zero (c : XCfg) (last sym : List Byte) (lits : Nat) : c.emit last sym 0 lits = none := by
  unfold emit
  rw [if_neg, if_neg]
  · unfold long; omega
  · unfold short medium
    intro h
    cases hp : c.packed <;> simp [hp] at h

theorem emit_none (c : XCfg) (last sym : List Byte) (cnt lits : Nat) (h : c.emit last sym cnt lits = none) :
    cnt < c.long := by
  unfold emit at h
  by_cases h1 : lits + 1 ≤ c.maxR ∧
      (if c.packed then (cnt ≥ c.short ∧ sym = last) ∨ cnt ≥ c.medium else cnt ≥ c.short)
  · rw [if_pos h1] at h; cases h
  · rw [if_neg h1] at h
    by_cases h2 : cnt ≥ c.long
    · rw [if_pos h2] at h; cases h
    · omega

theorem emit_length (c : XCfg) (last sym : List Byte) (cnt lits : Nat) (bytes last' : List Byte)
    (hs : sym.length = c.S) (h : c.emit last sym cnt lits = some (bytes, last')) :
    bytes.length ≤ c.S + 10 := by
  have h1 := c.cntBytes_length last sym cnt hs
  have h3 : (if c.packed = true ∧ sym = last then 0 else c.S) ≤ c.S := by split <;> omega
  have h4 : (if c.stored cnt ≤ 127 then 1 else 5) ≤ 5 := by split <;> omega
  unfold emit at h
  by_cases hc1 : lits + 1 ≤ c.maxR ∧
      (if c.packed then (cnt ≥ c.short ∧ sym = last) ∨ cnt ≥ c.medium else cnt ≥ c.short)
  · rw [if_pos hc1] at h
    cases h
    simp
    omega
  · rw [if_neg hc1] at h
    by_cases hc2 : cnt ≥ c.long
    · rw [if_pos hc2] at h
      cases h
      have h2 : (if c.b7 = true then le32 ((lits + 1) <<< 1 ||| 1) else 0 :: le32 (lits + 1)).length ≤ 5 := by
        split <;> simp
      simp only [List.length_append]
      omega
    · rw [if_neg hc2] at h
      cases h

end XCfg

end Hrk
