import Verif.Reads

/-
What the compressors store to their output, store by store: `*(T *)&pOut[index] = value; index += k`, where the type may be wider than
`k` bytes. Used by C64.
-/

namespace Hrk

/-! ### Stores -/

/-- `*(T *)&pOut[index] = data; index += adv` or `memcpy(pOut + index, data, adv); index += adv` (src/rleX_extreme_cpu_encode.h:182-312). -/
structure St where
  data : List Byte
  adv : Nat

/-- A store that moves `index` by its own size (src/rleX_extreme_cpu_encode.h:194-200, 237-240). -/
def St.all (l : List Byte) : St := ⟨l, l.length⟩

/-- `*(symbol_t *)(&pOut[index]) = symbol; index += S`: 24 bit symbols are stored as `uint32_t`, 48 bit symbols as `uint64_t`, with zeros on top
(src/rle24_extreme_cpu_encode.h:176-177, 218-219, src/rle48_extreme_cpu_encode.h:174-175, src/rleX_Xsl.h:220-221,
src/rleX_Xsl_short.h:355-356). -/
def St.sym (S : Nat) (l : List Byte) : St := ⟨symVar S l, S⟩

/-- The output buffer, `index`, and the end of the highest store so far (src/rleX_extreme_cpu_encode.h:19-24). -/
structure Wr where
  m : Mem
  idx : Nat
  hi : Nat

/-- One store. -/
def Wr.st (w : Wr) (s : St) : Wr := ⟨wrL w.m w.idx s.data, w.idx + s.adv, max w.hi (w.idx + s.data.length)⟩

/-- Stores, in order. -/
def Wr.put (w : Wr) (l : List St) : Wr := l.foldl Wr.st w

/-- What is left of stores that overlap: each one begins where `index` is. -/
def flatSt (l : List St) : List Byte := l.flatMap fun s => s.data.take s.adv

/-- An emission rule that says how the record header is stored. -/
abbrev EmitSt (σ : Type) := σ → List Byte → Nat → Nat → Option (List St × σ)

/-! ### The record headers -/

/-- Symbol and count of a record (src/rleX_extreme_cpu_encode.h:182-228, 246-293, and the same of rle24_, rle48_). -/
def XCfg.cntSt (c : XCfg) (last sym : List Byte) (count : Nat) : List St :=
  if c.packed then
    (if c.stored count ≤ 127 then [.all [b8 (c.stored count) ||| (if sym = last then 128 else 0)]]
      else [.all [if sym = last then 128 else 0], .all (le32 (c.stored count))]) ++
    (if sym = last then [] else [.sym c.S sym])
  else
    .sym c.S sym :: (if c.stored count ≤ 255 then [.all [b8 (c.stored count)]] else [.all [0], .all (le32 (c.stored count))])

/-- `XCfg.emit` (src/rleX_extreme_cpu_encode.h:172-312). -/
def XCfg.emitSt (c : XCfg) : EmitSt (List Byte) := fun last sym count lits =>
  if lits + 1 ≤ c.maxR ∧
      (if c.packed then (count ≥ c.short ∧ sym = last) ∨ count ≥ c.medium else count ≥ c.short) then
    some (c.cntSt last sym count ++ [.all [if c.b7 then b8 ((lits + 1) <<< 1) else b8 (lits + 1)]], if c.packed then sym else last)
  else if count ≥ c.long then
    some (c.cntSt last sym count ++
        (if c.b7 then [.all (le32 ((lits + 1) <<< 1 ||| 1))] else [.all [0], .all (le32 (lits + 1))]),
      if c.packed then sym else last)
  else none

/-- `XCfg.endSym` (src/rleX_extreme_cpu_encode.h:454-466, 574-586). -/
def XCfg.endSymSt (c : XCfg) : List St :=
  if c.packed then [.all [128], .all (le32 0)] else [.sym c.S (List.replicate c.S 0), .all [0], .all (le32 0)]

/-- `XCfg.endRun` (src/rleX_extreme_cpu_encode.h:454-476, 546-568). -/
def XCfg.endRunSt (c : XCfg) : List St := c.endSymSt ++ (if c.b7 then [.all (le32 1)] else [.all [0], .all (le32 0)])

/-- `XCfg.endLit` (src/rleX_extreme_cpu_encode.h:574-598). -/
def XCfg.endLitSt (c : XCfg) (lits : Nat) : List St :=
  c.endSymSt ++ (if c.b7 then [.all (le32 ((lits + 1) <<< 1 ||| 1))] else [.all [0], .all (le32 (lits + 1))])

/-- The terminator of rle128 (src/rle128_extreme_cpu.h:353-370, 439-456). -/
def XCfg.endRunSt128 (c : XCfg) : List St := c.endSymSt ++ [.all [0], .all (le32 0)]

/-- `extOf` (src/rleX_Xsl.h:224-250, src/rleX_Xsl_short.h:321-347). -/
def extSt (tiny x : Nat) : List St := if x = tinyOf tiny x then [] else if x ≤ 0xFFFF then [.all (le16 x)] else [.all (le32 x)]

/-- `SlCfg.emit` (src/rleX_Xsl.h:114-257). -/
def SlCfg.emitSt (c : SlCfg) : EmitSt Lut := fun lut sym count lits =>
  let idx := lut.find sym
  let range := lits + 2
  let sc := c.stored count
  let penalty := SlCfg.pen c.tinyR range + SlCfg.pen 127 sc + (if idx = c.N then 1 else 0)
  if count ≥ c.long ∨ count ≥ 3 + penalty then
    some (.all (le16 (idx <<< (7 + c.RB) ||| tinyOf 127 sc <<< c.RB ||| tinyOf c.tinyR range)) ::
        ((if idx = c.N then [.sym c.S sym] else []) ++ extSt 127 sc ++ extSt c.tinyR range),
      lut.use idx sym)
  else none

/-- `SlCfg.endRun` (src/rleX_Xsl.h:319-324, src/rleX_Xsl_multibyte_encoder.h:346-352). -/
def SlCfg.endRunSt (c : SlCfg) : List St := [.all (le16 (1 <<< c.RB ||| 1)), .all (le16 0), .all (le16 0)]

/-- `SlCfg.endLit` (src/rleX_Xsl.h:328-338, src/rleX_Xsl_multibyte_encoder.h:356-366). -/
def SlCfg.endLitSt (c : SlCfg) (lits : Nat) : List St := [.all (le16 (1 <<< c.RB)), .all (le16 0), .all (le32 (lits + 2))]

/-- `ShCfg.pack` (src/rleX_Xsl_short.h:266-348). -/
def ShCfg.packSt (c : ShCfg) (idx sc lits : Nat) : List St :=
  if c.packs sc lits then [.all [b8 (idx <<< (c.CB + c.RP) ||| (sc - 2) <<< c.RP ||| lits)]]
  else
    [.all [b8 (idx <<< (c.CB + c.RP) ||| c.inval <<< c.RP ||| (tinyOf 511 sc <<< c.RX) >>> 8)],
     .all [b8 (tinyOf 511 sc <<< c.RX ||| tinyOf c.tinyR (lits + 2) >>> 8)],
     .all [b8 (tinyOf c.tinyR (lits + 2))]] ++ extSt 511 sc ++ extSt c.tinyR (lits + 2)

/-- `ShCfg.emit` (src/rleX_Xsl_short.h:156-372). -/
def ShCfg.emitSt (c : ShCfg) : EmitSt Lut := fun lut sym count lits =>
  if c.mode = .single ∧ lut ≠ [sym] then none
  else if count ≥ c.long ∨ count ≥ c.minR + c.penalty (lut.find sym) (c.stored count) lits then
    some (c.packSt (lut.find sym) (c.stored count) lits ++ (if c.news (lut.find sym) then [.sym c.S sym] else []),
      lut.use (lut.find sym) sym)
  else none

/-- `ShCfg.endRun` (src/rleX_Xsl_short.h:462-484, 995-1017, src/rleX_Xsl_short_multibyte_encoder.h:351-373). -/
def ShCfg.endRunSt (c : ShCfg) : List St :=
  [.all [b8 (c.inval <<< c.RP)], .all [b8 (1 <<< c.RX)], .all [1], .all (le16 0), .all (le16 0)] ++ (if c.news 0 then [.all [0]] else [])

/-- `ShCfg.endLit` (src/rleX_Xsl_short.h:490-512, 1023-1045, src/rleX_Xsl_short_multibyte_encoder.h:379-401): the symbol of a codec without a
table is stored as a `symbol_t`. -/
def ShCfg.endLitSt (c : ShCfg) (lits : Nat) : List St :=
  [.all [b8 (c.inval <<< c.RP)], .all [b8 (1 <<< c.RX)], .all [0], .all (le16 0), .all (le32 (lits + 2))] ++
    (if c.news 0 then [.sym c.S (List.replicate c.S 0)] else [])

/-- The count of a rle8 record (src/rle8_extreme_cpu.h:125-162). -/
def cnt8St (sc : Nat) : List St := if sc ≤ 255 then [.all [b8 sc]] else [.all [0], .all (le32 sc)]

/-- The `uint32_t` offset of a rle8 record (src/rle8_extreme_cpu.h:480-485, 1227-1230). -/
def offL8St (lits : Nat) : List St := [.all [0], .all (le32 (lits + 1))]

/-- The offset of a rle8 record (src/rle8_extreme_cpu.h:164-175). -/
def off8St (lits : Nat) : List St := if lits + 1 ≤ 255 then [.all [b8 (lits + 1)]] else offL8St lits

/-- The offset of a packed rle8 record (src/rle8_extreme_cpu.h:177-186). -/
def off7St (lits : Nat) : List St :=
  if lits + 1 ≤ 127 then [.all [b8 ((lits + 1) <<< 1)]] else [.all (le32 ((lits + 1) <<< 1 ||| 1))]

/-- `R8Cfg.pRec` (src/rle8_extreme_cpu.h:832-882). -/
def R8Cfg.pRecSt (c : R8Cfg) (last sym : List Byte) (count lits : Nat) : List St :=
  (if c.stored count ≤ 127 then [.all [b8 (c.stored count) ||| (if sym = last then 128 else 0)]]
   else [.all [if sym = last then 128 else 0], .all (le32 (c.stored count))]) ++
  (if sym = last then [] else [.sym 1 sym]) ++ off7St lits

/-- `R8Cfg.pRecT` (src/rle8_extreme_cpu.h:144-158, 177-186, 231-245, 262-271). -/
def R8Cfg.pRecTSt (c : R8Cfg) (sym : List Byte) (count lits : Nat) : List St :=
  (if c.stored count ≤ 127 then [.all [b8 (c.stored count)]] else [.all [0], .all (le32 (c.stored count))]) ++ [.sym 1 sym] ++ off7St lits

/-- `R8Cfg.mRec` (src/rle8_extreme_cpu.h:125-175). -/
def R8Cfg.mRecSt (c : R8Cfg) (sym : List Byte) (count lits : Nat) : List St := .sym 1 sym :: (cnt8St (c.stored count) ++ off8St lits)

/-- `R8Cfg.emit` (src/rle8_extreme_cpu.h:805-883, 1138-1234). -/
def R8Cfg.emitSt (c : R8Cfg) : EmitSt R8St := fun fs sym count lits =>
  if fs.single ≠ c.single then none
  else if c.single then
    if fs.sym ≠ sym ∨ count < c.short then none
    else if lits + 1 ≤ 255 then some (cnt8St (c.stored count) ++ [.all [b8 (lits + 1)]], fs)
    else if count ≥ c.long ∨ (c.packed ∧ c.stored count ≤ 255 ∧ count ≥ 6) then some (cnt8St (c.stored count) ++ offL8St lits, fs)
    else none
  else if c.packed then
    if count ≥ c.long ∨ (lits + 1 ≤ 127 ∧ ((sym = fs.sym ∧ count ≥ c.short) ∨ count ≥ 4)) then
      some (c.pRecSt fs.sym sym count lits, ⟨false, sym⟩)
    else none
  else if count ≥ c.short then some (c.mRecSt sym count lits, ⟨false, sym⟩)
  else none

/-- `R8Cfg.emitT` (src/rle8_extreme_cpu.h:119-187, 204-272, 391-497, 513-560, 584-643). -/
def R8Cfg.emitTSt (c : R8Cfg) : EmitSt R8St := fun fs sym count lits =>
  if fs.single ≠ c.single then none
  else if c.single then
    if fs.sym ≠ sym then none
    else if lits + 1 ≤ 255 ∧ count ≥ c.short then some (cnt8St (c.stored count) ++ [.all [b8 (lits + 1)]], fs)
    else if count ≥ c.long then some (cnt8St (c.stored count) ++ offL8St lits, fs)
    else none
  else if c.packed then
    if count ≥ c.long then some (c.pRecTSt sym count lits, ⟨false, sym⟩) else none
  else if count ≥ c.short then some (c.mRecSt sym count lits, ⟨false, sym⟩)
  else none

/-- `R8Cfg.force` (src/rle8_extreme_cpu.h:1267-1275). -/
def R8Cfg.forceSt (c : R8Cfg) (count lits : Nat) : List St := .all [b8 (c.stored count)] :: offL8St lits

/-- `R8Cfg.endRun` (src/rle8_extreme_cpu.h:281-303, 562-580, 645-663). -/
def R8Cfg.endRunSt (c : R8Cfg) : List St :=
  if c.single then [.all [0], .all (le32 0), .all [0], .all (le32 0)]
  else if c.packed then [.all [128], .all (le32 0), .all (le32 1)]
  else [.all [0], .all [0], .all (le32 0), .all [0], .all (le32 0)]

/-- `R8Cfg.endLit` (src/rle8_extreme_cpu.h:309-333, 669-687). -/
def R8Cfg.endLitSt (c : R8Cfg) (lits : Nat) : List St :=
  if c.single then [.all [0], .all (le32 0), .all [0], .all (le32 (lits + 1))]
  else if c.packed then [.all [128], .all (le32 0), .all (le32 ((lits + 1) <<< 1 ||| 1))]
  else [.all [0], .all [0], .all (le32 0), .all [0], .all (le32 (lits + 1))]

/-! ### What a round of a scanner stores -/

variable {σ : Type}

/-- The stores of an emission: the header, then the literals (`doEmit`, src/rleX_extreme_cpu_encode.h:172-312). -/
def emitWr (e : EmitSt σ) (inp : Mem) (s : ES σ) : List St :=
  match e s.fs s.sym s.count (s.i - s.count - s.lastRLE) with
  | some (l, _) => l ++ [.all (rd inp s.lastRLE (s.i - s.count - s.lastRLE))]
  | none => []

/-- The stores behind the loop (`finish`, src/rleX_extreme_cpu_encode.h:384-603). -/
def endWr (e : EmitSt σ) (endRun : List St) (endLit : Nat → List St) (inp : Mem) (s : ES σ) : List St :=
  match e s.fs s.sym s.count (s.i - s.count - s.lastRLE) with
  | some (l, _) => l ++ [.all (rd inp s.lastRLE (s.i - s.count - s.lastRLE))] ++ endRun
  | none => endLit (s.i - s.lastRLE) ++ [.all (rd inp s.lastRLE (s.i - s.lastRLE))]

/-- `stepXI`, `step128I` and `stepGI` store at `continue_second_step` only (src/rleX_extreme_cpu_encode.h:172-312,
src/rle128_extreme_cpu.h:105-210, src/rleX_Xsl_short.h:859). -/
def wrX (e : EmitSt σ) (inp : Mem) (s : ES σ) : List St := if s.pc = .second then emitWr e inp s else []

/-- `step8I` and `stepS8I`: also in the scalar loop, at the end of a run (src/rle8_extreme_cpu.h:102-200, 805-883,
src/rleX_Xsl.h:302-316, src/rleX_Xsl_short.h:439-456). -/
def wr8 (e eT : EmitSt σ) (inp : Mem) (n : Nat) (s : ES σ) : List St :=
  match s.pc with
  | .second => emitWr e inp s
  | .scal => if s.i < n ∧ rd inp s.i 1 ≠ s.sym then emitWr eT inp s else []
  | _ => []

/-- `stepWI`: at the end of a run as `second` does, with the unconditional record of `replay` (src/rle8_extreme_cpu.h:1138-1289). -/
def wrW (e eT : EmitSt σ) (force : Nat → Nat → List St) (short : Nat) (inp : Mem) (n : Nat) (w : WS σ) : List St :=
  if w.es.pc = .second then
    if w.es.count ≥ short then
      match e w.es.fs w.es.sym w.es.count (w.es.i - w.es.count - w.es.lastRLE) with
      | some _ => emitWr e inp w.es
      | none =>
        if w.wc = 0 ∨ w.es.i - w.fw > 255 then []
        else if w.wc + 1 > 2 then
          force (matchLen inp w.es.sym w.fw (n - 16 - w.fw) 0) (w.fw - w.es.lastRLE) ++ [.all (rd inp w.es.lastRLE (w.fw - w.es.lastRLE))]
        else []
    else []
  else wr8 eT eT inp n w.es

/-- A round of a loop together with its stores (src/rleX_extreme_cpu_encode.h:46-382). -/
def stored {α ρ : Type} (wr : α → List St) (step : α → α ⊕ Option ρ) (x : α × Wr) : (α × Wr) ⊕ Option (ρ × Wr) :=
  match step x.1 with
  | .inl s => .inl (s, x.2.put (wr x.1))
  | .inr r => .inr (r.map fun r => (r, x.2.put (wr x.1)))

/-! ### The compressors on an output buffer -/

/-- What a compressor does to the memory at `pOut`. -/
inductive MRes where
  | fail
  | ub
  | hang
  | ok (ret : Nat) (m : Mem)

/-- `runXI` with its stores (src/rleX_extreme_cpu_encode.h:26-382). -/
def memXI (F : Fmt σ) (e : EmitSt σ) (S : Nat) (k : Simd) (unb : Bool) (inp : Mem) (n : Nat) (w : Wr) : Option (ES σ × Wr) :=
  (loop (stored (wrX e inp) (stepXI F.emit S k unb inp n)) (6 * n + 6)
    (⟨.top, 0, 0, 0, (rd inp 0 S).map (fun b => ~~~ b), F.init, []⟩, w)).join

/-- `run128I` with its stores (src/rle128_extreme_cpu.h:43-281). -/
def mem128I (F : Fmt σ) (e : EmitSt σ) (unb : Bool) (inp : Mem) (n : Nat) (w : Wr) : Option (ES σ × Wr) :=
  (loop (stored (wrX e inp) (step128I F.emit unb inp n)) (6 * n + 6) (⟨.top, 0, 0, 0, rd inp 0 16, F.init, []⟩, w)).join

/-- `run8TI` with its stores (src/rleX_Xsl.h:289-485, src/rleX_Xsl_short.h:411-662, src/rle8_extreme_cpu.h:102-200, 768-1099). -/
def mem8TI (F : Fmt σ) (emitT : Emit σ) (e eT : EmitSt σ) (k : Simd) (inp : Mem) (n : Nat) (w : Wr) : Option (ES σ × Wr) :=
  (loop (stored (wr8 e eT inp n) (step8I F.emit emitT k inp n)) (6 * n + 6) (⟨.top, 0, 0, 0, [~~~ inp 0], F.init, []⟩, w)).join

/-- `runS8I` with its stores (src/rleX_Xsl_short.h:418-456, 1061-1122). -/
def memS8I (F : Fmt σ) (e : EmitSt σ) (fs0 : Mem → Nat → σ) (minR : Nat) (inp : Mem) (n : Nat) (w : Wr) : Option (ES σ × Wr) :=
  (loop (stored (wr8 e e inp n) (stepS8I F.emit minR inp n)) (6 * n + 6) (⟨.top, 0, 0, 0, [pick inp n], fs0 inp n, []⟩, w)).join

/-- `runWI` with its stores (src/rle8_extreme_cpu.h:353-510, 1103-1321). -/
def memWI (emit emitT : Emit σ) (e eT : EmitSt σ) (force : Nat → Nat → List Byte) (forceSt : Nat → Nat → List St) (short : Nat)
    (fs0 : Mem → Nat → σ) (inp : Mem) (n : Nat) (w : Wr) : Option (ES σ × Wr) :=
  (loop (stored (wrW e eT forceSt short inp n) (stepWI emit emitT force short inp n)) (12 * n + 12)
    (⟨⟨.top, 0, 0, 0, [pick inp n], fs0 inp n, []⟩, 0, 0⟩, w)).join.map fun x => (x.1.es, x.2)

/-- `runGI` with its stores (src/rleX_Xsl_short.h:775-989). -/
def memGI (F : Fmt Lut) (e : EmitSt Lut) (S : Nat) (inp : Mem) (n : Nat) (w : Wr) : Option (ES Lut × Wr) :=
  (loop (stored (wrX e inp) (stepGI F.emit S inp n)) (3 * n + 6)
    (⟨.top, 0, 0, 0, (rd inp 0 S).map (fun b => ~~~ b), F.init, []⟩, w)).join

/-- A compressor with that scanner on a buffer that held `m`: the size of the input at 0, the stream from 8 on, at last the size of the output at
4 (src/rleX_extreme_cpu_encode.h:16-24, 605-608). What `pre` writes is stored byte by byte (src/rle8_extreme_cpu.h:93-95, 353-370,
src/rleX_Xsl_short.h:420-421). Simplified: the header of rle8 is stored as 8 bytes whose last 4 are
undefined (src/rle8_extreme_cpu.h:93); they are overwritten at the end. -/
def Cdc.compressMem (c : Cdc σ) (run : Mem → Nat → Wr → Option (ES σ × Wr)) (e : EmitSt σ) (endRun : List St) (endLit : Nat → List St) (m : Mem)
    (pIn : Option Mem) (n : Nat) (pOut : Bool) (outSize : Nat) : MRes :=
  match pIn with
  | none => .fail
  | some inp =>
    if n = 0 ∨ pOut = false ∨ outSize < bounds n then .fail
    else
      match run inp n ((Wr.mk (wrL m 0 (le32 n)) 8 4).put [.all (c.pre (c.first inp n))]) with
      | none => .hang
      | some (s, w) =>
        let w := w.put (endWr e endRun endLit inp s)
        if w.hi ≤ outSize then .ok (w.idx % 4294967296) (wrL w.m 4 (le32 w.idx)) else .ub

end Hrk
