import Verif.StoresOut
import Verif.PropsReads

/-
C64: what a compressor leaves in its output buffer, store by store.
-/

namespace Hrk

/-! ### The compressors -/

/-- `LeCfg.compress` on a buffer that held `m`: the size of the input at 4, then one byte after the other, at last the size of the output at 0
(src/rle8_low_entropy_cpu.c:20-51, 441-546, src/rle8_low_entropy_short_cpu.c:30-61, 124-200). What is stored before it gives up is left out. -/
def LeCfg.compressMem (c : LeCfg) (m : Mem) (pIn : Option Mem) (n : Nat) (pOut : Bool) (outSize : Nat) : MRes :=
  match pIn with
  | none => .fail
  | some inp =>
    if n = 0 ∨ pOut = false ∨ outSize < leBounds n then .fail
    else
      let x := c.info inp n
      let w := writeInfo x
      if outSize < 8 then .ub
      else if outSize < 256 / 8 + 256 + 1 then .fail
      else if outSize < 8 + w.length then .ub
      else if (outSize - (8 + w.length)) % 4294967296 < n then .fail
      else
        match leEncode c.blk x inp n with
        | none => .hang
        | some d =>
          let w := (Wr.mk m 4 0).put ([.all (le32 n)] ++ w.map (fun b => .all [b]) ++ d.map (fun b => .all [b]))
          if w.hi ≤ outSize then .ok (w.idx % 4294967296) (wrL w.m 0 (le32 w.idx)) else .ub

/-- `shCompress` with all of the memory it leaves (src/rle_sh.c:269-505). -/
def shCompressMem (m : Mem) (pIn : Option Mem) (n : Nat) (pOut : Bool) (outSize : Nat) : MRes :=
  match pIn with
  | none => .fail
  | some inp =>
    if n = 0 ∨ pOut = false ∨ outSize < mmBounds n then .fail
    else
      let s := (shOps inp n).foldl (ShSink.op outSize) (shSink0 m n outSize)
      let hs := if s.nb = 0 then s.hs - 1 else s.hs
      let ph := if s.nb = 0 then s.ph + 1 else s.ph
      let m1 := wrL s.m s.p (rd s.m ph hs)
      let total := (s.p + hs) % 4294967296
      if s.bad = true ∨ outSize < s.p + hs then .ub else .ok total (wrL m1 4 (le32 total))

/-- `mmCompress` with all of the memory it leaves (src/rle8_mmtf.c:153-647). -/
def mmCompressMem (junk : Vec) (m : Mem) (pIn : Option Mem) (n : Nat) (pOut : Bool) (outSize : Nat) : MRes :=
  match pIn with
  | none => .fail
  | some inp =>
    if n = 0 ∨ pOut = false ∨ outSize < mmBounds n then .fail
    else
      match meLoop inp 0 (n / 16) (meInit junk m n) with
      | none => .ub
      | some s =>
        let r := meFinish s (rd inp (16 * (n / 16)) (n % 16))
        if r.1.hi ≤ outSize then .ok (r.2 % 4294967296) r.1.m else .ub

/-- The compressor of that name with all of the memory it leaves at `pOut`, where `m` was before; storing at or behind `outSize` is undefined
behaviour (src/rle.h). -/
def CName.runMem (f : CName) (cpu : Cpu) (junk : Vec) (m : Mem) (pIn : Option Mem) (n : Nat) (pOut : Bool) (outSize : Nat) : MRes :=
  match f with
  | .r8 true packed =>
    let c : R8Cfg := ⟨true, packed⟩
    c.cdc.compressMem (memWI c.emit c.emitT c.emitSt c.emitTSt c.force c.forceSt c.short c.first) c.emitTSt c.endRunSt c.endLitSt m pIn n pOut outSize
  | .r8 false packed =>
    let c : R8Cfg := ⟨false, packed⟩
    c.cdc.compressMem (mem8TI c.fmt c.emitT c.emitSt c.emitTSt (if cpu.avx2 then .avx2 else .sse2)) c.emitTSt c.endRunSt c.endLitSt
      m pIn n pOut outSize
  | .x S unb packed =>
    let c : XCfg := ⟨S, unb, packed⟩
    c.cdc.compressMem (memXI c.fmt c.emitSt S (c.simd cpu) unb) c.emitSt c.endRunSt c.endLitSt m pIn n pOut outSize
  | .sl N S unb =>
    let c : SlCfg := ⟨N, S, unb⟩
    c.cdc.compressMem (if S = 1 then mem8TI c.fmt c.fmt.emit c.emitSt c.emitSt (c.simd8 cpu) else memXI c.fmt c.emitSt S (c.simd cpu) unb)
      c.emitSt c.endRunSt c.endLitSt m pIn n pOut outSize
  | .sh N S unb mode =>
    let c : ShCfg := ⟨N, S, unb, mode⟩
    c.cdc.compressMem
      (match mode with
      | .single => memS8I c.fmt c.emitSt c.first c.minR
      | .greedy => memGI c.fmt c.emitSt S
      | .normal =>
        if S = 1 then mem8TI c.fmt c.fmt.emit c.emitSt c.emitSt (SlCfg.simd8 ⟨N, S, unb⟩ cpu)
        else memXI c.fmt c.emitSt S (SlCfg.simd ⟨N, S, unb⟩ cpu) unb)
      c.emitSt c.endRunSt c.endLitSt m pIn n pOut outSize
  | .x128 unb packed =>
    (cdc128 unb packed).compressMem (mem128I (fmt128 unb packed) (Hrk.x128 unb packed).emitSt unb) (Hrk.x128 unb packed).emitSt
      (Hrk.x128 unb packed).endRunSt128 (Hrk.x128 unb packed).endLitSt m pIn n pOut outSize
  | .rsh => shCompressMem m pIn n pOut outSize
  | .mm => mmCompressMem junk m pIn n pOut outSize
  | .le short onlyMax => LeCfg.compressMem ⟨short, onlyMax⟩ m pIn n pOut outSize

/-- How many bytes behind its output a compressor may store: one for the short 48 bit codecs without a table. -/
def CName.spill : CName → Nat
  | .sh N S _ _ => if N = 0 ∧ S = 6 then 1 else 0
  | _ => 0

/-! ### The scanners -/

/-- `run'` scans as `run` does and stores what that writes. -/
def MemIs {σ : Type} (run : Mem → Nat → Option (ES σ)) (run' : Mem → Nat → Wr → Option (ES σ × Wr)) (S : Nat) (inp : Mem) (n : Nat) (lits : Nat) :
    Prop :=
  ∀ m0 pre w, Ext m0 8 (symT S - S) pre w → ∃ s w', run inp n = some s ∧ run' inp n w = some (s, w') ∧ s.sym.length = S ∧
    lits ≤ s.i - s.lastRLE ∧ Ext m0 8 (symT S - S) (pre ++ s.out) w'

theorem memXI_is {σ : Type} (F : Fmt σ) {e : EmitSt σ} {S : Nat} (hS : symSize S) (he : EmitIs S F.emit e) (k : Simd) (unb : Bool) (inp : Mem)
    {n : Nat} (hn : 0 < n) : MemIs (runXI F S k unb) (memXI F e S k unb) S inp n 1 := by
  intro m0 pre w hw
  have hW : k.width = 0 ∨ S < k.width := by
    rcases hS with rfl | rfl | rfl | rfl | rfl <;> cases k <;> decide
  have h0 : 0 < S := by rcases hS with rfl | rfl | rfl | rfl | rfl <;> decide
  obtain ⟨s, w', h1, h2, ⟨h3, h4, h5, h6⟩, h7⟩ := stored_total (wr := wrX e inp) (stepI := stepXI F.emit S k unb inp n)
    (step := stepX F.emit S k.width unb inp n) (fun s => XInv S unb inp n (fun _ _ _ => True) s ∧ Far s)
    (fun s' => XInv S unb inp n (fun _ _ _ => True) s' ∧ n ≤ s'.i ∧ s'.pc = .top ∧ Far s') (muX n) ES.out m0 8 (symT S - S) pre
    (fun s hs => by
      refine ⟨stepXI_eq F.emit hS k unb inp n s hs.1.len, ?_, (wrX_is he inp s hs.1.len).1, (wrX_is he inp s hs.1.len).2,
        stepX_out he k.width unb inp n s hs.1.len⟩
      have a := stepX_inv (emit := F.emit) h0 hW (Nat.le_refl (n + S)) closed_true s hs.1
      have b := stepX_far (emit := F.emit) (W := k.width) (unb := unb) (inp := inp) (n := n) h0 s hs.1.last hs.2
      cases hx : stepX F.emit S k.width unb inp n s with
      | inl s' => rw [hx] at a b; exact ⟨⟨a.1, b⟩, a.2⟩
      | inr s' => rw [hx] at a b; exact ⟨a.1, a.2.1, a.2.2, b⟩) (6 * n + 6)
    ⟨.top, 0, 0, 0, (rd inp 0 S).map (fun b => ~~~ b), F.init, []⟩ w
    ⟨⟨trivial, by simp, by simp, by simp, by simp, fun _ => ⟨by simp, by intro k hk; simp at hk⟩, by simp, by simp⟩,
      fun _ _ => Or.inr rfl⟩
    (by simp [muX, PC.rank]) (by rw [List.append_nil]; exact hw)
  have := h6 (by rw [h5]; simp) (by rw [h5]; simp)
  exact ⟨s, w', h1, h2, h3.len, by omega, h7⟩

theorem mem128I_is {σ : Type} (F : Fmt σ) {e : EmitSt σ} (he : EmitIs 16 F.emit e) (unb : Bool) (inp : Mem) (n : Nat) :
    MemIs (run128I F unb) (mem128I F e unb) 16 inp n 0 := by
  intro m0 pre w hw
  obtain ⟨s, w', h1, h2, ⟨h3, h4, h5⟩, h7⟩ := stored_total (wr := wrX e inp) (stepI := step128I F.emit unb inp n)
    (step := step128 F.emit unb inp n) (XInv 16 unb inp n (fun _ _ _ => True))
    (fun s' => XInv 16 unb inp n (fun _ _ _ => True) s' ∧ n ≤ s'.i ∧ s'.pc = .top) (muX n) ES.out m0 8 (symT 16 - 16) pre
    (fun s hs => ⟨step128I_eq F.emit unb inp n s hs.len, step128_inv (Nat.le_refl (n + 16)) closed_true s hs, (wrX_is he inp s hs.len).1,
      (wrX_is he inp s hs.len).2, step128_out he unb inp n s hs.len⟩) (6 * n + 6)
    ⟨.top, 0, 0, 0, rd inp 0 16, F.init, []⟩ w
    ⟨trivial, by simp, by simp, by simp, by simp, fun _ => ⟨by simp, by intro k hk; simp at hk⟩, by simp, by simp⟩
    (by simp [muX, PC.rank]) (by rw [List.append_nil]; exact hw)
  exact ⟨s, w', h1, h2, h3.len, Nat.zero_le _, h7⟩

theorem mem8TI_is {σ : Type} (F : Fmt σ) {emitT : Emit σ} {e eT : EmitSt σ} (he : EmitIs 1 F.emit e) (heT : EmitIs 1 emitT eT) {k : Simd}
    (hk : k.vec) (inp : Mem) (n : Nat) : MemIs (run8TI F emitT k) (mem8TI F emitT e eT k) 1 inp n 0 := by
  intro m0 pre w hw
  have hW : 2 ≤ k.width := by rcases hk with rfl | rfl <;> decide
  obtain ⟨s, w', h1, h2, ⟨h3, h4, h5⟩, h7⟩ := stored_total (wr := wr8 e eT inp n) (stepI := step8I F.emit emitT k inp n)
    (step := step8 F.emit emitT k.width inp n) (Inv8 k.width inp n (fun _ _ _ => True))
    (fun s' => Inv8 k.width inp n (fun _ _ _ => True) s' ∧ n ≤ s'.i ∧ s'.pc = .scal) (mu8 n) ES.out m0 8 (symT 1 - 1) pre
    (fun s hs => ⟨step8I_eq F.emit emitT hk inp n s hs.len, step8_inv (unb := true) hW (Nat.le_refl n) closed_true closed_true s hs,
      (wr8_is he heT inp n s hs.len).1, (wr8_is he heT inp n s hs.len).2, step8_out he heT k.width inp n s hs.len⟩) (6 * n + 6)
    ⟨.top, 0, 0, 0, [~~~ inp 0], F.init, []⟩ w (inv8_start trivial) (by simp [mu8, PC.rank8]) (by rw [List.append_nil]; exact hw)
  exact ⟨s, w', h1, h2, h3.len, Nat.zero_le _, h7⟩

theorem memS8I_is {σ : Type} (F : Fmt σ) {e : EmitSt σ} (he : EmitIs 1 F.emit e) (fs0 : Mem → Nat → σ) (minR : Nat) (inp : Mem) (n : Nat) :
    MemIs (runS8I F fs0 minR pick) (memS8I F e fs0 minR) 1 inp n 0 := by
  intro m0 pre w hw
  obtain ⟨s, w', h1, h2, ⟨h3, h4, h5⟩, h7⟩ := stored_total (wr := wr8 e e inp n) (stepI := stepS8I F.emit minR inp n)
    (step := stepS8 F.emit minR inp n) (fun s => Inv8 16 inp n (fun _ _ _ => True) s ∧ s.pc ≠ .sscan ∧ (s.pc = .search → s.count = 0))
    (fun s' => Inv8 16 inp n (fun _ _ _ => True) s' ∧ n ≤ s'.i ∧ s'.pc = .scal) (mu8 n) ES.out m0 8 (symT 1 - 1) pre
    (fun s hs => ⟨stepS8I_eq F.emit minR inp n s hs.1.len, stepS8_inv (unb := true) (Nat.le_refl n) closed_true s hs,
      (wr8_is he he inp n s hs.1.len).1, (wr8_is he he inp n s hs.1.len).2, stepS8_out he minR inp n s hs.1.len⟩) (6 * n + 6)
    ⟨.top, 0, 0, 0, [pick inp n], fs0 inp n, []⟩ w ⟨inv8_start trivial, by simp, by simp⟩ (by simp [mu8, PC.rank8])
    (by rw [List.append_nil]; exact hw)
  exact ⟨s, w', h1, h2, h3.len, Nat.zero_le _, h7⟩

theorem memWI_is {σ : Type} {emit emitT emitF : Emit σ} {e eT : EmitSt σ} {force : Nat → Nat → List Byte} {forceSt : Nat → Nat → List St}
    {short long far : Nat} {fs0 : Mem → Nat → σ} (he : EmitIs 1 emit e) (heT : EmitIs 1 emitT eT) (hF : ∀ c l, StIs (force c l) (forceSt c l))
    (inp : Mem) {n : Nat} (hR : WRules emit emitT emitF force short long far (fs0 inp n) (pick inp n)) :
    MemIs (runWI emit emitT force short fs0 pick) (memWI emit emitT e eT force forceSt short fs0) 1 inp n 0 := by
  intro m0 pre w hw
  obtain ⟨s, w', h1, h2, ⟨h3, h4, h5⟩, h7⟩ := stored_total (wr := wrW e eT forceSt short inp n) (stepI := stepWI emit emitT force short inp n)
    (step := stepW emit emitT force short inp n) (WInv short long far (fs0 inp n) (pick inp n) inp n (fun _ _ _ => True))
    (fun w' => Inv8 16 inp n (fun _ _ _ => True) w'.es ∧ n ≤ w'.es.i ∧ w'.es.pc = .scal) (muW n) (fun w => w.es.out) m0 8 (symT 1 - 1) pre
    (fun w hw => ⟨stepWI_eq emit emitT force short inp n w hw.inv.1.len,
      stepW_inv (unb := true) (Nat.le_refl n) hR closed_true closed_true closed_true w hw,
      (wrW_is he heT hF short inp n w hw.inv.1.len).1, (wrW_is he heT hF short inp n w hw.inv.1.len).2,
      stepW_out he heT hF short inp n w hw.inv.1.len⟩) (12 * n + 12)
    ⟨⟨.top, 0, 0, 0, [pick inp n], fs0 inp n, []⟩, 0, 0⟩ w (wInv_start trivial)
    (by simp only [muW, mu8, PC.rank8, Nat.sub_zero]; omega) (by rw [List.append_nil]; exact hw)
  refine ⟨s.es, w', ?_, ?_, h3.len, Nat.zero_le _, h7⟩
  · unfold runWI
    rw [h1]
    rfl
  · unfold memWI
    rw [h2]
    rfl

theorem memGI_is (F : Fmt Lut) {e : EmitSt Lut} {N S : Nat} (hS : symSize S) (he : EmitIs S F.emit e)
    (hE : ∀ lut sym cnt lits bytes lut', Lut.ok N S lut → sym.length = S →
      F.emit lut sym cnt lits = some (bytes, lut') → Lut.ok N S lut') (h0 : Lut.ok N S F.init) (inp : Mem) (n : Nat) :
    MemIs (runGI F S) (memGI F e S) S inp n 0 := by
  intro m0 pre w hw
  have h2 : 2 ≤ S := by rcases hS with rfl | rfl | rfl | rfl | rfl <;> decide
  obtain ⟨s, w', h1, h2, ⟨h3, h4, h5⟩, h7⟩ := stored_total (wr := wrX e inp) (stepI := stepGI F.emit S inp n)
    (step := stepG F.emit S inp n) (GInv N S inp n (fun _ _ _ => True))
    (fun s' => GInv N S inp n (fun _ _ _ => True) s' ∧ n ≤ s'.i ∧ s'.pc = .top) (muG n) ES.out m0 8 (symT S - S) pre
    (fun s hs => ⟨stepGI_eq F.emit hS inp n s hs.len hs.lut.2, stepG_inv h2 rfl (Nat.le_refl (n + S)) closed_true hE s hs,
      (wrX_is he inp s hs.len).1, (wrX_is he inp s hs.len).2, stepG_out he inp n s hs.len⟩) (3 * n + 6)
    ⟨.top, 0, 0, 0, (rd inp 0 S).map (fun b => ~~~ b), F.init, []⟩ w (gInv_start trivial h0) (by simp [muG]; omega)
    (by rw [List.append_nil]; exact hw)
  exact ⟨s, w', h1, h2, h3.len, Nat.zero_le _, h7⟩

/-! ### The terminators -/

/-- The stores of the terminators leave the bytes of the terminators, and at most `q` bytes behind `lits` literals. -/
structure EndIs (endRun : List Byte) (endLit : Nat → List Byte) (eR : List St) (eL : Nat → List St) (S lits q : Nat) : Prop where
  run : flatSt eR = endRun ∧ Wide eR
  lit : ∀ k, flatSt (eL k) = endLit k ∧ Wide (eL k)
  runPad : ∀ p, p ≤ symT S - S → padL p eR ≤ q
  litPad : ∀ p k, p ≤ symT S - S → lits ≤ k → padL p (eL k) - k ≤ q

theorem symT_two (S : Nat) : symT S - S ≤ 2 := by
  unfold symT
  split
  · omega
  · split <;> omega

theorem wide_one {x : List Byte} {l : List St} (h : Wide l) : Wide (.all x :: l) := wide_all x h

theorem narrow_one {q : Nat} {x : List Byte} {l : List St} (h : Narrow q l) : Narrow q (.all x :: l) := narrow_all x h

theorem padL_sym {S : Nat} {l : List Byte} (h : l.length = S) (p : Nat) (x : List St) :
    padL p (.sym S l :: x) = padL (max (p - S) (symT S - S)) x := by
  have : (symVar S l).length - S = symT S - S := by unfold symVar; simp; omega
  show padL (max (p - S) ((symVar S l).length - S)) x = _
  rw [this]

theorem XCfg.endSymSt_is (c : XCfg) : flatSt c.endSymSt = c.endSym ∧ Wide c.endSymSt ∧ ∀ p, p ≤ symT c.S - c.S → padL p c.endSymSt = 0 := by
  have h2 := symT_two c.S
  have hr : (List.replicate c.S (0 : Byte)).length = c.S := List.length_replicate
  unfold XCfg.endSymSt XCfg.endSym
  split
  · refine ⟨rfl, wide_all _ (wide_all _ wide_nil), fun p hp => ?_⟩
    rw [padL_all, padL_all, padL_nil]
    simp only [List.length_singleton, le32_length]
    omega
  · refine ⟨?_, wide_sym hr (wide_all _ (wide_all _ wide_nil)), fun p hp => ?_⟩
    · rw [flatSt_sym hr]
      rfl
    · rw [padL_sym hr, padL_all, padL_all, padL_nil]
      simp only [List.length_singleton, le32_length]
      omega

theorem padL_zero {x : List St} (h : Narrow 0 x) : padL 0 x = 0 := Nat.le_zero.mp (h.padL (Nat.le_refl 0))

theorem XCfg.ends (c : XCfg) : EndIs c.endRun c.endLit c.endRunSt c.endLitSt c.S 0 0 := by
  obtain ⟨h1, h2, h3⟩ := c.endSymSt_is
  refine ⟨⟨?_, ?_⟩, fun k => ⟨?_, ?_⟩, fun p hp => ?_, fun p k hp _ => ?_⟩
  · unfold XCfg.endRunSt XCfg.endRun
    rw [flatSt_append, h1]
    congr 1
    split <;> rfl
  · refine h2.append ?_
    split <;> repeat (first | exact wide_nil | apply wide_one)
  · unfold XCfg.endLitSt XCfg.endLit
    rw [flatSt_append, h1]
    congr 1
    split <;> simp only [flatSt_all, flatSt_nil, List.append_nil, List.singleton_append]
  · refine h2.append ?_
    split <;> repeat (first | exact wide_nil | apply wide_one)
  · unfold XCfg.endRunSt
    rw [padL_append, h3 p hp]
    refine Nat.le_of_eq (padL_zero ?_)
    split <;> repeat (first | exact narrow_nil | apply narrow_one)
  · unfold XCfg.endLitSt
    rw [padL_append, h3 p hp, padL_zero]
    · exact Nat.le_of_eq (Nat.zero_sub _)
    · split <;> repeat (first | exact narrow_nil | apply narrow_one)

theorem XCfg.ends128 (c : XCfg) : EndIs (c.endSym ++ 0 :: le32 0) c.endLit c.endRunSt128 c.endLitSt c.S 0 0 := by
  obtain ⟨h1, h2, h3⟩ := c.endSymSt_is
  refine ⟨⟨?_, h2.append (wide_all _ (wide_all _ wide_nil))⟩, c.ends.lit, fun p hp => ?_, c.ends.litPad⟩
  · unfold XCfg.endRunSt128
    rw [flatSt_append, h1]
    rfl
  · unfold XCfg.endRunSt128
    rw [padL_append, h3 p hp, padL_zero (narrow_all _ (narrow_all _ narrow_nil))]

theorem SlCfg.ends (c : SlCfg) : EndIs c.endRun c.endLit c.endRunSt c.endLitSt c.S 0 0 := by
  have h2 := symT_two c.S
  refine ⟨⟨?_, ?_⟩, fun k => ⟨?_, ?_⟩, fun p hp => ?_, fun p k hp _ => ?_⟩
  · simp only [SlCfg.endRunSt, SlCfg.endRun, flatSt_all, flatSt_nil, List.append_nil, List.append_assoc]
  · unfold SlCfg.endRunSt
    repeat (first | exact wide_nil | apply wide_one)
  · simp only [SlCfg.endLitSt, SlCfg.endLit, flatSt_all, flatSt_nil, List.append_nil, List.append_assoc]
  · unfold SlCfg.endLitSt
    repeat (first | exact wide_nil | apply wide_one)
  · simp only [SlCfg.endRunSt, padL_all, padL_nil, le16_length]
    omega
  · simp only [SlCfg.endLitSt, padL_all, padL_nil, le16_length, le32_length]
    omega

theorem ShCfg.ends (c : ShCfg) (lits q : Nat) (hq : c.news 0 = true → symT c.S - c.S - lits ≤ q) :
    EndIs c.endRun c.endLit c.endRunSt c.endLitSt c.S lits q := by
  have h2 := symT_two c.S
  have hr : (List.replicate c.S (0 : Byte)).length = c.S := List.length_replicate
  refine ⟨⟨?_, ?_⟩, fun k => ⟨?_, ?_⟩, fun p hp => ?_, fun p k hp hk => ?_⟩
  · unfold ShCfg.endRunSt ShCfg.endRun
    rw [flatSt_append]
    split <;> simp [flatSt_all, flatSt_nil]
  · refine Wide.append (by repeat (first | exact wide_nil | apply wide_one)) ?_
    split <;> repeat (first | exact wide_nil | apply wide_one)
  · unfold ShCfg.endLitSt ShCfg.endLit
    rw [flatSt_append]
    split
    · rw [flatSt_sym hr]
      simp [flatSt_all, flatSt_nil]
    · simp [flatSt_all, flatSt_nil]
  · refine Wide.append (by repeat (first | exact wide_nil | apply wide_one)) ?_
    split
    · exact wide_sym hr wide_nil
    · exact wide_nil
  · unfold ShCfg.endRunSt
    rw [padL_append]
    simp only [padL_all, padL_nil, le16_length, List.length_singleton]
    rw [show p - 1 - 1 - 1 - 2 - 2 = 0 by omega, padL_zero]
    · exact Nat.zero_le _
    · split <;> repeat (first | exact narrow_nil | apply narrow_one)
  · unfold ShCfg.endLitSt
    rw [padL_append]
    simp only [padL_all, padL_nil, le16_length, le32_length, List.length_singleton]
    rw [show p - 1 - 1 - 1 - 2 - 4 = 0 by omega]
    cases hn : c.news 0 with
    | false => rw [if_neg (by simp), padL_nil]; omega
    | true =>
      have := hq hn
      rw [if_pos rfl, padL_sym hr, padL_nil]
      omega

theorem R8Cfg.ends (c : R8Cfg) : EndIs c.endRun c.endLit c.endRunSt c.endLitSt 1 0 0 := by
  have hp0 : symT 1 - 1 = 0 := rfl
  refine ⟨⟨?_, ?_⟩, fun k => ⟨?_, ?_⟩, fun p hp => ?_, fun p k hp _ => ?_⟩
  · unfold R8Cfg.endRunSt R8Cfg.endRun
    repeat' split
    all_goals rfl
  · unfold R8Cfg.endRunSt
    repeat' split
    all_goals repeat (first | exact wide_nil | apply wide_one)
  · unfold R8Cfg.endLitSt R8Cfg.endLit
    repeat' split
    all_goals simp [flatSt_all, flatSt_nil]
  · unfold R8Cfg.endLitSt
    repeat' split
    all_goals repeat (first | exact wide_nil | apply wide_one)
  · rw [show p = 0 by omega]
    refine Nat.le_of_eq (padL_zero ?_)
    unfold R8Cfg.endRunSt
    repeat' split
    all_goals repeat (first | exact narrow_nil | apply narrow_one)
  · rw [show p = 0 by omega, padL_zero]
    · omega
    · unfold R8Cfg.endLitSt
      repeat' split
      all_goals repeat (first | exact narrow_nil | apply narrow_one)

/-! ### The compressors -/

theorem rd_eq {m : Mem} {l : List Byte} (h : ∀ k, k < l.length → m k = l.getD k 0) : rd m 0 l.length = l := by
  apply List.ext_getElem
  · simp
  · intro k h1 h2
    have := h k h2
    simp only [List.getD_eq_getElem?_getD, List.getElem?_eq_getElem h2, Option.getD_some] at this
    simp [rd, this]

/-- The memory a compressor that returns `out` leaves: the stream, and nothing else but `q` bytes behind it. -/
def Leaves (r : MRes) (ret : Nat) (out : List Byte) (m : Mem) (q : Nat) : Prop :=
  ∃ m', r = .ok ret m' ∧ rd m' 0 out.length = out ∧ ∀ k, out.length + q ≤ k → m' k = m k

theorem Cdc.compressMem_leaves {σ : Type} {c : Cdc σ} {cpu : Cpu} {run' : Mem → Nat → Wr → Option (ES σ × Wr)} {e : EmitSt σ} {eR : List St}
    {eL : Nat → List St} {S lits q : Nat} {inp : Mem} {n outSize : Nat} (hr : 0 < n → MemIs (c.run cpu) run' S inp n lits)
    (he : EmitIs S c.emitEnd e) (hE : EndIs c.F.endRun c.F.endLit eR eL S lits q) {pOut : Bool} {ret : Nat} {out : List Byte}
    (h : c.compress cpu (some inp) n pOut outSize = .ok ret out) (ho : out.length + q ≤ outSize) (m : Mem) :
    Leaves (c.compressMem run' e eR eL m (some inp) n pOut outSize) ret out m q := by
  unfold Cdc.compress apiCompress Cdc.body at h
  dsimp only at h
  by_cases hg : n = 0 ∨ pOut = false ∨ outSize < bounds n
  · rw [if_pos hg] at h; cases h
  rw [if_neg hg] at h
  have hm0 : Ext (wrL m 0 (le32 n)) 8 0 [] ⟨wrL m 0 (le32 n), 8, 4⟩ :=
    ⟨rfl, fun k hk => absurd hk (Nat.not_lt_zero k), fun _ _ => rfl, fun _ _ => rfl, by show _ ≤ _; simp only []; omega⟩
  have hm1 := (hm0.put [.all (c.pre (c.first inp n))] (wide_all _ wide_nil)).mono
    ((narrow_all (q := symT S - S) (c.pre (c.first inp n)) narrow_nil).padL (Nat.zero_le _))
  rw [List.nil_append, flatSt_all, flatSt_nil, List.append_nil] at hm1
  obtain ⟨s, w, h1, h2, h3, h4, h5⟩ := hr (by omega) _ _ _ hm1
  obtain ⟨f1, f2⟩ := endWr_is he hE.run hE.lit inp s h3
  have hp := endWr_pad he (q := q) inp s h3 hE.runPad (fun p hp => hE.litPad p _ hp h4)
  have hw := (h5.put _ f2).mono hp
  rw [List.append_assoc, ← f1] at hw
  rw [h1] at h
  simp only [Option.map_some] at h
  generalize hb : c.pre (c.first inp n) ++ finish c.emitEnd c.F.endRun c.F.endLit inp s = b at h hw
  generalize hu : w.put (endWr e eR eL inp s) = u at hw
  have hidx := hw.idx
  have hhi := hw.hi
  have hlen : (le32 n ++ le32 (8 + b.length) ++ b).length = 8 + b.length := by simp [le32_length]; omega
  by_cases hfit : (le32 n ++ le32 (8 + b.length) ++ b).length ≤ outSize
  · rw [if_pos hfit] at h
    cases h
    rw [hlen] at ho
    refine ⟨wrL u.m 4 (le32 (8 + b.length)), ?_, rd_eq fun k hk => ?_, fun k hk => ?_⟩
    · unfold Cdc.compressMem
      dsimp only
      rw [if_neg hg, h2]
      dsimp only
      rw [hu, if_pos (by omega), hidx]
    · rw [hlen] at hk
      simp only [List.getD_eq_getElem?_getD]
      by_cases k4 : k < 4
      · rw [wrL_out (Or.inl k4), hw.low k (by omega)]
        have := wrL_in (m := m) (a := 0) (l := le32 n) (k := k) (by rw [le32_length]; exact k4)
        rw [Nat.zero_add] at this
        rw [this, List.append_assoc, List.getElem?_append_left (by rw [le32_length]; exact k4), List.getD_eq_getElem?_getD]
      · by_cases k8 : k < 8
        · have := wrL_in (m := u.m) (a := 4) (l := le32 (8 + b.length)) (k := k - 4) (by rw [le32_length]; omega)
          rw [show 4 + (k - 4) = k by omega] at this
          rw [this, List.getElem?_append_left (by simp [le32_length]; omega), List.getElem?_append_right (by rw [le32_length]; omega),
            le32_length, List.getD_eq_getElem?_getD]
        · rw [wrL_out (Or.inr (by rw [le32_length]; omega))]
          have := hw.mem (k - 8) (by omega)
          rw [show 8 + (k - 8) = k by omega] at this
          rw [this, List.getElem?_append_right (by simp [le32_length]; omega), List.getD_eq_getElem?_getD]
          simp [le32_length]
    · rw [hlen] at hk
      rw [wrL_out (Or.inr (by rw [le32_length]; omega)), hw.high k (by omega), wrL_out (Or.inr (by rw [le32_length]; omega))]
  · rw [if_neg hfit] at h
    cases h

theorem LeCfg.compressMem_leaves (c : LeCfg) {inp : Mem} {n outSize : Nat} {pOut : Bool} {ret : Nat} {out : List Byte}
    (h : c.compress (some inp) n pOut outSize = .ok ret out) (m : Mem) : Leaves (c.compressMem m (some inp) n pOut outSize) ret out m 0 := by
  have hbytes : ∀ l : List Byte, flatSt (l.map fun b => St.all [b]) = l ∧ Wide (l.map fun b => St.all [b]) ∧
      Narrow 0 (l.map fun b => St.all [b]) := by
    intro l
    induction l with
    | nil => exact ⟨rfl, wide_nil, narrow_nil⟩
    | cons x l ih => exact ⟨by rw [List.map_cons, flatSt_all, ih.1]; rfl, wide_all _ ih.2.1, narrow_all _ ih.2.2⟩
  unfold LeCfg.compress at h
  dsimp only at h
  unfold LeCfg.compressMem
  dsimp only
  by_cases hg : n = 0 ∨ pOut = false ∨ outSize < leBounds n
  · rw [if_pos hg] at h; cases h
  rw [if_neg hg] at h ⊢
  by_cases h8 : outSize < 8
  · rw [if_pos h8] at h; cases h
  rw [if_neg h8] at h ⊢
  by_cases h9 : outSize < 256 / 8 + 256 + 1
  · rw [if_pos h9] at h; cases h
  rw [if_neg h9] at h ⊢
  by_cases h10 : outSize < 8 + (writeInfo (c.info inp n)).length
  · rw [if_pos h10] at h; cases h
  rw [if_neg h10] at h ⊢
  by_cases h11 : (outSize - (8 + (writeInfo (c.info inp n)).length)) % 4294967296 < n
  · rw [if_pos h11] at h; cases h
  rw [if_neg h11] at h ⊢
  generalize writeInfo (c.info inp n) = wi at h ⊢
  cases hd : leEncode c.blk (c.info inp n) inp n with
  | none => rw [hd] at h; cases h
  | some d =>
    rw [hd] at h
    dsimp only at h ⊢
    have hm0 : Ext m 4 0 [] ⟨m, 4, 0⟩ := ⟨rfl, fun k hk => absurd hk (Nat.not_lt_zero k), fun _ _ => rfl, fun _ _ => rfl, by show _ ≤ _; simp only []; omega⟩
    have hw := (hm0.put ([.all (le32 n)] ++ wi.map (fun b => .all [b]) ++ d.map (fun b => .all [b]))
      (((wide_all _ wide_nil).append (hbytes wi).2.1).append (hbytes d).2.1)).mono
      ((((narrow_all _ narrow_nil).append (hbytes wi).2.2).append (hbytes d).2.2).padL (Nat.le_refl 0))
    rw [flatSt_append, flatSt_append, (hbytes wi).1, (hbytes d).1, flatSt_all, flatSt_nil, List.append_nil, List.nil_append] at hw
    generalize (Wr.mk m 4 0).put ([.all (le32 n)] ++ wi.map (fun b => .all [b]) ++ d.map (fun b => .all [b])) = u at hw ⊢
    have hidx : u.idx = 8 + wi.length + d.length := by
      rw [hw.idx]; simp [le32_length]; omega
    have hhi := hw.hi
    by_cases hfit : 8 + wi.length + d.length ≤ outSize
    · rw [if_pos hfit] at h
      cases h
      rw [if_pos (by omega), hidx]
      have hlen : (le32 (8 + wi.length + d.length) ++ le32 n ++ wi ++ d).length = 8 + wi.length + d.length := by simp [le32_length]; omega
      refine ⟨_, rfl, rd_eq fun k hk => ?_, fun k hk => ?_⟩
      · rw [hlen] at hk
        simp only [List.getD_eq_getElem?_getD]
        by_cases k4 : k < 4
        · have := wrL_in (m := u.m) (a := 0) (l := le32 (8 + wi.length + d.length)) (k := k) (by rw [le32_length]; exact k4)
          rw [Nat.zero_add] at this
          rw [this, List.append_assoc, List.append_assoc, List.getElem?_append_left (by rw [le32_length]; exact k4), List.getD_eq_getElem?_getD]
        · rw [wrL_out (Or.inr (by rw [le32_length]; omega))]
          have := hw.mem (k - 4) (by simp [le32_length]; omega)
          rw [show 4 + (k - 4) = k by omega] at this
          rw [this, show le32 (8 + wi.length + d.length) ++ le32 n ++ wi ++ d = le32 (8 + wi.length + d.length) ++ (le32 n ++ wi ++ d) by
            simp only [List.append_assoc], List.getElem?_append_right (by rw [le32_length]; omega), le32_length, List.getD_eq_getElem?_getD]
      · rw [hlen] at hk
        rw [wrL_out (Or.inr (by rw [le32_length]; omega)), hw.high k (by omega)]
    · rw [if_neg hfit] at h
      cases h

theorem CName.runMem_leaves (f : CName) (hf : f.exists?) (h1 : f ≠ .rsh) (h2 : f ≠ .mm) (cpu : Cpu) (junk : Vec) (m : Mem) {inp : Mem}
    {n outSize : Nat} {pOut : Bool} {ret : Nat} {out : List Byte} (h : f.run cpu junk m (some inp) n pOut outSize = .ok ret out)
    (ho : out.length + f.spill ≤ outSize) : Leaves (f.runMem cpu junk m (some inp) n pOut outSize) ret out m f.spill := by
  cases f with
  | r8 s p =>
    cases s with
    | true =>
      refine Cdc.compressMem_leaves (fun hn => ?_) (R8Cfg.emitTSt_is ⟨true, p⟩) (R8Cfg.ends ⟨true, p⟩) h ho m
      exact memWI_is (emitF := R8Cfg.emitF ⟨true, p⟩) (long := R8Cfg.long ⟨true, p⟩) (R8Cfg.emitSt_is ⟨true, p⟩) (R8Cfg.emitTSt_is ⟨true, p⟩)
        (R8Cfg.forceSt_is ⟨true, p⟩) inp (R8Cfg.wrules ⟨true, p⟩ rfl inp n)
    | false =>
      refine Cdc.compressMem_leaves (fun hn => ?_) (R8Cfg.emitTSt_is ⟨false, p⟩) (R8Cfg.ends ⟨false, p⟩) h ho m
      exact mem8TI_is _ (R8Cfg.emitSt_is ⟨false, p⟩) (R8Cfg.emitTSt_is ⟨false, p⟩) (SlCfg.vec ⟨0, 0, false⟩ cpu) inp n
  | x S u p =>
    refine Cdc.compressMem_leaves (lits := 1) (fun hn => ?_) (XCfg.emitSt_is ⟨S, u, p⟩) ?_ h ho m
    · exact memXI_is _ (XCfg.sym hf) (XCfg.emitSt_is ⟨S, u, p⟩) _ u inp hn
    · exact ⟨(XCfg.ends ⟨S, u, p⟩).run, (XCfg.ends ⟨S, u, p⟩).lit, (XCfg.ends ⟨S, u, p⟩).runPad,
        fun q k hq _ => (XCfg.ends ⟨S, u, p⟩).litPad q k hq (Nat.zero_le _)⟩
  | sl N S u =>
    refine Cdc.compressMem_leaves (lits := 0) (fun hn => ?_) (SlCfg.emitSt_is ⟨N, S, u⟩) (SlCfg.ends ⟨N, S, u⟩) h ho m
    show MemIs (if S = 1 then run8TI _ _ _ else runXI _ _ _ _) (if S = 1 then _ else _) S inp n 0
    by_cases hS : S = 1
    · subst hS
      exact mem8TI_is _ (SlCfg.emitSt_is ⟨N, 1, u⟩) (SlCfg.emitSt_is ⟨N, 1, u⟩) (SlCfg.vec _ cpu) inp n
    · rw [if_neg hS, if_neg hS]
      intro m0 pre w hw
      obtain ⟨s, w', a, b, c, _, d⟩ := memXI_is (SlCfg.fmt ⟨N, S, u⟩) (SlCfg.sym hf hS) (SlCfg.emitSt_is ⟨N, S, u⟩)
        (SlCfg.simd ⟨N, S, u⟩ cpu) u inp hn m0 pre w hw
      exact ⟨s, w', a, b, c, Nat.zero_le _, d⟩
  | sh N S u md =>
    have hN : ShCfg.news ⟨N, S, u, md⟩ 0 = true → N = 0 := by
      intro hn
      unfold ShCfg.news at hn
      simp at hn
      omega
    cases md with
    | single =>
      have h1 : S = 1 := (hf.2.2.2.1 rfl).2
      subst h1
      refine Cdc.compressMem_leaves (lits := 0) (fun hn => ?_) (ShCfg.emitSt_is ⟨N, 1, u, .single⟩)
        (ShCfg.ends ⟨N, 1, u, .single⟩ 0 _ fun _ => Nat.zero_le _) h ho m
      exact memS8I_is _ (ShCfg.emitSt_is ⟨N, 1, u, .single⟩) _ _ inp n
    | greedy =>
      have h2 : 2 ≤ S := (hf.2.2.2.2 rfl).2.1
      refine Cdc.compressMem_leaves (lits := 0) (fun hn => ?_) (ShCfg.emitSt_is ⟨N, S, u, .greedy⟩)
        (ShCfg.ends ⟨N, S, u, .greedy⟩ 0 _ fun hn => absurd (hN hn) (by have := (hf.2.2.2.2 rfl).1; dsimp only at this; omega)) h ho m
      exact memGI_is (N := ShCfg.tab ⟨N, S, u, .greedy⟩) _ (ShCfg.sym hf (by omega)) (ShCfg.emitSt_is ⟨N, S, u, .greedy⟩)
        (ShCfg.emit_lut ⟨N, S, u, .greedy⟩) (ShCfg.init_ok ⟨N, S, u, .greedy⟩ hf) inp n
    | normal =>
      by_cases h1 : S = 1
      · subst h1
        refine Cdc.compressMem_leaves (lits := 0) (fun hn => ?_) (ShCfg.emitSt_is ⟨N, 1, u, .normal⟩)
          (ShCfg.ends ⟨N, 1, u, .normal⟩ 0 _ fun _ => Nat.zero_le _) h ho m
        exact mem8TI_is _ (ShCfg.emitSt_is ⟨N, 1, u, .normal⟩) (ShCfg.emitSt_is ⟨N, 1, u, .normal⟩) (SlCfg.vec _ cpu) inp n
      · refine Cdc.compressMem_leaves (lits := 1) (fun hn => ?_) (ShCfg.emitSt_is ⟨N, S, u, .normal⟩)
          (ShCfg.ends ⟨N, S, u, .normal⟩ 1 _ fun hn => ?_) h ho m
        · show MemIs (if S = 1 then run8TI _ _ _ else runXI _ _ _ _) (if S = 1 then _ else _) S inp n 1
          rw [if_neg h1, if_neg h1]
          exact memXI_is _ (ShCfg.sym hf h1) (ShCfg.emitSt_is ⟨N, S, u, .normal⟩) _ u inp hn
        · show symT S - S - 1 ≤ (if N = 0 ∧ S = 6 then 1 else 0)
          by_cases h6 : S = 6
          · rw [if_pos ⟨hN hn, h6⟩, h6]
            decide
          · rw [if_neg (fun x => h6 x.2)]
            rcases ShCfg.sym hf h1 with rfl | rfl | rfl | rfl | rfl
            all_goals first
              | exact absurd rfl h6
              | decide
  | x128 u p =>
    refine Cdc.compressMem_leaves (fun hn => ?_) (XCfg.emitSt_is (Hrk.x128 u p)) (XCfg.ends128 (Hrk.x128 u p)) h ho m
    exact mem128I_is (fmt128 u p) (XCfg.emitSt_is (Hrk.x128 u p)) u inp n
  | rsh => exact absurd rfl h1
  | mm => exact absurd rfl h2
  | le sh om => exact LeCfg.compressMem_leaves ⟨sh, om⟩ h m

/-! ### The other two: what they store stays below `outSize` -/

/-- Nothing at or behind `hi` has been stored. -/
def Buf.Fr (m0 : Mem) (b : Buf) : Prop := ∀ k, b.hi ≤ k → b.m k = m0 k

theorem Buf.Fr.put {m0 : Mem} {b : Buf} (h : b.Fr m0) (a : Nat) (l : List Byte) : (b.put a l).Fr m0 := by
  intro k hk
  have hk : max b.hi (a + l.length) ≤ k := hk
  show wrL b.m a l k = m0 k
  rw [wrL_out (Or.inr (by omega)), h k (by omega)]

theorem ipWhile_fr {m0 : Mem} (lim k d : Nat) (f : List Byte → List Byte) (fuel : Nat) (s : Buf × Nat × Nat × Nat) (h : s.1.Fr m0) :
    (ipWhile lim k d f fuel s).1.Fr m0 := by
  induction fuel generalizing s with
  | zero => exact h
  | succ fuel ih =>
    obtain ⟨b, rp, wp, left⟩ := s
    unfold ipWhile
    split
    · exact ih _ (Buf.Fr.put h _ _)
    · exact h

theorem closeCopy_fr {m0 : Mem} {b : Buf} (h : b.Fr m0) (last pOut count : Nat) (mask : Vec) : (closeCopy b last pOut count mask).1.Fr m0 := by
  have e2 : ∀ b : Buf, b.Fr m0 → ∀ rp wp n, (ipEnc2 b rp wp n).1.Fr m0 := fun b h _ _ _ => ipWhile_fr _ _ _ _ _ _ (ipWhile_fr _ _ _ _ _ _ h)
  have e3 : ∀ b : Buf, b.Fr m0 → ∀ rp wp n, (ipEnc3 b rp wp n).1.Fr m0 := fun b h _ _ _ => ipWhile_fr _ _ _ _ _ _ (ipWhile_fr _ _ _ _ _ _ h)
  have e4 : ∀ b : Buf, b.Fr m0 → ∀ rp wp n, (ipEnc4 b rp wp n).1.Fr m0 := by
    intro b h rp wp n
    have := ipWhile_fr 32 32 16 pack4x2 n (b, rp, wp, n) h
    unfold ipEnc4
    dsimp only
    split
    · exact Buf.Fr.put this _ _
    · exact this
  have e0 : ∀ b : Buf, b.Fr m0 → ∀ rp wp n, (ipMove b rp wp n).1.Fr m0 := fun b h _ _ _ => ipWhile_fr _ _ _ _ _ _ h
  unfold closeCopy
  repeat' split
  · exact e2 _ ((h.put _ _).put _ _) _ _ _
  · exact e3 _ ((h.put _ _).put _ _) _ _ _
  · exact e4 _ ((h.put _ _).put _ _) _ _ _
  · exact e0 _ (h.put _ _) _ _ _
  · exact e2 _ ((h.put _ _).put _ _) _ _ _
  · exact e3 _ ((h.put _ _).put _ _) _ _ _
  · exact e4 _ ((h.put _ _).put _ _) _ _ _
  · exact h.put _ _

theorem closeRle_fr {m0 : Mem} {b : Buf} (h : b.Fr m0) (last count : Nat) (x : Byte) : (closeRle b last count x).1.Fr m0 := by
  unfold closeRle
  split <;> exact (h.put _ _).put _ _

theorem meOut_fr {m0 : Mem} {s : MEnc} (h : s.b.Fr m0) (hist : Nat → Vec) (o : List Byte) : (meOut s hist o).b.Fr m0 := by
  unfold meOut
  dsimp only
  repeat' split
  · exact closeCopy_fr h _ _ _ _
  · exact h.put _ _
  · exact h
  · exact (closeRle_fr h _ _ _).put _ _
  · exact (closeRle_fr h _ _ _).put _ _

theorem meLoop_fr {m0 inp : Mem} (k : Nat) : ∀ (i : Nat) (s s' : MEnc), s.b.Fr m0 → meLoop inp i k s = some s' → s'.b.Fr m0 := by
  induction k with
  | zero => intro i s s' h e; cases e; exact h
  | succ k ih =>
    intro i s s' h e
    unfold meLoop at e
    split at e
    · cases e
    · exact ih _ _ _ (meOut_fr h _ _) e

theorem meFinish_fr {m0 : Mem} {s : MEnc} (h : s.b.Fr m0) (tail : List Byte) : (meFinish s tail).1.Fr m0 := by
  unfold meFinish
  dsimp only
  refine Buf.Fr.put (Buf.Fr.put ?_ _ _) _ _
  split
  · exact (closeCopy_fr h _ _ _ _).put _ _
  · exact ((closeRle_fr h _ _ _).put _ _).put _ _

theorem mmCompressMem_eq {junk : Vec} {m inp : Mem} {n outSize : Nat} {pOut : Bool} {ret : Nat} {out : List Byte}
    (h : mmCompress junk m (some inp) n pOut outSize = .ok ret out) : ∃ m', mmCompressMem junk m (some inp) n pOut outSize = .ok ret m' ∧
      rd m' 0 out.length = out ∧ ∀ k, outSize ≤ k → m' k = m k := by
  unfold mmCompress at h
  unfold mmCompressMem
  dsimp only at h ⊢
  by_cases hg : n = 0 ∨ pOut = false ∨ outSize < mmBounds n
  · rw [if_pos hg] at h; cases h
  rw [if_neg hg] at h ⊢
  cases he : meLoop inp 0 (n / 16) (meInit junk m n) with
  | none => rw [he] at h; cases h
  | some s =>
    rw [he] at h
    dsimp only at h ⊢
    have hf := meFinish_fr (meLoop_fr (m0 := m) _ _ _ _ (Buf.Fr.put (b := ⟨m, 0⟩) (fun _ _ => rfl) 0 (le32 n)) he)
      (rd inp (16 * (n / 16)) (n % 16))
    by_cases hl : (meFinish s (rd inp (16 * (n / 16)) (n % 16))).1.hi ≤ outSize
    · rw [if_pos hl] at h ⊢
      cases h
      exact ⟨_, rfl, by simp, fun k hk => hf k (by omega)⟩
    · rw [if_neg hl] at h
      cases h

/-- Unless something has gone wrong, nothing at or behind `outSize` has been stored. -/
def ShSink.Fr (m0 : Mem) (outSize : Nat) (s : ShSink) : Prop :=
  s.bad = false → 8 ≤ outSize ∧ s.ph < outSize ∧ ∀ k, outSize ≤ k → s.m k = m0 k

theorem ShSink.Fr.bit {m0 : Mem} {outSize : Nat} {s : ShSink} (h : s.Fr m0 outSize) (b : Bool) : (s.bit b).Fr m0 outSize := by
  unfold ShSink.bit
  dsimp only
  split
  · intro hb
    simp at hb
    obtain ⟨h1, h2, h3⟩ := h hb.1
    refine ⟨h1, by dsimp only; omega, fun k hk => ?_⟩
    show (if k = s.ph - 1 then _ else if k = s.ph then _ else s.m k) = _
    rw [if_neg (by omega), if_neg (by omega), h3 k hk]
  · intro hb
    obtain ⟨h1, h2, h3⟩ := h hb
    refine ⟨h1, h2, fun k hk => ?_⟩
    show (if k = s.ph then _ else s.m k) = _
    rw [if_neg (by omega), h3 k hk]

theorem ShSink.Fr.op {m0 : Mem} {outSize : Nat} {s : ShSink} (h : s.Fr m0 outSize) (o : ShOp) : (s.op outSize o).Fr m0 outSize := by
  cases o with
  | bits v c =>
    show ((patBits v c).foldl ShSink.bit s).Fr m0 outSize
    generalize patBits v c = l
    induction l generalizing s with
    | nil => exact h
    | cons x l ih => exact ih (h.bit x)
  | bytes l =>
    intro hb
    have hb : (s.bad || decide (outSize < s.p + l.length)) = false := hb
    simp at hb
    obtain ⟨h1, h2, h3⟩ := h hb.1
    refine ⟨h1, h2, fun k hk => ?_⟩
    show wrL s.m s.p l k = _
    rw [wrL_out (Or.inr (by omega)), h3 k hk]

theorem shCompressMem_eq {m inp : Mem} {n outSize : Nat} {pOut : Bool} {ret : Nat} {out : List Byte}
    (h : shCompress m (some inp) n pOut outSize = .ok ret out) : ∃ m', shCompressMem m (some inp) n pOut outSize = .ok ret m' ∧
      rd m' 0 out.length = out ∧ ∀ k, outSize ≤ k → m' k = m k := by
  unfold shCompress at h
  unfold shCompressMem
  dsimp only at h ⊢
  by_cases hg : n = 0 ∨ pOut = false ∨ outSize < mmBounds n
  · rw [if_pos hg] at h; cases h
  rw [if_neg hg] at h ⊢
  have h0 : (shSink0 m n outSize).Fr m outSize := by
    intro hb
    have hb : decide (outSize < 8) = false := hb
    simp at hb
    refine ⟨hb, by show outSize - 1 < outSize; omega, fun k hk => ?_⟩
    show (if k = outSize - 1 then 0 else wrL m 0 (le32 n) k) = _
    rw [if_neg (by omega), wrL_out (Or.inr (by rw [le32_length]; omega))]
  have hs : ∀ (l : List ShOp) (s : ShSink), s.Fr m outSize → (l.foldl (ShSink.op outSize) s).Fr m outSize := by
    intro l
    induction l with
    | nil => exact fun s h => h
    | cons x l ih => exact fun s h => ih _ (h.op x)
  have hf := hs (shOps inp n) _ h0
  generalize (shOps inp n).foldl (ShSink.op outSize) (shSink0 m n outSize) = s at h hf ⊢
  generalize (if s.nb = 0 then s.hs - 1 else s.hs) = hs at h ⊢
  generalize (if s.nb = 0 then s.ph + 1 else s.ph) = ph at h ⊢
  by_cases hl : s.bad = true ∨ outSize < s.p + hs
  · rw [if_pos hl] at h; cases h
  · rw [if_neg hl] at h ⊢
    cases h
    refine ⟨_, rfl, by simp, fun k hk => ?_⟩
    obtain ⟨h1, _, h3⟩ := hf (by cases hx : s.bad <;> simp [hx] at hl ⊢)
    rw [wrL_out (Or.inr (by rw [le32_length]; omega)), wrL_out (Or.inr (by simp; omega)), h3 k hk]

/-! ### The property -/

/-- C64, what holds: every row of the table but `rle8_sh` and `rle8_mmtf128`, on every cpu and with whatever the buffer held, leaves its output in the
buffer and has not touched anything behind it; the short 48 bit codecs without a table may touch one byte more, if there is room for it. -/
theorem C64_table_partial (row : Row) (hr : row ∈ table) (h1 : row.comp ≠ .rsh) (h2 : row.comp ≠ .mm) (cpu : Cpu) (junk : Vec) (m inp : Mem)
    (n outSize : Nat) (pOut : Bool) (ret : Nat) (out : List Byte) (h : row.comp.run cpu junk m (some inp) n pOut outSize = .ok ret out)
    (ho : out.length + row.comp.spill ≤ outSize) :
    ∃ m', row.comp.runMem cpu junk m (some inp) n pOut outSize = .ok ret m' ∧ rd m' 0 out.length = out ∧
      ∀ k, out.length + row.comp.spill ≤ k → m' k = m k := by
  have key : table.all (fun r => decide r.comp.exists?) = true := by decide +kernel
  exact row.comp.runMem_leaves (of_decide_eq_true (List.all_eq_true.mp key row hr)) h1 h2 cpu junk m h ho

/-- C64, what holds of all rows: the output is in the buffer, and nothing at or behind `outSize` has been touched. -/
theorem C64_room (row : Row) (hr : row ∈ table) (cpu : Cpu) (junk : Vec) (m inp : Mem) (n outSize : Nat) (pOut : Bool) (ret : Nat) (out : List Byte)
    (h : row.comp.run cpu junk m (some inp) n pOut outSize = .ok ret out) (ho : out.length + row.comp.spill ≤ outSize) :
    ∃ m', row.comp.runMem cpu junk m (some inp) n pOut outSize = .ok ret m' ∧ rd m' 0 out.length = out ∧ ∀ k, outSize ≤ k → m' k = m k := by
  by_cases h1 : row.comp = .rsh
  · rw [h1] at h ⊢
    exact shCompressMem_eq h
  by_cases h2 : row.comp = .mm
  · rw [h2] at h ⊢
    exact mmCompressMem_eq h
  obtain ⟨m', a, b, c⟩ := C64_table_partial row hr h1 h2 cpu junk m inp n outSize pOut ret out h ho
  exact ⟨m', a, b, fun k hk => c k (by omega)⟩

/-- What is found at `k` behind a compressor that has returned `ret`. -/
def MRes.at (r : MRes) (ret k : Nat) : Option Byte :=
  match r with
  | .ok ret' m => if ret' = ret then some (m k) else none
  | _ => none

/-- Against C64: both short 48 bit codecs without a table, on every cpu, compress a byte to 24, and overwrite the 25th of the buffer as well. -/
theorem C64_short48_violated (cpu : Cpu) : ∀ row ∈ table, row.comp.spill = 1 → ∃ m inp : Mem,
    (row.comp.runMem cpu (vset1 0) m (some inp) 1 true (bounds 1)).at 24 24 = some 0 ∧ m 24 ≠ 0 := by
  intro row hr hs
  refine ⟨fun _ => 255, fun k => if k = 0 then 5 else 0, ?_, by decide⟩
  have key : table.all (fun r => r.comp.spill != 1 || r.comp == .sh 0 6 true .normal || r.comp == .sh 0 6 false .normal) = true := by
    decide +kernel
  have := List.all_eq_true.mp key row hr
  simp [hs] at this
  obtain ⟨a, b, c, d, e, f⟩ := cpu
  rcases this with h | h
  · rw [h]
    revert a b c d e f
    decide +kernel
  · rw [h]
    revert a b c d e f
    decide +kernel

example : (table.filter fun r => r.comp.spill == 1).map (·.id) = ["Extreme48SymShort", "Extreme48ByteShort"] := by decide +kernel

/-- Against C64: `rle8_sh` compresses a byte to 15, and overwrites the last two bytes of a buffer of 40. -/
theorem C64_sh_violated (cpu : Cpu) : ∃ m inp : Mem, (CName.runMem .rsh cpu (vset1 0) m (some inp) 1 true 40).at 15 38 = some 0 ∧
    (CName.runMem .rsh cpu (vset1 0) m (some inp) 1 true 40).at 15 39 = some 253 ∧ m 38 ≠ 0 ∧ m 39 ≠ 253 :=
  ⟨fun _ => 255, fun _ => 5, by
    show (shCompressMem (fun _ => 255) (some fun _ => 5) 1 true 40).at 15 38 = some 0
    decide +kernel, by
    show (shCompressMem (fun _ => 255) (some fun _ => 5) 1 true 40).at 15 39 = some 253
    decide +kernel, by decide, by decide⟩

/-- Against C64: `rle8_mmtf128` compresses 16 bytes to 14, and leaves what it has made of the last 14 of them in the 14 bytes behind as well. -/
theorem C64_mmtf128_violated (cpu : Cpu) : ∃ m inp : Mem, ∀ k, k < 14 →
    (CName.runMem .mm cpu (vset1 0) m (some inp) 16 true 40).at 14 (14 + k) = some (inp (k + 2)) ∧ inp (k + 2) ≠ m (14 + k) :=
  ⟨fun _ => 255, fun k => b8 (k % 2), by
    show ∀ k, k < 14 → (mmCompressMem (vset1 0) (fun _ => 255) (some fun k => b8 (k % 2)) 16 true 40).at 14 (14 + k) = some (b8 ((k + 2) % 2)) ∧
      b8 ((k + 2) % 2) ≠ 255
    decide +kernel⟩

/-! ### The theorems apply -/

/-- A run and three more bytes. -/
def storesInp : Mem := fun k => if k < 40 then 9 else b8 (k * 7)

/-- The hypotheses of `C64_table_partial` are met by a packed 24 bit codec, whose symbols are stored as four bytes. -/
example : (⟨"Extreme24SymPacked", .x 3 false true, .x 3 false true⟩ : Row) ∈ table ∧ ∃ out,
    CName.run (.x 3 false true) ⟨true, true, true, true, true, false⟩ (vset1 0) (fun _ => 255) (some storesInp) 43 true (bounds 43) = .ok out.length out ∧
      out.length + CName.spill (.x 3 false true) ≤ bounds 43 := by
  exact ⟨by decide +kernel, [43, 0, 0, 0, 27, 0, 0, 0, 13, 9, 9, 9, 1, 128, 0, 0, 0, 0, 0, 5, 0, 0, 0, 9, 24, 31, 38], by decide +kernel, by decide⟩

/-- Those of `C64_room` by `rle8_sh`. -/
example : (⟨"Rle8SH", .rsh, .rsh⟩ : Row) ∈ table ∧
    CName.run .rsh ⟨true, true, true, true, true, false⟩ (vset1 0) (fun _ => 255) (some fun _ => 5) 1 true 40 =
      .ok 15 [1, 0, 0, 0, 15, 0, 0, 0, 5, 0, 0, 0, 0, 0, 253] := by
  exact ⟨by decide +kernel, by decide +kernel⟩

end Hrk
