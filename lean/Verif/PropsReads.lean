import Verif.ReadsOut
import Verif.ReadsLow
import Verif.PropsEncWork

/-
C63: what a compressor reads of its input, access by access.
-/

namespace Hrk

/-! ### The compressors on an input of which only `lim` bytes may be read -/

/-- The guarded `runXI`, `none` if it reads at or behind `lim` (src/rleX_extreme_cpu_encode.h:26-382). The initial symbol is read as a
`symbol_t`. -/
def inXI {σ : Type} (F : Fmt σ) (S : Nat) (k : Simd) (unb : Bool) (inp : Mem) (n lim : Nat) : Option (ES σ) :=
  if symT S ≤ lim then
    (loop (guardR (reachX F.emit S k inp n) lim (stepXI F.emit S k unb inp n)) (6 * n + 6)
      ⟨.top, 0, 0, 0, (rd inp 0 S).map (fun b => ~~~ b), F.init, []⟩).join
  else none

/-- The guarded `run128I` (src/rle128_extreme_cpu.h:43-281). -/
def in128I {σ : Type} (F : Fmt σ) (unb : Bool) (inp : Mem) (n lim : Nat) : Option (ES σ) :=
  if 16 ≤ lim then
    (loop (guardR (reach128 F.emit n) lim (step128I F.emit unb inp n)) (6 * n + 6) ⟨.top, 0, 0, 0, rd inp 0 16, F.init, []⟩).join
  else none

/-- The guarded `run8TI` (src/rleX_Xsl.h:289-485, src/rleX_Xsl_short.h:411-662, src/rle8_extreme_cpu.h:102-200, 768-1099). -/
def in8TI {σ : Type} (F : Fmt σ) (emitT : Emit σ) (k : Simd) (inp : Mem) (n lim : Nat) : Option (ES σ) :=
  if 1 ≤ lim then
    (loop (guardR (reach8 F.emit emitT k n) lim (step8I F.emit emitT k inp n)) (6 * n + 6) ⟨.top, 0, 0, 0, [~~~ inp 0], F.init, []⟩).join
  else none

/-- The guarded `pickOI` (src/rle8_extreme_cpu.c:53-153). -/
def inPick (inp : Mem) (n lim : Nat) : Option Byte :=
  if 1 ≤ lim then
    (loop (guardR (reachPick n) lim (pickStepI inp n)) (2 * n + 3) (pickInit inp)).join.map fun s => b8 (pickMax s.tally.prob s.tally.pcount)
  else none

/-- The guarded `runS8I`, for the symbol `inPick` finds (src/rleX_Xsl_short.h:418-456, 1061-1122). -/
def inS8I {σ : Type} (F : Fmt σ) (fs0 : Mem → Nat → σ) (minR : Nat) (inp : Mem) (n lim : Nat) : Option (ES σ) :=
  (inPick inp n lim).bind fun b =>
    (loop (guardR (reachS8 F.emit n) lim (stepS8I F.emit minR inp n)) (6 * n + 6) ⟨.top, 0, 0, 0, [b], fs0 inp n, []⟩).join

/-- The guarded `runWI`, for the symbol `inPick` finds (src/rle8_extreme_cpu.h:353-510, 1103-1321). -/
def inWI {σ : Type} (emit emitT : Emit σ) (force : Nat → Nat → List Byte) (short : Nat) (fs0 : Mem → Nat → σ) (inp : Mem) (n lim : Nat) :
    Option (ES σ) :=
  (inPick inp n lim).bind fun b =>
    (loop (guardR (reachW emit emitT short n) lim (stepWI emit emitT force short inp n)) (12 * n + 12)
      ⟨⟨.top, 0, 0, 0, [b], fs0 inp n, []⟩, 0, 0⟩).join.map WS.es

/-- The guarded `runGI` (src/rleX_Xsl_short.h:775-989). -/
def inGI (F : Fmt Lut) (S : Nat) (inp : Mem) (n lim : Nat) : Option (ES Lut) :=
  if symT S ≤ lim then
    (loop (guardR (reachG F.emit S n) lim (stepGI F.emit S inp n)) (3 * n + 6)
      ⟨.top, 0, 0, 0, (rd inp 0 S).map (fun b => ~~~ b), F.init, []⟩).join
  else none

/-- The compressor with that guarded scanner; the block behind the loop reads the literals it copies
(src/rleX_extreme_cpu_encode.h:21-608). -/
def Cdc.compressIn {σ : Type} (c : Cdc σ) (run : Mem → Nat → Nat → Option (ES σ)) (lim : Nat) : Compress := fun pIn n pOut outSize =>
  match apiCompress (fun inp n => (run inp n lim).bind fun s =>
    if endReach c.emitEnd s ≤ lim then some (c.pre (c.first inp n) ++ finish c.emitEnd c.F.endRun c.F.endLit inp s) else none)
    pIn n pOut outSize with
  | .hang => .ub
  | r => r

/-- The compressor of that name, where at most `lim` bytes may be read at `pIn`; reading further is undefined behaviour (src/rle.h). -/
def CName.runIn (f : CName) (cpu : Cpu) (junk : Vec) (m : Mem) (lim : Nat) : Compress :=
  match f with
  | .r8 single packed =>
    if single then
      (R8Cfg.cdc ⟨true, packed⟩).compressIn (inWI (R8Cfg.emit ⟨true, packed⟩) (R8Cfg.emitT ⟨true, packed⟩) (R8Cfg.force ⟨true, packed⟩)
        (R8Cfg.short ⟨true, packed⟩) (R8Cfg.first ⟨true, packed⟩)) lim
    else (R8Cfg.cdc ⟨false, packed⟩).compressIn
      (in8TI (R8Cfg.fmt ⟨false, packed⟩) (R8Cfg.emitT ⟨false, packed⟩) (if cpu.avx2 then .avx2 else .sse2)) lim
  | .x S unb packed => (XCfg.cdc ⟨S, unb, packed⟩).compressIn (inXI (XCfg.fmt ⟨S, unb, packed⟩) S (XCfg.simd ⟨S, unb, packed⟩ cpu) unb) lim
  | .sl N S unb =>
    (SlCfg.cdc ⟨N, S, unb⟩).compressIn
      (if S = 1 then in8TI (SlCfg.fmt ⟨N, S, unb⟩) (SlCfg.fmt ⟨N, S, unb⟩).emit (SlCfg.simd8 ⟨N, S, unb⟩ cpu)
      else inXI (SlCfg.fmt ⟨N, S, unb⟩) S (SlCfg.simd ⟨N, S, unb⟩ cpu) unb) lim
  | .sh N S unb mode =>
    (ShCfg.cdc ⟨N, S, unb, mode⟩).compressIn
      (match mode with
      | .single => inS8I (ShCfg.fmt ⟨N, S, unb, mode⟩) (ShCfg.first ⟨N, S, unb, mode⟩) (ShCfg.minR ⟨N, S, unb, mode⟩)
      | .greedy => inGI (ShCfg.fmt ⟨N, S, unb, mode⟩) S
      | .normal =>
        if S = 1 then in8TI (ShCfg.fmt ⟨N, S, unb, mode⟩) (ShCfg.fmt ⟨N, S, unb, mode⟩).emit (SlCfg.simd8 ⟨N, S, unb⟩ cpu)
        else inXI (ShCfg.fmt ⟨N, S, unb, mode⟩) S (SlCfg.simd ⟨N, S, unb⟩ cpu) unb) lim
  | .x128 unb packed => (cdc128 unb packed).compressIn (in128I (fmt128 unb packed) unb) lim
  | .rsh => shCompressIn m lim
  | .mm => mmCompressIn junk m lim
  | .le short onlyMax => LeCfg.compressIn ⟨short, onlyMax⟩ lim

/-- The size of `uint16_t`, `uint32_t` (also for 24 bit symbols) or `uint64_t` (also for 48 bit symbols), with which a symbol of `S` bytes is
loaded (src/rle16_extreme_cpu.c, src/rle24_extreme_cpu.c, src/rle32_extreme_cpu.c, src/rle48_extreme_cpu.c, src/rle64_extreme_cpu.c). -/
def typeSize (S : Nat) : Nat := if S = 2 then 2 else if S ≤ 4 then 4 else 8

/-- How far behind the end of the input the compressor may look: not at all if it loads its symbols byte by byte, else by the type it
loads them with (src/rle.h). -/
def CName.slack : CName → Nat
  | .x S _ _ => typeSize S
  | .sl _ S _ => if S = 1 then 0 else typeSize S
  | .sh _ S _ _ => if S = 1 then 0 else typeSize S
  | .x128 _ _ => 16
  | _ => 0

theorem typeSize_eq {S : Nat} (hS : symSize S) : typeSize S = symT S := by
  rcases hS with rfl | rfl | rfl | rfl | rfl <;> decide

/-! ### Enough room: the guarded scanners are the scanners -/

/-- `run'` ends where `run` does, before `lim`. -/
def SameIn {σ : Type} (run : Mem → Nat → Option (ES σ)) (run' : Mem → Nat → Nat → Option (ES σ)) (inp : Mem) (n lim : Nat) : Prop :=
  ∃ s, run inp n = some s ∧ run' inp n lim = some s ∧ s.lastRLE ≤ s.i ∧ s.i ≤ lim

theorem Cdc.compressIn_eq {σ : Type} {c : Cdc σ} {cpu : Cpu} {run' : Mem → Nat → Nat → Option (ES σ)} {pIn : Option Mem} {n lim : Nat}
    (h : 0 < n → ∀ inp, pIn = some inp → SameIn (c.run cpu) run' inp n lim) (pOut : Bool) (outSize : Nat) :
    c.compressIn run' lim pIn n pOut outSize = c.compress cpu pIn n pOut outSize := by
  unfold Cdc.compressIn Cdc.compress apiCompress
  cases pIn with
  | none => rfl
  | some inp =>
    dsimp only
    by_cases hg : n = 0 ∨ pOut = false ∨ outSize < bounds n
    · rw [if_pos hg, if_pos hg]
    · rw [if_neg hg, if_neg hg]
      obtain ⟨s, h1, h2, h3, h4⟩ := h (by omega) inp rfl
      unfold Cdc.body
      rw [h1, h2]
      simp only [Option.bind_some, Option.map_some]
      rw [if_pos (endReach_le _ h3 h4)]
      dsimp only
      generalize le32 n ++ le32 (8 + _) ++ _ = out
      by_cases h : out.length ≤ outSize
      · rw [if_pos h]
      · rw [if_neg h]

theorem inXI_same {σ : Type} (F : Fmt σ) {S : Nat} (hS : symSize S) (k : Simd) (unb : Bool) (inp : Mem) {n lim : Nat} (h : n + symT S ≤ lim) :
    SameIn (runXI F S k unb) (inXI F S k unb) inp n lim := by
  have hW : k.width = 0 ∨ S < k.width := by
    rcases hS with rfl | rfl | rfl | rfl | rfl <;> cases k <;> decide
  have h0 : 0 < S := by rcases hS with rfl | rfl | rfl | rfl | rfl <;> decide
  have hT := symT_ge S
  obtain ⟨s, h1, h2, h3, h4, h5⟩ := guardR_total (lim := lim) (reach := reachX F.emit S k inp n) (stepI := stepXI F.emit S k unb inp n)
    (step := stepX F.emit S k.width unb inp n) (XInv S unb inp n (fun _ _ _ => True))
    (fun s' => XInv S unb inp n (fun _ _ _ => True) s' ∧ n ≤ s'.i ∧ s'.pc = .top) (muX n)
    (fun s hs => ⟨Nat.le_trans (reachX_le hS hs) h, stepXI_eq F.emit hS k unb inp n s hs.len,
      stepX_inv h0 hW (Nat.le_refl (n + S)) closed_true s hs⟩) (6 * n + 6)
    ⟨.top, 0, 0, 0, (rd inp 0 S).map (fun b => ~~~ b), F.init, []⟩
    ⟨trivial, by simp, by simp, by simp, by simp, fun _ => ⟨by simp, by intro k hk; simp at hk⟩, by simp, by simp⟩
    (by simp [muX, PC.rank])
  refine ⟨s, h1, ?_, h3.last, Nat.le_trans (h3.top h5) (by omega)⟩
  unfold inXI
  rw [if_pos (by omega)]
  exact h2

theorem in128I_same {σ : Type} (F : Fmt σ) (unb : Bool) (inp : Mem) {n lim : Nat} (h : n + 16 ≤ lim) :
    SameIn (run128I F unb) (in128I F unb) inp n lim := by
  obtain ⟨s, h1, h2, h3, h4, h5⟩ := guardR_total (lim := lim) (reach := reach128 F.emit n) (stepI := step128I F.emit unb inp n)
    (step := step128 F.emit unb inp n) (XInv 16 unb inp n (fun _ _ _ => True))
    (fun s' => XInv 16 unb inp n (fun _ _ _ => True) s' ∧ n ≤ s'.i ∧ s'.pc = .top) (muX n)
    (fun s hs => ⟨Nat.le_trans (reach128_le hs) h, step128I_eq F.emit unb inp n s hs.len,
      step128_inv (Nat.le_refl (n + 16)) closed_true s hs⟩) (6 * n + 6)
    ⟨.top, 0, 0, 0, rd inp 0 16, F.init, []⟩
    ⟨trivial, by simp, by simp, by simp, by simp, fun _ => ⟨by simp, by intro k hk; simp at hk⟩, by simp, by simp⟩
    (by simp [muX, PC.rank])
  refine ⟨s, h1, ?_, h3.last, Nat.le_trans (h3.top h5) h⟩
  unfold in128I
  rw [if_pos (by omega)]
  exact h2

theorem in8TI_same {σ : Type} (F : Fmt σ) (emitT : Emit σ) {k : Simd} (hk : k.vec) (inp : Mem) {n lim : Nat} (hn : 0 < n) (h : n ≤ lim) :
    SameIn (run8TI F emitT k) (in8TI F emitT k) inp n lim := by
  have hW : 2 ≤ k.width := by rcases hk with rfl | rfl <;> decide
  obtain ⟨s, h1, h2, h3, h4, h5⟩ := guardR_total (lim := lim) (reach := reach8 F.emit emitT k n) (stepI := step8I F.emit emitT k inp n)
    (step := step8 F.emit emitT k.width inp n) (Inv8 k.width inp n (fun _ _ _ => True))
    (fun s' => Inv8 k.width inp n (fun _ _ _ => True) s' ∧ n ≤ s'.i ∧ s'.pc = .scal) (mu8 n)
    (fun s hs => ⟨Nat.le_trans (reach8_le hs) h, step8I_eq F.emit emitT hk inp n s hs.len,
      step8_inv (unb := true) hW (Nat.le_refl n) closed_true closed_true s hs⟩) (6 * n + 6)
    ⟨.top, 0, 0, 0, [~~~ inp 0], F.init, []⟩ (inv8_start trivial) (by simp [mu8, PC.rank8])
  refine ⟨s, h1, ?_, h3.last, Nat.le_trans h3.hi h⟩
  unfold in8TI
  rw [if_pos (by omega)]
  exact h2

theorem inPick_eq (inp : Mem) {n lim : Nat} (hn : 0 < n) (h : n ≤ lim) : inPick inp n lim = some (pick inp n) := by
  obtain ⟨s, h1, h2, h3⟩ := guardR_total (lim := lim) (reach := reachPick n) (stepI := pickStepI inp n)
    (step := pickStep inp n) (fun s => s.search = true → s.i < n) (fun _ => True) (pickMu n)
    (fun s hs => ⟨Nat.le_trans (reachPick_le hs) h, pickStepI_eq inp n s, pickStep_inv inp n s hs⟩) (2 * n + 3)
    (pickInit inp) (by simp [pickInit]) (by simp [pickMu, pickInit])
  unfold inPick
  rw [if_pos (by omega), h2]
  unfold pick pickOI
  rw [h1]
  rfl

theorem inS8I_same {σ : Type} (F : Fmt σ) (fs0 : Mem → Nat → σ) (minR : Nat) (inp : Mem) {n lim : Nat} (hn : 0 < n) (h : n ≤ lim) :
    SameIn (runS8I F fs0 minR pick) (inS8I F fs0 minR) inp n lim := by
  obtain ⟨s, h1, h2, h3, h4, h5⟩ := guardR_total (lim := lim) (reach := reachS8 F.emit n) (stepI := stepS8I F.emit minR inp n)
    (step := stepS8 F.emit minR inp n) (fun s => Inv8 16 inp n (fun _ _ _ => True) s ∧ s.pc ≠ .sscan ∧ (s.pc = .search → s.count = 0))
    (fun s' => Inv8 16 inp n (fun _ _ _ => True) s' ∧ n ≤ s'.i ∧ s'.pc = .scal) (mu8 n)
    (fun s hs => ⟨Nat.le_trans (reachS8_le hs.1) h, stepS8I_eq F.emit minR inp n s hs.1.len,
      stepS8_inv (unb := true) (Nat.le_refl n) closed_true s hs⟩) (6 * n + 6)
    ⟨.top, 0, 0, 0, [pick inp n], fs0 inp n, []⟩ ⟨inv8_start trivial, by simp, by simp⟩ (by simp [mu8, PC.rank8])
  refine ⟨s, h1, ?_, h3.last, Nat.le_trans h3.hi h⟩
  unfold inS8I
  rw [inPick_eq inp hn h]
  exact h2

theorem inWI_same {σ : Type} {emit emitT emitF : Emit σ} {force : Nat → Nat → List Byte} {short long far : Nat}
    {fs0 : Mem → Nat → σ} (inp : Mem) {n lim : Nat} (hR : WRules emit emitT emitF force short long far (fs0 inp n) (pick inp n)) (hn : 0 < n)
    (h : n ≤ lim) : SameIn (runWI emit emitT force short fs0 pick) (inWI emit emitT force short fs0) inp n lim := by
  obtain ⟨w, h1, h2, h3, h4, h5⟩ := guardR_total (lim := lim) (reach := reachW emit emitT short n) (stepI := stepWI emit emitT force short inp n)
    (step := stepW emit emitT force short inp n) (WInv short long far (fs0 inp n) (pick inp n) inp n (fun _ _ _ => True))
    (fun w' => Inv8 16 inp n (fun _ _ _ => True) w'.es ∧ n ≤ w'.es.i ∧ w'.es.pc = .scal) (muW n)
    (fun w hw => ⟨Nat.le_trans (reachW_le hw) h, stepWI_eq emit emitT force short inp n w hw.inv.1.len,
      stepW_inv (unb := true) (Nat.le_refl n) hR closed_true closed_true closed_true w hw⟩) (12 * n + 12)
    ⟨⟨.top, 0, 0, 0, [pick inp n], fs0 inp n, []⟩, 0, 0⟩ (wInv_start trivial)
    (by simp only [muW, mu8, PC.rank8, Nat.sub_zero]; omega)
  refine ⟨w.es, ?_, ?_, h3.last, Nat.le_trans h3.hi h⟩
  · unfold runWI
    rw [h1]
    rfl
  · unfold inWI
    rw [inPick_eq inp hn h]
    simp only [Option.bind_some]
    rw [h2]
    rfl

theorem inGI_same (F : Fmt Lut) {N S : Nat} (hS : symSize S)
    (hE : ∀ lut sym cnt lits bytes lut', Lut.ok N S lut → sym.length = S →
      F.emit lut sym cnt lits = some (bytes, lut') → Lut.ok N S lut') (h0 : Lut.ok N S F.init) (inp : Mem) {n lim : Nat}
    (h : n + symT S ≤ lim) : SameIn (runGI F S) (inGI F S) inp n lim := by
  have h2 : 2 ≤ S := by rcases hS with rfl | rfl | rfl | rfl | rfl <;> decide
  have hT := symT_ge S
  obtain ⟨s, h1, h2, h3, h4, h5⟩ := guardR_total (lim := lim) (reach := reachG F.emit S n) (stepI := stepGI F.emit S inp n)
    (step := stepG F.emit S inp n) (GInv N S inp n (fun _ _ _ => True))
    (fun s' => GInv N S inp n (fun _ _ _ => True) s' ∧ n ≤ s'.i ∧ s'.pc = .top) (muG n)
    (fun s hs => ⟨Nat.le_trans (reachG_le hs) h, stepGI_eq F.emit hS inp n s hs.len hs.lut.2,
      stepG_inv h2 rfl (Nat.le_refl (n + S)) closed_true hE s hs⟩) (3 * n + 6)
    ⟨.top, 0, 0, 0, (rd inp 0 S).map (fun b => ~~~ b), F.init, []⟩ (gInv_start trivial h0) (by simp [muG]; omega)
  refine ⟨s, h1, ?_, h3.last, Nat.le_trans h3.top (by omega)⟩
  unfold inGI
  rw [if_pos (by omega)]
  exact h2

theorem XCfg.sym {S : Nat} {u p : Bool} (h : XCfg.valid ⟨S, u, p⟩) : symSize S := by
  unfold XCfg.valid at h
  simpa [symSize] using h

theorem SlCfg.sym {N S : Nat} {u : Bool} (h : SlCfg.valid ⟨N, S, u⟩) (h1 : S ≠ 1) : symSize S := by
  have := h.2.1
  simpa [symSize, h1] using this

theorem ShCfg.sym {N S : Nat} {u : Bool} {m : ShMode} (h : ShCfg.valid ⟨N, S, u, m⟩) (h1 : S ≠ 1) : symSize S := by
  have := h.2.1
  simpa [symSize, h1] using this

theorem SlCfg.vec (c : SlCfg) (cpu : Cpu) : (c.simd8 cpu).vec := by
  unfold SlCfg.simd8
  split
  · exact Or.inr rfl
  · exact Or.inl rfl

theorem CName.runIn_eq (f : CName) (hf : f.exists?) (cpu : Cpu) (junk : Vec) (m : Mem) (pIn : Option Mem) {n lim : Nat}
    (h : n + f.slack ≤ lim) (pOut : Bool) (outSize : Nat) :
    f.runIn cpu junk m lim pIn n pOut outSize = f.run cpu junk m pIn n pOut outSize := by
  cases f with
  | r8 s p =>
    have h : n ≤ lim := h
    cases s with
    | true =>
      refine Cdc.compressIn_eq (fun hn inp _ => ?_) pOut outSize
      exact inWI_same (emitF := R8Cfg.emitF ⟨true, p⟩) (long := R8Cfg.long ⟨true, p⟩) inp (R8Cfg.wrules ⟨true, p⟩ rfl inp n) hn h
    | false =>
      refine Cdc.compressIn_eq (fun hn inp _ => ?_) pOut outSize
      exact in8TI_same _ _ (SlCfg.vec ⟨0, 0, false⟩ cpu) inp hn h
  | x S u p =>
    refine Cdc.compressIn_eq (fun hn inp _ => ?_) pOut outSize
    have h : n + typeSize S ≤ lim := h
    rw [typeSize_eq (XCfg.sym hf)] at h
    exact inXI_same _ (XCfg.sym hf) _ u inp h
  | sl N S u =>
    refine Cdc.compressIn_eq (fun hn inp _ => ?_) pOut outSize
    have h : n + (if S = 1 then 0 else typeSize S) ≤ lim := h
    show SameIn (if S = 1 then run8TI _ _ _ else runXI _ _ _ _) _ inp n lim
    by_cases h1 : S = 1
    · rw [if_pos h1] at h
      rw [if_pos h1, if_pos h1]
      exact in8TI_same _ _ (SlCfg.vec _ cpu) inp hn h
    · rw [if_neg h1, typeSize_eq (SlCfg.sym hf h1)] at h
      rw [if_neg h1, if_neg h1]
      exact inXI_same _ (SlCfg.sym hf h1) _ u inp h
  | sh N S u md =>
    refine Cdc.compressIn_eq (fun hn inp _ => ?_) pOut outSize
    have h' : n + (if S = 1 then 0 else typeSize S) ≤ lim := h
    cases md with
    | single =>
      have h1 : S = 1 := (hf.2.2.2.1 rfl).2
      rw [if_pos h1] at h'
      exact inS8I_same _ _ _ inp hn h'
    | greedy =>
      have h2 : 2 ≤ S := (hf.2.2.2.2 rfl).2.1
      rw [if_neg (by omega), typeSize_eq (ShCfg.sym hf (by omega))] at h'
      exact inGI_same (N := ShCfg.tab ⟨N, S, u, .greedy⟩) _ (ShCfg.sym hf (by omega)) (ShCfg.emit_lut ⟨N, S, u, .greedy⟩)
        (ShCfg.init_ok ⟨N, S, u, .greedy⟩ hf) inp h'
    | normal =>
      show SameIn (if S = 1 then run8TI _ _ _ else runXI _ _ _ _) (if S = 1 then _ else _) inp n lim
      by_cases h1 : S = 1
      · rw [if_pos h1] at h'
        rw [if_pos h1, if_pos h1]
        exact in8TI_same _ _ (SlCfg.vec _ cpu) inp hn h'
      · rw [if_neg h1, typeSize_eq (ShCfg.sym hf h1)] at h'
        rw [if_neg h1, if_neg h1]
        exact inXI_same _ (ShCfg.sym hf h1) _ u inp h'
  | x128 u p =>
    refine Cdc.compressIn_eq (fun hn inp _ => ?_) pOut outSize
    exact in128I_same _ u inp h
  | rsh => exact shCompressIn_eq m pIn h pOut outSize
  | mm => exact mmCompressIn_eq junk m pIn h pOut outSize
  | le sh om => exact LeCfg.compressIn_eq ⟨sh, om⟩ pIn h pOut outSize

/-! ### Too little room -/

theorem Cdc.compressIn_ub {σ : Type} {c : Cdc σ} {run' : Mem → Nat → Nat → Option (ES σ)} {inp : Mem} {n lim outSize : Nat}
    (h : run' inp n lim = none) (hn : 0 < n) (ho : bounds n ≤ outSize) : c.compressIn run' lim (some inp) n true outSize = .ub := by
  unfold Cdc.compressIn apiCompress
  dsimp only
  rw [if_neg (by simp; omega), h]
  rfl

theorem inXI_none {σ : Type} (F : Fmt σ) {S : Nat} (hS : symSize S) (k : Simd) (unb : Bool) {inp : Mem} {n lim : Nat}
    (h1 : ∀ j, inp j ≠ inp (j + 1)) (h2 : ∀ j, inp j ≠ inp (j + S)) (h : S ≤ n ∧ lim < n + symT S ∨ lim < symT S) :
    inXI F S k unb inp n lim = none := by
  have h0 : 0 < S := by rcases hS with rfl | rfl | rfl | rfl | rfl <;> decide
  unfold inXI
  split
  · refine loop_none (Lone S inp n) (fun s hs => lone_step F.emit hS k unb h1 h2 (by omega) s hs) _ _
      ⟨by simp, by show 0 + S ≤ n; omega, fun _ => ⟨rfl, ?_⟩⟩
    show inp 0 ≠ ((rd inp 0 S).map (fun b => ~~~ b)).getD 0 0
    obtain ⟨S, rfl⟩ : ∃ k, S = k + 1 := ⟨S - 1, by omega⟩
    have : ∀ b : Byte, b ≠ ~~~ b := byte_forall (P := fun b => b ≠ ~~~ b) (by decide +kernel)
    simp [rd, List.range_succ_eq_map, this]
  · rfl

theorem in128I_none {σ : Type} (F : Fmt σ) (unb : Bool) {inp : Mem} {n lim : Nat} (hn : 0 < n)
    (h1 : ∀ j, inp j ≠ inp (j + 1)) (h2 : ∀ j, inp j ≠ inp (j + 16)) (h : lim ≤ n ∨ 32 ≤ n ∧ lim < n + 16) :
    in128I F unb inp n lim = none := by
  unfold in128I
  split
  · rcases h with h | ⟨h, h'⟩
    · exact loop_none (Lone128 1 inp n) (fun s hs => lone128_step F.emit unb h1 h2 (Or.inl ⟨rfl, h⟩) s hs) _ _
        ⟨by simp, by show 0 + 1 ≤ n; omega, fun _ => Or.inl ⟨rfl, rfl⟩, by simp⟩
    · exact loop_none (Lone128 16 inp n) (fun s hs => lone128_step F.emit unb h1 h2 (Or.inr ⟨rfl, h, h'⟩) s hs) _ _
        ⟨by simp, by show 0 + 16 ≤ n; omega, fun _ => Or.inl ⟨rfl, rfl⟩, by simp⟩
  · rfl

theorem inGI_none (N S : Nat) (u : Bool) (hc : ShCfg.valid ⟨N, S, u, .greedy⟩) {inp : Mem} {n lim : Nat}
    (h1 : ∀ j, inp j ≠ inp (j + 1)) (h2 : ∀ j, inp j ≠ inp (j + S)) (h : S ≤ n ∧ lim < n + symT S ∨ lim < symT S) :
    inGI (ShCfg.fmt ⟨N, S, u, .greedy⟩) S inp n lim = none := by
  have h0 : 2 ≤ S := (hc.2.2.2.2 rfl).2.1
  unfold inGI
  split
  · refine loop_none (LoneG S n) (fun s hs => loneG_step (emit := ShCfg.emit ⟨N, S, u, .greedy⟩) ?_ (ShCfg.sym hc (by omega)) h1 h2 (by omega) s hs) _ _
      ⟨by simp, by show 0 + S ≤ n; omega, rfl, Or.inl rfl, ?_⟩
    · intro lut sym lits
      cases e : ShCfg.emit ⟨N, S, u, .greedy⟩ lut sym 0 lits with
      | none => rfl
      | some r =>
        obtain ⟨b, l⟩ := r
        have := (ShCfg.emit_pos _ e).1
        unfold ShCfg.minR at this
        split at this <;> omega
    · intro l hl
      have hl : l ∈ ShCfg.init ⟨N, S, u, .greedy⟩ := hl
      unfold ShCfg.init at hl
      rw [if_neg (by simp)] at hl
      obtain ⟨b, _, rfl⟩ := List.mem_map.mp hl
      obtain ⟨S, rfl⟩ : ∃ k, S = k + 2 := ⟨S - 2, by omega⟩
      exact ⟨by simp, by simp [List.replicate_succ]⟩
  · rfl

theorem CName.runIn_ub (f : CName) (hf : f.exists?) (hs : 0 < f.slack) (cpu : Cpu) (junk : Vec) (m : Mem) {inp : Mem}
    (h : ∀ j d, 0 < d → d ≤ 16 → inp j ≠ inp (j + d)) {n lim outSize : Nat} (hn : 0 < n) (hl : lim ≤ n ∨ 32 ≤ n ∧ lim < n + f.slack)
    (ho : bounds n ≤ outSize) : f.runIn cpu junk m lim (some inp) n true outSize = .ub := by
  have key : ∀ S, symSize S → (lim ≤ n ∨ 32 ≤ n ∧ lim < n + symT S) → S ≤ n ∧ lim < n + symT S ∨ lim < symT S := by
    intro S hS hl
    have := symT_ge S
    rcases hS with rfl | rfl | rfl | rfl | rfl <;> omega
  have h2 : ∀ S, symSize S → ∀ j, inp j ≠ inp (j + S) := by
    intro S hS j
    rcases hS with rfl | rfl | rfl | rfl | rfl <;> exact h j _ (by decide) (by decide)
  have h1 : ∀ j, inp j ≠ inp (j + 1) := fun j => h j 1 (by decide) (by decide)
  cases f with
  | x S u p =>
    have hS := XCfg.sym hf
    have hl : lim ≤ n ∨ 32 ≤ n ∧ lim < n + typeSize S := hl
    rw [typeSize_eq hS] at hl
    exact Cdc.compressIn_ub (inXI_none _ hS _ u h1 (h2 S hS) (key S hS hl)) hn ho
  | sl N S u =>
    have hs : 0 < (if S = 1 then 0 else typeSize S) := hs
    have hl : lim ≤ n ∨ 32 ≤ n ∧ lim < n + (if S = 1 then 0 else typeSize S) := hl
    by_cases hS1 : S = 1
    · rw [if_pos hS1] at hs; omega
    · have hS := SlCfg.sym hf hS1
      rw [if_neg hS1, typeSize_eq hS] at hl
      refine Cdc.compressIn_ub ?_ hn ho
      rw [if_neg hS1]
      exact inXI_none _ hS _ u h1 (h2 S hS) (key S hS hl)
  | sh N S u md =>
    have hs' : 0 < (if S = 1 then 0 else typeSize S) := hs
    have hl' : lim ≤ n ∨ 32 ≤ n ∧ lim < n + (if S = 1 then 0 else typeSize S) := hl
    by_cases hS1 : S = 1
    · rw [if_pos hS1] at hs'; omega
    · have hS := ShCfg.sym hf hS1
      rw [if_neg hS1, typeSize_eq hS] at hl'
      refine Cdc.compressIn_ub ?_ hn ho
      cases md with
      | single => exact absurd (hf.2.2.2.1 rfl).2 hS1
      | greedy => exact inGI_none N S u hf h1 (h2 S hS) (key S hS hl')
      | normal =>
        show (if S = 1 then _ else _ : Mem → Nat → Nat → Option (ES Lut)) inp n lim = none
        rw [if_neg hS1]
        exact inXI_none _ hS _ u h1 (h2 S hS) (key S hS hl')
  | x128 u p => exact Cdc.compressIn_ub (in128I_none _ u hn h1 (fun j => h j 16 (by decide) (by decide)) hl) hn ho
  | _ => exact absurd hs (Nat.lt_irrefl 0)

/-! ### The property -/

/-- C63, what holds: every row of the table compresses an input of `n` bytes, on every cpu, with whatever arguments, exactly as if reading at
or behind `pIn + n + slack` was forbidden: it never does so. `slack` is 0 for every codec of 8 bit symbols, the low entropy codecs, `rle8_sh` and
`rle8_mmtf128`; for the others it is the size of the type the symbols are loaded with. Missing: `slack = 0` for those (`C63_violated`). -/
theorem C63_table_partial (row : Row) (hr : row ∈ table) (cpu : Cpu) (junk : Vec) (m : Mem) (pIn : Option Mem) (n lim : Nat)
    (h : n + row.comp.slack ≤ lim) (pOut : Bool) (outSize : Nat) :
    row.comp.runIn cpu junk m lim pIn n pOut outSize = row.comp.run cpu junk m pIn n pOut outSize := by
  have key : table.all (fun r => decide r.comp.exists?) = true := by decide +kernel
  exact row.comp.runIn_eq (of_decide_eq_true (List.all_eq_true.mp key row hr)) cpu junk m pIn h pOut outSize

/-- Against C63: every compressor of symbols of more than 8 bits, on every cpu, reads behind the end of an input in which no byte is equal to one
of the 16 behind it, however long; and for inputs of 32 bytes or more it reads all of the `slack` bytes behind the end. -/
theorem C63_violated (row : Row) (hr : row ∈ table) (hs : 0 < row.comp.slack) (cpu : Cpu) (junk : Vec) (m : Mem) (inp : Mem)
    (h : ∀ j d, 0 < d → d ≤ 16 → inp j ≠ inp (j + d)) (n lim outSize : Nat) (hn : 0 < n)
    (hl : lim ≤ n ∨ 32 ≤ n ∧ lim < n + row.comp.slack) (ho : bounds n ≤ outSize) :
    row.comp.runIn cpu junk m lim (some inp) n true outSize = .ub := by
  have key : table.all (fun r => decide r.comp.exists?) = true := by decide +kernel
  exact row.comp.runIn_ub (of_decide_eq_true (List.all_eq_true.mp key row hr)) hs cpu junk m h hn hl ho

/-- Such an input: the bytes 0, 1, 2, …. -/
example : ∀ j d, 0 < d → d ≤ 16 → (fun k => b8 k : Mem) j ≠ (fun k => b8 k : Mem) (j + d) := by
  intro j d h1 h2 e
  have := congrArg (fun b : Byte => b.toNat) e
  simp only [b8_toNat] at this
  omega

/-- Rows with and without such reads. -/
example : (⟨"Extreme8Single", .r8 true false, .r8 false⟩ : Row) ∈ table ∧ (CName.r8 true false).slack = 0 ∧
    (⟨"Extreme24Byte_3SLShortGreedy", .sh 3 3 true .greedy, .sh 3 3 true .normal⟩ : Row) ∈ table ∧ (CName.sh 3 3 true .greedy).slack = 4 ∧
    (table.filter fun r => r.comp.slack = 0).length = 17 ∧ table.length = 116 := by
  decide +kernel

end Hrk
