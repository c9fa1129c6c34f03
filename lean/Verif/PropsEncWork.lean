import Verif.EncWork
import Verif.PropsRle8

/-
C62: what a compressor does is linear in the size of its input.
-/

namespace Hrk

/-- What the compressor of that name does with the input in its first `t` rounds: rounds of the scanning loop and bytes it writes while
scanning (for rle8_sh and rle8_mmtf128 all rounds of the outer loop). Not counted: the one pass that picks the symbol of the single codecs
or counts the symbols of the low entropy codecs, and the one copy of the literals behind the last run (src/rle.h). -/
def CName.scan (f : CName) (cpu : Cpu) (junk : Vec) (m : Mem) (inp : Mem) (n t : Nat) : Nat :=
  match f with
  | .r8 single packed =>
    if single then
      workWI (R8Cfg.emit ⟨true, packed⟩) (R8Cfg.emitT ⟨true, packed⟩) (R8Cfg.force ⟨true, packed⟩) (R8Cfg.short ⟨true, packed⟩)
        (R8Cfg.first ⟨true, packed⟩) pick inp n t
    else work8TI (R8Cfg.fmt ⟨false, packed⟩) (R8Cfg.emitT ⟨false, packed⟩) (if cpu.avx2 then .avx2 else .sse2) inp n t
  | .x S unb packed => workXI (XCfg.fmt ⟨S, unb, packed⟩) S (XCfg.simd ⟨S, unb, packed⟩ cpu) unb inp n t
  | .sl N S unb =>
    if S = 1 then work8TI (SlCfg.fmt ⟨N, S, unb⟩) (SlCfg.fmt ⟨N, S, unb⟩).emit (SlCfg.simd8 ⟨N, S, unb⟩ cpu) inp n t
    else workXI (SlCfg.fmt ⟨N, S, unb⟩) S (SlCfg.simd ⟨N, S, unb⟩ cpu) unb inp n t
  | .sh N S unb mode =>
    match mode with
    | .single => workS8I (ShCfg.fmt ⟨N, S, unb, mode⟩) (ShCfg.first ⟨N, S, unb, mode⟩) (ShCfg.minR ⟨N, S, unb, mode⟩) pick inp n t
    | .greedy => workGI (ShCfg.fmt ⟨N, S, unb, mode⟩) S inp n t
    | .normal =>
      if S = 1 then work8TI (ShCfg.fmt ⟨N, S, unb, mode⟩) (ShCfg.fmt ⟨N, S, unb, mode⟩).emit (SlCfg.simd8 ⟨N, S, unb⟩ cpu) inp n t
      else workXI (ShCfg.fmt ⟨N, S, unb, mode⟩) S (SlCfg.simd ⟨N, S, unb⟩ cpu) unb inp n t
  | .x128 unb packed => work128I (fmt128 unb packed) unb inp n t
  | .le short onlyMax => leEncWork (LeCfg.blk ⟨short, onlyMax⟩) (LeCfg.info ⟨short, onlyMax⟩ inp n) inp n t
  | .rsh => shEncWork inp n
  | .mm => mmEncWork junk m inp n t

/-! ### The codecs -/

theorem R8Cfg.scan_le (s p : Bool) (cpu : Cpu) (junk : Vec) (m inp : Mem) {n : Nat} (hn : 0 < n) (t : Nat) :
    (CName.r8 s p).scan cpu junk m inp n t ≤ 14 * n + 60 := by
  obtain ⟨st, b, hr, hb, hl⟩ := (R8Cfg.cdc_ok ⟨s, p⟩).scanned cpu inp n
  have h1 := Cdc.body_grow (c := R8Cfg.cdc ⟨s, p⟩) (C17_rle8_growth_partial ⟨s, p⟩ cpu) hn hb
  have hg : R8Cfg.grow ⟨s, p⟩ ≤ 4 := by unfold R8Cfg.grow; split <;> (try split) <;> omega
  have h2 := Nat.mul_le_mul_right (n / 255) hg
  have hr : R8Cfg.run ⟨s, p⟩ cpu inp n = some st := hr
  cases s with
  | true =>
    have hr : (loop (stepWI (R8Cfg.emit ⟨true, p⟩) (R8Cfg.emitT ⟨true, p⟩) (R8Cfg.force ⟨true, p⟩) (R8Cfg.short ⟨true, p⟩) inp n) (12 * n + 12)
      ⟨⟨.top, 0, 0, 0, [pick inp n], R8Cfg.first ⟨true, p⟩ inp n, []⟩, 0, 0⟩).join.map WS.es = some st := hr
    obtain ⟨w, hw, rfl⟩ := Option.map_eq_some_iff.mp hr
    have h3 := scanWorkW_le (t := t) hw
    have h4 : (CName.r8 true p).scan cpu junk m inp n t = scanWorkW (stepWI (R8Cfg.emit ⟨true, p⟩) (R8Cfg.emitT ⟨true, p⟩)
      (R8Cfg.force ⟨true, p⟩) (R8Cfg.short ⟨true, p⟩) inp n) t ⟨⟨.top, 0, 0, 0, [pick inp n], R8Cfg.first ⟨true, p⟩ inp n, []⟩, 0, 0⟩ := rfl
    omega
  | false =>
    have h3 := scanWork_le (t := t) (step8I_appends ..) hr
    have h4 : (CName.r8 false p).scan cpu junk m inp n t = work8TI (R8Cfg.fmt ⟨false, p⟩) (R8Cfg.emitT ⟨false, p⟩)
      (if cpu.avx2 then .avx2 else .sse2) inp n t := rfl
    unfold work8TI at h4
    omega

theorem XCfg.scan_le (c : XCfg) (hc : c.valid) (cpu : Cpu) (inp : Mem) (n t : Nat) :
    workXI c.fmt c.S (c.simd cpu) c.unb inp n t ≤ 14 * n + 60 := by
  obtain ⟨st, b, hr, hb, hl⟩ := (c.cdc_ok hc).scanned cpu inp n
  obtain ⟨b', hb', hs⟩ := c.enc_size hc cpu inp n
  rw [hb] at hb'
  cases hb'
  have h3 := scanWork_le (t := t) (stepXI_appends ..) hr
  have hS := (c.valid_S hc).2
  unfold workXI
  omega

theorem scan128_le (unb packed : Bool) (cpu : Cpu) (inp : Mem) (n t : Nat) :
    work128I (fmt128 unb packed) unb inp n t ≤ 14 * n + 60 := by
  obtain ⟨st, b, hr, hb, hl⟩ := (cdc128_ok unb packed).scanned cpu inp n
  obtain ⟨b', hb', hs⟩ := cdc128_size unb packed cpu inp n
  rw [hb] at hb'
  cases hb'
  have h3 := scanWork_le (t := t) (step128I_appends ..) hr
  unfold work128I
  omega

theorem SlCfg.scan_le (c : SlCfg) (hc : c.valid) (cpu : Cpu) (junk : Vec) (m inp : Mem) {n : Nat} (hn : 0 < n) (t : Nat) :
    (CName.sl c.N c.S c.unb).scan cpu junk m inp n t ≤ 14 * n + 60 := by
  obtain ⟨st, b, hr, hb, hl⟩ := (c.cdc_ok hc).scanned cpu inp n
  have h1 := Cdc.body_grow (c := c.cdc) (C18_symlut_growth_partial c hc cpu) hn hb
  have hg : c.growE ≤ 2 := by unfold SlCfg.growE; repeat' split
                              all_goals omega
  have hL : 8 ≤ c.growL := by
    have hS := c.valid_S hc
    have := c.tinyR_eq
    unfold SlCfg.growL; split <;> (try split at this) <;> omega
  have h2 := Nat.mul_le_mul_right (n / c.growL) hg
  have h5 : n / c.growL ≤ n / 8 := Nat.div_le_div_left hL (by omega)
  have hr : (if c.S = 1 then run8TI c.fmt c.fmt.emit (c.simd8 cpu) else runXI c.fmt c.S (c.simd cpu) c.unb) inp n = some st := hr
  have h4 : (CName.sl c.N c.S c.unb).scan cpu junk m inp n t = if c.S = 1 then work8TI c.fmt c.fmt.emit (c.simd8 cpu) inp n t
    else workXI c.fmt c.S (c.simd cpu) c.unb inp n t := rfl
  rw [h4]
  by_cases h : c.S = 1
  · rw [if_pos h] at hr ⊢
    have h3 := scanWork_le (t := t) (step8I_appends ..) hr
    unfold work8TI
    omega
  · rw [if_neg h] at hr ⊢
    have h3 := scanWork_le (t := t) (stepXI_appends ..) hr
    unfold workXI
    omega

theorem ShCfg.scan_le (c : ShCfg) (hc : c.valid) (cpu : Cpu) (junk : Vec) (m inp : Mem) {n : Nat} (hn : 0 < n) (t : Nat) :
    (CName.sh c.N c.S c.unb c.mode).scan cpu junk m inp n t ≤ 14 * n + 60 := by
  obtain ⟨st, b, hr, hb, hl⟩ := (c.cdc_ok hc).scanned cpu inp n
  have h1 := Cdc.body_grow (c := c.cdc) (C19_short_growth_partial c hc cpu) hn hb
  have hg : c.growE ≤ 1 := by unfold ShCfg.growE; split <;> omega
  have h2 := Nat.mul_le_mul_right (n / 65534) hg
  have hr : c.run cpu inp n = some st := hr
  obtain ⟨N, S, unb, mode⟩ := c
  cases mode with
  | single =>
    have h3 := scanWork_le (t := t) (stepS8I_appends ..) hr
    have h4 : (CName.sh N S unb .single).scan cpu junk m inp n t = workS8I (ShCfg.fmt ⟨N, S, unb, .single⟩) (ShCfg.first ⟨N, S, unb, .single⟩)
      (ShCfg.minR ⟨N, S, unb, .single⟩) pick inp n t := rfl
    dsimp only
    unfold workS8I at h4
    omega
  | greedy =>
    have h3 := scanWork_le (t := t) (stepGI_appends ..) hr
    dsimp only at h3
    have h4 : (CName.sh N S unb .greedy).scan cpu junk m inp n t = workGI (ShCfg.fmt ⟨N, S, unb, .greedy⟩) S inp n t := rfl
    dsimp only
    unfold workGI at h4
    omega
  | normal =>
    have hr : (if S = 1 then run8TI (ShCfg.fmt ⟨N, S, unb, .normal⟩) (ShCfg.fmt ⟨N, S, unb, .normal⟩).emit (SlCfg.simd8 ⟨N, S, unb⟩ cpu)
      else runXI (ShCfg.fmt ⟨N, S, unb, .normal⟩) S (SlCfg.simd ⟨N, S, unb⟩ cpu) unb) inp n = some st := hr
    have h4 : (CName.sh N S unb .normal).scan cpu junk m inp n t = if S = 1 then
        work8TI (ShCfg.fmt ⟨N, S, unb, .normal⟩) (ShCfg.fmt ⟨N, S, unb, .normal⟩).emit (SlCfg.simd8 ⟨N, S, unb⟩ cpu) inp n t
      else workXI (ShCfg.fmt ⟨N, S, unb, .normal⟩) S (SlCfg.simd ⟨N, S, unb⟩ cpu) unb inp n t := rfl
    dsimp only
    rw [h4]
    by_cases h : S = 1
    · rw [if_pos h] at hr ⊢
      have h3 := scanWork_le (t := t) (step8I_appends ..) hr
      unfold work8TI
      omega
    · rw [if_neg h] at hr ⊢
      have h3 := scanWork_le (t := t) (stepXI_appends ..) hr
      unfold workXI
      omega

theorem leMatch_le' (inp : Mem) (b : Byte) : ∀ k a, leMatch inp b a k ≤ k := by
  intro k
  induction k with
  | zero => intro a; exact Nat.le_refl _
  | succ k ih => intro a; unfold leMatch; split <;> [(have := ih (a + 1); omega); omega]

theorem leStep_le (x : LeInfo) (inp : Mem) (range i : Nat) :
    i + 1 ≤ (leStep x inp range i).2 ∧ (leStep x inp range i).2 ≤ i + max 1 range ∧ (leStep x inp range i).1.length ≤ 2 := by
  unfold leStep
  have := leMatch_le' inp (inp i) (range - 1) (i + 1)
  dsimp only
  split
  · refine ⟨by dsimp only; omega, by dsimp only; omega, by simp⟩
  · refine ⟨by dsimp only; omega, by dsimp only; omega, by simp⟩

theorem leEncWork_le (blk : Nat) (hb : blk ≤ 256) (x : LeInfo) (inp : Mem) (n : Nat) :
    ∀ t s, s.1 ≤ n → work (leRoundWork blk x inp n) (leLoopStep blk x inp n) t s ≤ 4 * (n - s.1) + 1 := by
  intro t
  induction t with
  | zero => intro s _; simp only [work]; omega
  | succ t ih =>
    intro s hs
    have key : ∀ range, max 1 range ≤ n - s.1 → leLoopStep blk x inp n s = .inl ((leStep x inp range s.1).2, s.2 ++ (leStep x inp range s.1).1) →
        work (leRoundWork blk x inp n) (leLoopStep blk x inp n) (t + 1) s ≤ 4 * (n - s.1) + 1 := by
      intro range hr e
      obtain ⟨h1, h2, h3⟩ := leStep_le x inp range s.1
      have h4 := ih ((leStep x inp range s.1).2, s.2 ++ (leStep x inp range s.1).1) (by dsimp only; omega)
      have h5 : work (leRoundWork blk x inp n) (leLoopStep blk x inp n) (t + 1) s =
          1 + (((leStep x inp range s.1).2 - s.1) + ((s.2 ++ (leStep x inp range s.1).1).length - s.2.length)) +
            work (leRoundWork blk x inp n) (leLoopStep blk x inp n) t ((leStep x inp range s.1).2, s.2 ++ (leStep x inp range s.1).1) := by
        rw [work, e, leRoundWork, e]
      rw [h5]
      simp only [List.length_append] at h4 ⊢
      omega
    by_cases h1 : s.1 < n - 256
    · exact key blk (by omega) (by unfold leLoopStep; rw [if_pos h1])
    · by_cases h2 : s.1 < n
      · exact key (min (n - s.1 - 1) blk) (by omega) (by unfold leLoopStep; rw [if_neg h1, if_pos h2])
      · have e : leLoopStep blk x inp n s = .inr s.2 := by unfold leLoopStep; rw [if_neg h1, if_neg h2]
        simp only [work, leRoundWork, e]
        omega

/-! ### C62 -/

/-- The configurations in the table exist. -/
def CName.exists? : CName → Prop
  | .x S u p => XCfg.valid ⟨S, u, p⟩
  | .sl N S u => SlCfg.valid ⟨N, S, u⟩
  | .sh N S u m => ShCfg.valid ⟨N, S, u, m⟩
  | _ => True

instance : DecidablePred CName.exists? := fun f => by
  cases f <;> unfold CName.exists? <;> (try unfold XCfg.valid) <;> (try unfold SlCfg.valid) <;> (try unfold ShCfg.valid) <;> infer_instance

theorem CName.scan_le (f : CName) (hf : f.exists?) (cpu : Cpu) (junk : Vec) (m inp : Mem) {n : Nat} (hn : 0 < n) (h32 : n < 4294967296)
    (t : Nat) : f.scan cpu junk m inp n t ≤ 18 * n + 3840 := by
  cases f with
  | r8 s p => have := R8Cfg.scan_le s p cpu junk m inp hn t; omega
  | x S u p =>
    have h := XCfg.scan_le ⟨S, u, p⟩ hf cpu inp n t
    have e : (CName.x S u p).scan cpu junk m inp n t = workXI (XCfg.fmt ⟨S, u, p⟩) S (XCfg.simd ⟨S, u, p⟩ cpu) u inp n t := rfl
    dsimp only at h
    omega
  | sl N S u => have := SlCfg.scan_le ⟨N, S, u⟩ hf cpu junk m inp hn t; dsimp only at this; omega
  | sh N S u md => have := ShCfg.scan_le ⟨N, S, u, md⟩ hf cpu junk m inp hn t; dsimp only at this; omega
  | x128 u p =>
    have h := scan128_le u p cpu inp n t
    have e : (CName.x128 u p).scan cpu junk m inp n t = work128I (fmt128 u p) u inp n t := rfl
    omega
  | le s o =>
    have := leEncWork_le (LeCfg.blk ⟨s, o⟩) (by unfold LeCfg.blk; split <;> omega) (LeCfg.info ⟨s, o⟩ inp n) inp n t (0, []) (by simp)
    have h : (CName.le s o).scan cpu junk m inp n t = work (leRoundWork (LeCfg.blk ⟨s, o⟩) (LeCfg.info ⟨s, o⟩ inp n) inp n)
      (leLoopStep (LeCfg.blk ⟨s, o⟩) (LeCfg.info ⟨s, o⟩ inp n) inp n) t (0, []) := rfl
    dsimp only at this
    omega
  | rsh =>
    have h := shEncWork_le inp h32
    have e : CName.rsh.scan cpu junk m inp n t = shEncWork inp n := rfl
    omega
  | mm => exact mmEncWork_le junk m inp n t

/-- C62: every compressor in the table, on every processor and for every input: however long it is left running, it does not do more than
18 things per input byte and 3840 more (the bytes behind the last block of rle8_mmtf128). -/
theorem C62_table (row : Row) (hr : row ∈ table) (cpu : Cpu) (junk : Vec) (m inp : Mem) (n : Nat) (hn : 0 < n) (h32 : n < 4294967296) (t : Nat) :
    row.comp.scan cpu junk m inp n t ≤ 18 * n + 3840 := by
  have key : table.all (fun r => decide r.comp.exists?) = true := by decide +kernel
  exact row.comp.scan_le (of_decide_eq_true (List.all_eq_true.mp key row hr)) cpu junk m inp hn h32 t

/-- Sixty equal bytes and forty others: what `rle8_single_compress` does with them, and how much that is in its first three rounds. -/
example : (⟨"Extreme8Single", .r8 true false, .r8 false⟩ : Row) ∈ table ∧ (⟨"Extreme8Single", .r8 true false, .r8 false⟩ : Row).comp.scan ⟨true, true, true, true, true, true⟩ vzero (fun _ => 0)
    (fun i => if i < 60 then 5 else 7) 100 3 = 3 := by
  constructor <;> decide +kernel

end Hrk
