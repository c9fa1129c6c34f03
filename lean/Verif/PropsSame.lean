import Verif.Same
import Verif.Table

/-
C47: what a compressor writes does not depend on the processor.
-/

namespace Hrk

/-- Every call returns the same value and writes the same bytes, whatever the processor. -/
def SameOnAll (comp : Cpu → Compress) : Prop :=
  ∀ cpu cpu' pIn n pOut outSize, comp cpu pIn n pOut outSize = comp cpu' pIn n pOut outSize

theorem Cdc.same {σ : Type} (c : Cdc σ) (h : ∀ cpu cpu' inp n, c.run cpu inp n = c.run cpu' inp n) : SameOnAll c.compress := by
  intro cpu cpu' pIn n pOut outSize
  have : c.body cpu = c.body cpu' := by
    funext inp n
    unfold Cdc.body
    rw [h cpu cpu']
  unfold Cdc.compress
  rw [this]

/-! ### Short runs are not emitted -/

theorem SlCfg.emit_small (c : SlCfg) (lut : Lut) (sym : List Byte) (count lits : Nat) (h : count ≤ 1) : c.emit lut sym count lits = none := by
  unfold SlCfg.emit
  dsimp only
  rw [if_neg]
  have : c.long ≥ 10 := by unfold SlCfg.long; omega
  omega

theorem ShCfg.emit_small (c : ShCfg) (lut : Lut) (sym : List Byte) (count lits : Nat) (h : count ≤ 1) : c.emit lut sym count lits = none := by
  unfold ShCfg.emit
  split
  · rfl
  · have h1 : c.long ≥ 11 := by unfold ShCfg.long; split <;> (try split) <;> omega
    have h2 : c.minR ≥ 2 := by unfold ShCfg.minR; split <;> omega
    rw [if_neg (by omega)]

theorem R8Cfg.emit_small (lut : R8St) (sym : List Byte) (count lits : Nat) (h : count ≤ 1) :
    R8Cfg.emit ⟨false, false⟩ lut sym count lits = none := by
  unfold R8Cfg.emit
  split
  · rfl
  · simp only [Bool.false_eq_true, if_false]
    rw [if_neg]
    unfold R8Cfg.short r8short
    simp
    omega

/-! ### C47 -/

/-- C47 for the 16 to 64 bit codecs. -/
theorem C47_multibyte_same (c : XCfg) (hc : c.valid) : SameOnAll c.compress := by
  refine Cdc.same c.cdc fun cpu cpu' inp n => ?_
  simp only [XCfg.cdc]
  rw [c.runI hc, c.runI hc, runX_same c.fmt c.emit_zero (c.valid_S hc).1 (c.encW_ok hc cpu),
    runX_same c.fmt c.emit_zero (c.valid_S hc).1 (c.encW_ok hc cpu')]

/-- C47 for the symbol table codecs. -/
theorem C47_symlut_same (c : SlCfg) (hc : c.valid) : SameOnAll c.compress := by
  refine Cdc.same c.cdc fun cpu cpu' inp n => ?_
  simp only [SlCfg.cdc]
  by_cases h : c.S = 1
  · rw [if_pos h, if_pos h, c.run8I h, c.run8I h]
    exact run8_same c.fmt c.emit_small (c.encW1 h cpu) (c.encW1 h cpu') inp n
  · have h0 : ∀ fs sym lits, c.fmt.emit fs sym 0 lits = none := fun fs sym lits => c.emit_small fs sym 0 lits (by omega)
    rw [if_neg h, if_neg h, c.runI hc.2.1 h, c.runI hc.2.1 h, runX_same c.fmt h0 (c.valid_S hc).1 (c.encW_ok hc cpu),
      runX_same c.fmt h0 (c.valid_S hc).1 (c.encW_ok hc cpu')]

/-- C47 for the short codecs, also greedy and single. -/
theorem C47_short_same (c : ShCfg) (hc : c.valid) : SameOnAll c.compress := by
  refine Cdc.same c.cdc fun cpu cpu' inp n => ?_
  show c.run cpu inp n = c.run cpu' inp n
  unfold ShCfg.run
  cases c.mode with
  | single => rfl
  | greedy => rfl
  | normal =>
    dsimp only
    by_cases h : c.S = 1
    · rw [if_pos h, if_pos h, SlCfg.run8I ⟨c.N, c.S, c.unb⟩ h, SlCfg.run8I ⟨c.N, c.S, c.unb⟩ h]
      exact run8_same c.fmt c.emit_small (SlCfg.encW1 _ h cpu) (SlCfg.encW1 _ h cpu') inp n
    · have h0 : ∀ fs sym lits, c.fmt.emit fs sym 0 lits = none := fun fs sym lits => c.emit_small fs sym 0 lits (by omega)
      rw [if_neg h, if_neg h, SlCfg.runI ⟨c.N, c.S, c.unb⟩ hc.2.1 h, SlCfg.runI ⟨c.N, c.S, c.unb⟩ hc.2.1 h,
        runX_same c.fmt h0 (c.valid_S hc).1 (ShCfg.encW_ok (c.valid_S hc).2 cpu),
        runX_same c.fmt h0 (c.valid_S hc).1 (ShCfg.encW_ok (c.valid_S hc).2 cpu')]

/-- C47 for the 8 bit codecs except `rle8_packed_multi_compress`. -/
theorem C47_rle8_same_partial (c : R8Cfg) (hc : c ≠ ⟨false, true⟩) : SameOnAll c.compress := by
  refine Cdc.same c.cdc fun cpu cpu' inp n => ?_
  show c.run cpu inp n = c.run cpu' inp n
  rw [c.run_eq, c.run_eq]
  obtain ⟨single, packed⟩ := c
  cases single with
  | true => rfl
  | false =>
    cases packed with
    | true => exact absurd rfl hc
    | false =>
      simp only [Bool.false_eq_true, if_false]
      have e : R8Cfg.emitT ⟨false, false⟩ = (R8Cfg.fmt ⟨false, false⟩).emit := by
        funext fs sym count lits
        show R8Cfg.emitT ⟨false, false⟩ fs sym count lits = R8Cfg.emit ⟨false, false⟩ fs sym count lits
        simp [R8Cfg.emitT, R8Cfg.emit]
      rw [e]
      exact run8_same (R8Cfg.fmt ⟨false, false⟩) R8Cfg.emit_small (by split <;> omega) (by split <;> omega) inp n

/-- C47, what is left of it for `rle8_packed_multi_compress`: only AVX2 makes a difference. -/
theorem C47_packed_multi_partial (cpu cpu' : Cpu) (h : cpu.avx2 = cpu'.avx2) (pIn : Option Mem) (n : Nat) (pOut : Bool) (outSize : Nat) :
    R8Cfg.compress ⟨false, true⟩ cpu pIn n pOut outSize = R8Cfg.compress ⟨false, true⟩ cpu' pIn n pOut outSize := by
  have : R8Cfg.run ⟨false, true⟩ cpu = R8Cfg.run ⟨false, true⟩ cpu' := by
    rw [R8Cfg.run_eq, R8Cfg.run_eq, h]
  have : (R8Cfg.cdc ⟨false, true⟩).body cpu = (R8Cfg.cdc ⟨false, true⟩).body cpu' := by
    funext inp n
    unfold Cdc.body
    rw [show (R8Cfg.cdc ⟨false, true⟩).run cpu = (R8Cfg.cdc ⟨false, true⟩).run cpu' from this]
  unfold R8Cfg.compress Cdc.compress
  rw [this]

/-- Four bytes 2 and then bytes 3. -/
def inp18 : Mem := fun i => if i < 4 then 2 else 3

/-- C47, negated for `rle8_packed_multi_compress`: these 18 bytes take 24 bytes without AVX2 and 25 bytes with AVX2. The vector loop
takes a run of four, the scalar loop does not, and which of them sees the run depends on the width of the vectors. -/
theorem C47_packed_multi_violated (a b c d f a' b' c' d' f' : Bool) :
    ∃ out out', R8Cfg.compress ⟨false, true⟩ ⟨a, b, c, d, false, f⟩ (some inp18) 18 true 1000 = .ok 24 out ∧
      R8Cfg.compress ⟨false, true⟩ ⟨a', b', c', d', true, f'⟩ (some inp18) 18 true 1000 = .ok 25 out' := by
  rw [C47_packed_multi_partial ⟨a, b, c, d, false, f⟩ ⟨true, false, false, false, false, false⟩ rfl,
    C47_packed_multi_partial ⟨a', b', c', d', true, f'⟩ ⟨true, true, true, true, true, false⟩ rfl]
  exact ⟨[18, 0, 0, 0, 24, 0, 0, 0, 0, 2, 2, 2, 12, 3, 2, 128, 0, 0, 0, 0, 1, 0, 0, 0],
    [18, 0, 0, 0, 25, 0, 0, 0, 0, 12, 3, 10, 2, 2, 2, 2, 128, 0, 0, 0, 0, 1, 0, 0, 0], by decide +kernel, by decide +kernel⟩

/-- C47 for the codec table: every compressor but `rle8_packed_multi_compress` writes the same bytes on every processor. The compressors
of rle8_sh, rle8_mmtf128 and low entropy and the 128 bit, single and greedy ones do not look at the processor at all. -/
theorem C47_table_partial (row : Row) (hr : row ∈ table) (hn : row.comp ≠ .r8 false true) (junk : Vec) (m : Mem) :
    SameOnAll fun cpu => row.comp.run cpu junk m := by
  have key : table.all (fun r => match r.comp with
      | .x S unb packed => decide (XCfg.valid ⟨S, unb, packed⟩)
      | .sl N S unb => decide (SlCfg.valid ⟨N, S, unb⟩)
      | .sh N S unb mode => decide (ShCfg.valid ⟨N, S, unb, mode⟩)
      | _ => true) = true := by decide +kernel
  have hv := List.all_eq_true.mp key row hr
  obtain ⟨id, comp, dec⟩ := row
  dsimp only at hn hv ⊢
  cases comp with
  | r8 single packed => exact C47_rle8_same_partial ⟨single, packed⟩ (fun e => hn (by cases e; rfl))
  | x S unb packed => exact C47_multibyte_same _ (of_decide_eq_true hv)
  | sl N S unb => exact C47_symlut_same _ (of_decide_eq_true hv)
  | sh N S unb mode => exact C47_short_same _ (of_decide_eq_true hv)
  | x128 unb packed => exact Cdc.same _ fun _ _ _ _ => rfl
  | rsh => intro _ _ _ _ _ _; rfl
  | mm => intro _ _ _ _ _ _; rfl
  | le short onlyMax => intro _ _ _ _ _ _; rfl

/-- The same input with a codec that is covered: the same 29 bytes without and with AVX2. -/
example : (R8Cfg.compress ⟨false, false⟩ ⟨true, false, false, false, false, false⟩ (some inp18) 18 true 1000) =
    R8Cfg.compress ⟨false, false⟩ ⟨true, true, true, true, true, true⟩ (some inp18) 18 true 1000 :=
  C47_rle8_same_partial _ (by simp) _ _ _ _ _ _

end Hrk
