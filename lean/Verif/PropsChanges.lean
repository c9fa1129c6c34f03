import Verif.ChangesG
import Verif.PropsSize
import Verif.PropsSame

/-
C48: the compressed size is bounded by how often the input changes, not by its length.
-/

namespace Hrk

/-- Whatever the length of the input: if `changes S inp n` of its positions hold a byte that differs from the byte `S` bytes behind
it, a successful compression takes at most `a` bytes for each of them and `b` bytes. -/
def SizeByChanges (S a b : Nat) (comp : Compress) : Prop :=
  ∀ (inp : Mem) (n outSize ret : Nat) (out : List Byte),
    comp (some inp) n true outSize = .ok ret out → out.length ≤ a * changes S inp n + b

theorem Cdc.sizeByChanges {σ : Type} (c : Cdc σ) (cpu : Cpu) {S a b p : Nat} (hp : ∀ inp n, (c.pre (c.first inp n)).length ≤ p)
    (h : ∀ inp n s, c.run cpu inp n = some s → (finish c.emitEnd c.F.endRun c.F.endLit inp s).length ≤ a * changes S inp n + b) :
    SizeByChanges S a (b + p + 8) (c.compress cpu) := by
  intro inp n outSize ret out he
  obtain ⟨_, b', g2, rfl, rfl⟩ := apiCompress_len _ _ _ _ _ _ he
  unfold body at g2
  cases hs : c.run cpu inp n with
  | none => rw [hs] at g2; cases g2
  | some s =>
    rw [hs] at g2
    simp only [Option.map_some, Option.some.injEq] at g2
    subst g2
    have := h inp n s hs
    have := hp inp n
    simp only [List.length_append, le32_length]
    omega

theorem SizeByChanges.mono {S a a' b b' : Nat} {comp : Compress} (h : SizeByChanges S a b comp) (ha : a ≤ a') (hb : b ≤ b') :
    SizeByChanges S a' b' comp := by
  intro inp n outSize ret out he
  have h1 := h inp n outSize ret out he
  have h2 := Nat.mul_le_mul_right (changes S inp n) ha
  omega

theorem extOf_len (t x : Nat) : (extOf t x).length ≤ 4 := by
  unfold extOf
  repeat' split
  all_goals simp

/-! ### What the emission rules cost -/

theorem XCfg.cost (c : XCfg) : EmitCost c.emit (fun _ => True) c.S (c.S + 12) where
  zero := c.emit_zero
  none := fun fs sym cnt lits _ h => by
    have := c.emit_none _ _ _ _ h
    have : c.long ≤ c.S + 12 := by unfold XCfg.long XCfg.fc; split <;> split <;> omega
    omega
  some := fun fs s cnt lits bytes fs' _ hl h => ⟨by have := c.emit_length _ _ _ _ _ _ hl h; omega, trivial⟩

theorem SlCfg.cost (c : SlCfg) : EmitCost c.emit (fun _ => True) c.S (c.S + 10) where
  zero := fun fs sym lits => c.emit_small fs sym 0 lits (by omega)
  none := fun fs sym cnt lits _ h => by
    by_cases hc : cnt ≥ c.long
    · unfold SlCfg.emit at h
      dsimp only at h
      rw [if_pos (.inl hc)] at h
      cases h
    · unfold SlCfg.long at hc; omega
  some := fun fs s cnt lits bytes fs' _ hl h => by
    obtain ⟨_, h1, _⟩ := c.emit_len hl h
    have e1 := extOf_len 127 (c.stored cnt)
    have e2 := extOf_len c.tinyR (lits + 2)
    refine ⟨?_, trivial⟩
    split at h1 <;> omega

theorem SlCfg.ends_length (c : SlCfg) : c.endRun.length ≤ 8 ∧ ∀ k, (c.endLit k).length ≤ 8 := by
  constructor
  · unfold SlCfg.endRun; simp
  · intro k; unfold SlCfg.endLit; simp

theorem ShCfg.cost (c : ShCfg) (hm : c.mode ≠ .single) : EmitCost c.emit (Lut.ok c.tab c.S) c.S (c.S + 11) where
  zero := fun fs sym lits => c.emit_small fs sym 0 lits (by omega)
  none := fun fs sym cnt lits _ h => by
    unfold ShCfg.emit at h
    rw [if_neg (by simp [hm])] at h
    split at h
    · cases h
    · next hc =>
      have : c.long ≤ c.S + 12 := by unfold ShCfg.long; repeat' split
                                     all_goals omega
      omega
  some := fun fs s cnt lits bytes fs' hP hl h => by
    obtain ⟨h1, _⟩ := c.emit_len hl h
    have e1 := extOf_len 511 (c.stored cnt)
    have e2 := extOf_len c.tinyR (lits + 2)
    refine ⟨?_, c.emit_lut _ _ _ _ _ _ hP hl h⟩
    split at h1 <;> split at h1 <;> omega

theorem off7_len (lits : Nat) : (off7 lits).length ≤ 4 := by unfold off7; split <;> simp
theorem cnt8_len (sc : Nat) : (cnt8 sc).length ≤ 5 := by unfold cnt8; split <;> simp
theorem off8_len (lits : Nat) : (off8 lits).length ≤ 5 := by unfold off8; split <;> simp

theorem R8Cfg.cost (packed : Bool) : EmitCost (R8Cfg.emit ⟨false, packed⟩) (fun fs => fs.single = false) 1 11 where
  zero := fun fs sym lits => by
    unfold R8Cfg.emit
    cases packed <;> simp [R8Cfg.short, R8Cfg.long, r8short]
  none := fun fs sym cnt lits hP h => by
    unfold R8Cfg.emit at h
    cases packed
    · by_cases hc : cnt ≥ 6
      · simp [hP, R8Cfg.short, r8short, hc] at h
      · omega
    · by_cases hc : cnt ≥ 11
      · simp [hP, R8Cfg.long, hc] at h
      · omega
  some := fun fs s cnt lits bytes fs' hP hl h => by
    unfold R8Cfg.emit at h
    rw [if_neg (by simp [hP])] at h
    have e1 := off7_len lits
    have e2 := off8_len lits
    have e3 := cnt8_len (R8Cfg.stored ⟨false, packed⟩ cnt)
    cases packed
    · simp only [Bool.false_eq_true, if_false] at h
      split at h
      · simp only [Option.some.injEq, Prod.mk.injEq] at h
        obtain ⟨rfl, rfl⟩ := h
        refine ⟨?_, rfl⟩
        simp only [R8Cfg.mRec, List.length_append]
        omega
      · cases h
    · simp only [Bool.false_eq_true, if_false, if_true] at h
      split at h
      · simp only [Option.some.injEq, Prod.mk.injEq] at h
        obtain ⟨rfl, rfl⟩ := h
        refine ⟨?_, rfl⟩
        simp only [R8Cfg.pRec, List.length_append]
        split <;> split <;> simp <;> omega
      · cases h

theorem R8Cfg.costT (packed : Bool) : EmitCost (R8Cfg.emitT ⟨false, packed⟩) (fun fs => fs.single = false) 1 11 where
  zero := fun fs sym lits => by
    unfold R8Cfg.emitT
    cases packed <;> simp [R8Cfg.short, R8Cfg.long, r8short]
  none := fun fs sym cnt lits hP h => by
    unfold R8Cfg.emitT at h
    cases packed
    · by_cases hc : cnt ≥ 6
      · simp [hP, R8Cfg.short, r8short, hc] at h
      · omega
    · by_cases hc : cnt ≥ 11
      · simp [hP, R8Cfg.long, hc] at h
      · omega
  some := fun fs s cnt lits bytes fs' hP hl h => by
    unfold R8Cfg.emitT at h
    rw [if_neg (by simp [hP])] at h
    have e1 := off7_len lits
    have e2 := off8_len lits
    have e3 := cnt8_len (R8Cfg.stored ⟨false, packed⟩ cnt)
    cases packed
    · simp only [Bool.false_eq_true, if_false] at h
      split at h
      · simp only [Option.some.injEq, Prod.mk.injEq] at h
        obtain ⟨rfl, rfl⟩ := h
        refine ⟨?_, rfl⟩
        simp only [R8Cfg.mRec, List.length_append]
        omega
      · cases h
    · simp only [Bool.false_eq_true, if_false, if_true] at h
      split at h
      · simp only [Option.some.injEq, Prod.mk.injEq] at h
        obtain ⟨rfl, rfl⟩ := h
        refine ⟨?_, rfl⟩
        simp only [R8Cfg.pRecT, List.length_append]
        split <;> simp <;> omega
      · cases h

/-! ### C48 -/

/-- C48 for the 16 to 64 bit codecs. -/
theorem C48_multibyte_changes (c : XCfg) (hc : c.valid) (cpu : Cpu) :
    SizeByChanges c.S (2 * c.S + 12) (5 * c.S + 30) (c.compress cpu) := by
  refine (Cdc.sizeByChanges c.cdc cpu (a := 2 * c.S + 12) (b := 5 * c.S + 22) (p := 0) (by simp [XCfg.cdc]) ?_).mono
    (Nat.le_refl _) (by omega)
  intro inp n s hs
  simp only [XCfg.cdc] at hs
  rw [c.runI hc] at hs
  have := finishX_changes c.fmt c.emit (c.valid_S hc).1 (c.encW_ok hc cpu) trivial c.cost c.cost c.end_length.1 c.end_length.2 s hs
  simp only [XCfg.cdc]
  rw [show c.S + 12 + c.S = 2 * c.S + 12 by omega] at this
  exact Nat.le_trans this (by omega)

/-- C48 for the 128 bit codecs. -/
theorem C48_128_changes (unb packed : Bool) (cpu : Cpu) : SizeByChanges 16 44 1410 ((cdc128 unb packed).compress cpu) := by
  refine (Cdc.sizeByChanges (cdc128 unb packed) cpu (a := 44) (b := 1398) (p := 0) (by simp [cdc128]) ?_).mono
    (Nat.le_refl _) (by omega)
  intro inp n s hs
  simp only [cdc128] at hs
  rw [run128I_eq] at hs
  have hE := (x128 unb packed).end_length
  have hE1 : (fmt128 unb packed).endRun.length ≤ 26 := by
    cases packed <;> simp [fmt128, XCfg.endSym, x128]
  have := finish128_changes (fmt128 unb packed) (x128 unb packed).emit (P := fun _ => True) (D := 28) (E := 26) (by omega) trivial
    (x128 unb packed).cost (x128 unb packed).cost hE1 hE.2 s hs
  exact Nat.le_trans this (by omega)

/-- C48 for the symbol table codecs. -/
theorem C48_symlut_changes (c : SlCfg) (hc : c.valid) (cpu : Cpu) :
    SizeByChanges c.S (2 * c.S + 10) (4 * c.S + 26) (c.compress cpu) := by
  refine (Cdc.sizeByChanges c.cdc cpu (a := 2 * c.S + 10) (b := 4 * c.S + 18) (p := 0) (by simp [SlCfg.cdc]) ?_).mono
    (Nat.le_refl _) (by omega)
  intro inp n s hs
  obtain ⟨e1, e2⟩ := c.ends_length
  simp only [SlCfg.cdc] at hs ⊢
  by_cases h : c.S = 1
  · rw [if_pos h, c.run8I h] at hs
    have hcost := c.cost
    rw [h] at hcost
    have := finish8_changes c.fmt c.emit c.emit (c.encW1 h cpu) (by omega) trivial hcost hcost hcost e1 e2 s hs
    rw [h]
    omega
  · rw [if_neg h, c.runI hc.2.1 h] at hs
    have := finishX_changes c.fmt c.emit (c.valid_S hc).1 (c.encW_ok hc cpu) trivial c.cost c.cost e1 e2 s hs
    rw [show c.S + 10 + c.S = 2 * c.S + 10 by omega] at this
    exact Nat.le_trans this (by omega)

/-- C48 for the short codecs with more than one symbol. -/
theorem C48_short_changes (c : ShCfg) (hc : c.valid) (hm : c.mode = .normal) (cpu : Cpu) :
    SizeByChanges c.S (2 * c.S + 11) (4 * c.S + 36) (c.compress cpu) := by
  have hm' : c.mode ≠ .single := by rw [hm]; simp
  refine (Cdc.sizeByChanges c.cdc cpu (a := 2 * c.S + 11) (b := 4 * c.S + 28) (p := 0)
    (by simp [ShCfg.cdc, ShCfg.pre, hm]) ?_).mono (Nat.le_refl _) (by omega)
  intro inp n s hs
  obtain ⟨e1, e2⟩ := c.ends_len hc
  have hcost := c.cost hm'
  have hI := c.init_ok hc
  replace hs : c.run cpu inp n = some s := hs
  show (finish c.emit c.fmt.endRun c.fmt.endLit inp s).length ≤ _
  unfold ShCfg.run at hs
  rw [hm] at hs
  dsimp only at hs
  by_cases h : c.S = 1
  · rw [if_pos h, SlCfg.run8I ⟨c.N, c.S, c.unb⟩ h] at hs
    rw [h] at hcost hI ⊢
    have := finish8_changes c.fmt c.emit c.emit (SlCfg.encW1 _ h cpu) (by omega) hI hcost hcost hcost e1 e2 s hs
    omega
  · rw [if_neg h, SlCfg.runI ⟨c.N, c.S, c.unb⟩ hc.2.1 h] at hs
    have := finishX_changes c.fmt c.emit (c.valid_S hc).1 (ShCfg.encW_ok (c.valid_S hc).2 cpu) hI hcost hcost e1 e2 s hs
    rw [show c.S + 11 + c.S = 2 * c.S + 11 by omega] at this
    exact Nat.le_trans this (by omega)

/-- C48 for the greedy codecs. -/
theorem C48_greedy_changes (c : ShCfg) (hc : c.valid) (hm : c.mode = .greedy) (cpu : Cpu) :
    SizeByChanges c.S ((c.S + 11) * (c.S + 1)) ((c.S + 11) * (3 * c.S + 1) + 25) (c.compress cpu) := by
  have hm' : c.mode ≠ .single := by rw [hm]; simp
  refine (Cdc.sizeByChanges c.cdc cpu (a := (c.S + 11) * (c.S + 1)) (b := (c.S + 11) * (3 * c.S + 1) + 17) (p := 0)
    (by simp [ShCfg.cdc, ShCfg.pre, hm]) ?_).mono (Nat.le_refl _) (by omega)
  intro inp n s hs
  obtain ⟨e1, e2⟩ := c.ends_len hc
  have hcost := c.cost hm'
  replace hs : c.run cpu inp n = some s := hs
  show (finish c.emit c.fmt.endRun c.fmt.endLit inp s).length ≤ _
  unfold ShCfg.run at hs
  rw [hm] at hs
  dsimp only at hs
  have hS2 := (hc.2.2.2.2 hm).2.1
  rw [runGI_eq c.fmt (by have := hc.2.1; simp only [List.mem_cons, List.not_mem_nil, or_false] at this; unfold symSize; omega)
    c.emit_lut (c.init_ok hc)] at hs
  have := finishG_changes c.fmt c.emit hS2 (by omega) (c.init_ok hc) hcost hcost e1 e2 s _ hs
  rw [Nat.mul_succ (c.S + 11) c.S, Nat.add_comm ((c.S + 11) * c.S)]
  exact this

/-- C48 for `rle8_multi_compress` and `rle8_packed_multi_compress`. -/
theorem C48_rle8_multi_changes (packed : Bool) (cpu : Cpu) : SizeByChanges 1 11 31 (R8Cfg.compress ⟨false, packed⟩ cpu) := by
  refine (Cdc.sizeByChanges (R8Cfg.cdc ⟨false, packed⟩) cpu (a := 11) (b := 22) (p := 1) (by simp [R8Cfg.cdc, R8Cfg.pre]) ?_).mono
    (Nat.le_refl _) (by omega)
  intro inp n s hs
  replace hs : R8Cfg.run ⟨false, packed⟩ cpu inp n = some s := hs
  rw [R8Cfg.run_eq] at hs
  simp only [Bool.false_eq_true, if_false] at hs
  have hE : (R8Cfg.endRun ⟨false, packed⟩).length ≤ 11 ∧ ∀ k, (R8Cfg.endLit ⟨false, packed⟩ k).length ≤ 11 := by
    cases packed <;> simp [R8Cfg.endRun, R8Cfg.endLit]
  have := finish8_changes (R8Cfg.fmt ⟨false, packed⟩) (R8Cfg.emitT ⟨false, packed⟩) (R8Cfg.emitT ⟨false, packed⟩) (P := fun fs => fs.single = false) (D := 11)
    (E := 11)
    (by split <;> omega) (by omega) rfl (R8Cfg.cost packed) (R8Cfg.costT packed) (R8Cfg.costT packed) hE.1 hE.2 s hs
  exact Nat.le_trans this (by omega)

/-- One change in 400 bytes: at most 42 bytes. -/
example : changes 1 (fun i => if i < 200 then 2 else 3) 400 = 1 ∧
    (R8Cfg.compress ⟨false, true⟩ noSimd (some fun i => if i < 200 then 2 else 3) 400 true 1000).size ≤ 42 := by decide +kernel

/-- A codec with one symbol does not have the property: the same number of changes, but the output grows with the input. -/
example : changes 1 (fun i => if i < 200 then 2 else 3) 300 = 1 ∧
    100 ≤ (R8Cfg.compress ⟨true, true⟩ noSimd (some fun i => if i < 200 then 2 else 3) 300 true 1000).size := by decide +kernel

/-- Three changes of two byte symbols. -/
example : changes 2 (fun i => UInt8.ofNat (if i % 2 = 0 then 1 else i / 100)) 400 = 3 ∧
    (XCfg.compress ⟨2, false, true⟩ noSimd (some fun i => UInt8.ofNat (if i % 2 = 0 then 1 else i / 100)) 400 true 1000).size ≤ 16 * 3 + 40 := by
  decide +kernel

end Hrk
