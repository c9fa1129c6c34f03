import Verif.Blocks
import Verif.PropsSize
import Verif.PropsRle8

/-
C17, C18, C19: inputs for which the output does not fit into a buffer of
`rle_compress_bounds` bytes.
-/

namespace Hrk

/-! ### C17 -/

theorem R8Cfg.multi_zero (fs : R8St) (sym : List Byte) (lits : Nat) : R8Cfg.emit ⟨false, false⟩ fs sym 0 lits = none := by
  unfold R8Cfg.emit
  split
  · rfl
  · simp [R8Cfg.short, r8short]

theorem R8Cfg.multi_cost (fs : R8St) (h : fs.single = false) : ∃ bytes,
    R8Cfg.emit ⟨false, false⟩ fs [0] 6 255 = some (bytes, ⟨false, [0]⟩) ∧ bytes.length = 6 + 1 := by
  refine ⟨R8Cfg.mRec ⟨false, false⟩ [0] 6 255, ?_, by decide⟩
  unfold R8Cfg.emit
  rw [if_neg (by simp [h])]
  simp [R8Cfg.short, r8short]

/-- C17 is false for rle8_multi: 300 blocks of 255 bytes without repetition and a run of 6
bytes overflow a buffer of `rle_compress_bounds` bytes. -/
theorem C17_multi_violated (cpu : Cpu) : ∃ inp n, 0 < n ∧ n ≤ 100000 ∧
    R8Cfg.compress ⟨false, false⟩ cpu (some inp) n true (bounds n) = .ub := by
  refine ⟨blk 255 6 (fun _ => [0]), 300 * (255 + 6) + 40, by omega, by omega, ?_⟩
  generalize hn : 300 * (255 + 6) + 40 = n
  refine Cdc.ub_of_out _ (by omega) (by unfold maxInput; omega)
    ((R8Cfg.cdc_ok ⟨false, false⟩).total cpu (blk 255 6 (fun _ => [0])) n) fun s hr => ?_
  change R8Cfg.run ⟨false, false⟩ cpu _ _ = _ at hr
  rw [R8Cfg.run_eq] at hr
  have hW : (if cpu.avx2 then 32 else 16) = 32 ∨ (if cpu.avx2 then 32 else 16) = 16 := by split <;> simp
  have := run8_blocks (K := 300) (g := 1) (R8Cfg.fmt ⟨false, false⟩) (R8Cfg.emitT ⟨false, false⟩) (b := 0) (by decide)
    (I := fun _ fs => fs.single = false) (by omega) (by omega) (by omega) (by omega) (by omega)
    R8Cfg.multi_zero hr rfl (fun k _ fs h => by
      obtain ⟨bytes, h1, h2⟩ := R8Cfg.multi_cost fs h
      exact ⟨bytes, _, h1, h2, rfl⟩)
  omega

/-- C17 is false for rle8_multi at every size from 125052 bytes up to the largest that
`rle_compress_bounds` accepts: some input of exactly that size overflows the buffer. -/
theorem C17_multi_sizes_violated (cpu : Cpu) (n : Nat) (h1 : 125052 ≤ n) (h2 : n ≤ 1073741824) : ∃ inp,
    R8Cfg.compress ⟨false, false⟩ cpu (some inp) n true (bounds n) = .ub := by
  refine ⟨blk 255 6 (fun _ => [0]), ?_⟩
  refine Cdc.ub_of_out _ (by omega) (by unfold maxInput; omega)
    ((R8Cfg.cdc_ok ⟨false, false⟩).total cpu (blk 255 6 (fun _ => [0])) n) fun s hr => ?_
  change R8Cfg.run ⟨false, false⟩ cpu _ _ = _ at hr
  rw [R8Cfg.run_eq] at hr
  have hW : (if cpu.avx2 then 32 else 16) = 32 ∨ (if cpu.avx2 then 32 else 16) = 16 := by split <;> simp
  have := run8_blocks (K := (n - 33) / 261) (g := 1) (R8Cfg.fmt ⟨false, false⟩) (R8Cfg.emitT ⟨false, false⟩) (b := 0) (by decide)
    (I := fun _ fs => fs.single = false) (by omega) (by omega) (by omega) (by omega) (by omega)
    R8Cfg.multi_zero hr rfl (fun k _ fs h => by
      obtain ⟨bytes, h1, h2⟩ := R8Cfg.multi_cost fs h
      exact ⟨bytes, _, h1, h2, rfl⟩)
  omega

/-! ### Symbols that are never in the table -/

/-- A new symbol for every block. -/
def newSym (S k : Nat) : List Byte := [b8 (k % 128), b8 (2 + k / 128)] ++ List.replicate (S - 2) 2

theorem newSym_low {S : Nat} (hS : 2 ≤ S) : LowSym S (fun k => newSym S (k % 300)) := by
  intro k
  refine ⟨by simp [newSym]; omega, ?_⟩
  intro b hb
  simp only [newSym, List.cons_append, List.nil_append, List.mem_cons, List.mem_replicate] at hb
  rcases hb with rfl | rfl | ⟨_, rfl⟩
  · rw [b8_toNat]; omega
  · rw [b8_toNat]; omega
  · decide

theorem newSym_inj {S j k : Nat} (hj : j < 300) (hk : k < 300) (h : newSym S j = newSym S k) : j = k := by
  simp only [newSym, List.cons_append, List.nil_append, List.cons.injEq] at h
  have h1 := congrArg UInt8.toNat h.1
  have h2 := congrArg UInt8.toNat h.2.1
  simp only [b8_toNat] at h1 h2
  omega

theorem newSym_const {S k : Nat} (hS : 2 ≤ S) (hk : k < 300) {b : Byte} (hb : b ∈ ([0x00, 0x7F, 0xFF, 0x01, 0x7E, 0x80, 0xFE] : List Byte)) :
    newSym S k ≠ List.replicate S b := by
  intro h
  obtain ⟨S, rfl⟩ : ∃ T, S = T + 2 := ⟨S - 2, by omega⟩
  simp only [newSym, List.cons_append, List.nil_append, List.replicate_succ, List.cons.injEq] at h
  have h1 := congrArg UInt8.toNat h.1
  have h2 := congrArg UInt8.toNat h.2.1
  simp only [b8_toNat] at h1 h2
  simp only [List.mem_cons, List.not_mem_nil, or_false] at hb
  rcases hb with rfl | rfl | rfl | rfl | rfl | rfl | rfl <;> simp at h1 h2 <;> omega

/-- The table before block `k`: initial symbols and those of the blocks so far. -/
def LutBefore (N S k : Nat) (lut : Lut) : Prop := Lut.ok N S lut ∧
  ∀ x ∈ lut, (∃ b ∈ ([0x00, 0x7F, 0xFF, 0x01, 0x7E, 0x80, 0xFE] : List Byte), x = List.replicate S b) ∨
    ∃ j, j < k ∧ x = newSym S j

theorem LutBefore.find {N S k : Nat} {lut : Lut} (h : LutBefore N S k lut) (hS : 2 ≤ S) (hk : k < 300) :
    lut.find (newSym S k) = N := by
  rw [← h.1.1]
  refine List.idxOf_eq_length fun hm => ?_
  rcases h.2 _ hm with ⟨b, hb, he⟩ | ⟨j, hj, he⟩
  · exact newSym_const hS hk hb he
  · have := newSym_inj hk (by omega) he
    omega

theorem LutBefore.use {N S k : Nat} {lut : Lut} (h : LutBefore N S k lut) (hS : 2 ≤ S) :
    LutBefore N S (k + 1) (lut.use (lut.find (newSym S k)) (newSym S k)) := by
  refine ⟨?_, ?_⟩
  · have hl : (newSym S k).length = S := by simp [newSym]; omega
    rcases Lut.use_ok h.1 (idx := lut.find (newSym S k)) hl with h1 | h1
    · exact h1
    · subst h1
      have := h.1
      simpa [Lut.use, Lut.find] using this
  · intro x hx
    have hx : x = newSym S k ∨ x ∈ lut := by
      unfold Lut.use at hx
      split at hx
      · exact Or.inr hx
      · rcases List.mem_cons.mp hx with h | h
        · exact Or.inl h
        · exact Or.inr (List.mem_of_mem_eraseIdx h)
    rcases hx with rfl | hx
    · exact Or.inr ⟨k, by omega, rfl⟩
    · rcases h.2 x hx with h | ⟨j, hj, he⟩
      · exact Or.inl h
      · exact Or.inr ⟨j, by omega, he⟩

/-! ### C18 -/

namespace SlCfg

theorem emit_zero (c : SlCfg) (lut : Lut) (sym : List Byte) (lits : Nat) : c.emit lut sym 0 lits = none := by
  unfold emit
  exact if_neg (by unfold long; omega)

theorem init_before (c : SlCfg) (hc : c.valid) : LutBefore c.N c.S 0 c.init := by
  refine ⟨c.init_ok hc, fun x hx => Or.inl ?_⟩
  unfold init at hx
  obtain ⟨b, hb, rfl⟩ := List.mem_map.mp hx
  refine ⟨b, ?_, rfl⟩
  split at hb
  · simp only [List.mem_cons, List.not_mem_nil, or_false] at hb
    rcases hb with rfl | rfl | rfl <;> decide
  · exact hb

/-- What a new symbol costs. -/
theorem new_cost (c : SlCfg) {lut : Lut} {sym : List Byte} {cnt lits : Nat} (hf : lut.find sym = c.N) (hl : sym.length = c.S)
    (hs : c.stored cnt ≤ 127) (hc : cnt ≥ 4 + pen c.tinyR (lits + 2)) :
    ∃ bytes, c.emit lut sym cnt lits = some (bytes, lut.use (lut.find sym) sym) ∧
      bytes.length = 2 + c.S + (extOf c.tinyR (lits + 2)).length := by
  refine ⟨_, by
    unfold emit
    refine if_pos (Or.inr ?_)
    rw [if_pos hf]
    have : pen 127 (c.stored cnt) = 0 := by unfold pen; rw [if_pos (by omega), if_pos hs]
    omega, ?_⟩
  have : extOf 127 (c.stored cnt) = [] := by unfold extOf tinyOf; rw [if_pos hs, if_pos rfl]
  rw [if_pos hf, this]
  simp only [List.length_append, le16_length, hl, List.length_nil]
  omega

/-- What the most recent symbol costs. -/
theorem old_cost (c : SlCfg) (hv : c.valid) {lut : Lut} {sym : List Byte} {cnt lits : Nat} (hf : lut.find sym = 0)
    (hs : c.stored cnt ≤ 127) (hc : cnt ≥ 3 + pen c.tinyR (lits + 2)) :
    ∃ bytes, c.emit lut sym cnt lits = some (bytes, lut) ∧ bytes.length = 2 + (extOf c.tinyR (lits + 2)).length := by
  have hN : lut.find sym ≠ c.N := by
    have := hv.1
    simp only [List.mem_cons, List.not_mem_nil, or_false] at this
    omega
  refine ⟨_, by
    unfold emit
    refine (if_pos (Or.inr ?_)).trans ?_
    · rw [if_neg hN]
      have : pen 127 (c.stored cnt) = 0 := by unfold pen; rw [if_pos (by omega), if_pos hs]
      omega
    · simp only [Lut.use]
      rw [if_pos hf], ?_⟩
  have : extOf 127 (c.stored cnt) = [] := by unfold extOf tinyOf; rw [if_pos hs, if_pos rfl]
  rw [if_neg hN, this]
  simp

theorem run_violated (c : SlCfg) (hc : c.valid) (h1 : c.S ≠ 1) (cpu : Cpu) {L R g : Nat} (hL : 0 < L) (hg : 0 < g) (hR : 2 * c.S ≤ R)
    (hR' : R ≤ 2 * c.S + 8) (hLR : L + R ≤ 100000) (hu : c.unb = true ∨ c.S ∣ R) (hpen : R ≥ 4 + pen c.tinyR (L + 2)) (hs : R ≤ 125)
    (hlen : 2 + c.S + (extOf c.tinyR (L + 2)).length = R + g) :
    c.compress cpu (some (blk L R fun k => newSym c.S (k % 300))) (300 * (L + R) + 81) true (bounds (300 * (L + R) + 81)) = .ub := by
  have hS := c.valid_S hc
  have hW : c.encW cpu = 0 ∨ c.encW cpu = 16 ∨ c.encW cpu = 32 := by
    unfold encW; repeat' split
    all_goals omega
  generalize hn : 300 * (L + R) + 81 = n
  refine Cdc.ub_of_out _ (by omega) (by unfold maxInput; omega) ((c.cdc_ok hc).total cpu _ n) fun s hr => ?_
  have hrun : c.cdc.run cpu = runX c.fmt c.S (c.encW cpu) c.unb := by
    show (if c.S = 1 then _ else _) = _
    rw [if_neg h1, c.runI hc.2.1 h1]
  rw [hrun] at hr
  obtain ⟨s', g1, g2⟩ := runX_blocks c.fmt (K := 300) (g := g) (n := n) (L := L) (R := R) (S := c.S) (W := c.encW cpu) (unb := c.unb)
    (sym := fun k => newSym c.S (k % 300)) (I := LutBefore c.N c.S) hS.1 (by omega) (by omega)
    (newSym_low (by omega)) hL hR (by omega) hu (by omega) c.emit_zero (c.init_before hc) (by
      intro k hk lut hI
      simp only [Nat.mod_eq_of_lt hk]
      obtain ⟨bytes, e1, e2⟩ := c.new_cost (cnt := R) (lits := L) (hI.find (by omega) hk) (by simp [newSym]; omega)
        (by have := c.stored_le R; omega) hpen
      exact ⟨bytes, _, e1, by omega, hI.use (by omega)⟩)
  rw [hr] at g1
  cases g1
  have : 300 * (L + R + g) = 300 * (L + R) + 300 * g := Nat.mul_add _ _ _
  omega

end SlCfg

/-- C18 is false for 16 and 32 bit symbols: 300 blocks of 65540 bytes without repetition and
a run of a symbol that is not in the table overflow a buffer of `rle_compress_bounds` bytes. -/
theorem C18_symlut_violated (c : SlCfg) (hc : c.valid) (h : c.S = 2 ∨ c.S = 4) (cpu : Cpu) : ∃ inp n, 0 < n ∧ n ≤ 20000000 ∧
    c.compress cpu (some inp) n true (bounds n) = .ub := by
  have ht := c.tinyR_eq
  have ht' : c.tinyR = 127 ∨ c.tinyR = 63 := by split at ht <;> omega
  have e : (extOf c.tinyR (65540 + 2)).length = 4 ∧ SlCfg.pen c.tinyR (65540 + 2) = 2 := by
    rcases ht' with h | h <;> rw [h] <;> decide
  rcases h with h | h
  · exact ⟨_, 300 * (65540 + 6) + 81, by omega, by omega, c.run_violated hc (by omega) cpu (L := 65540) (R := 6) (g := 2) (by omega) (by omega) (by omega)
      (by omega) (by omega) (Or.inr (by rw [h]; decide)) (by omega) (by omega) (by omega)⟩
  · exact ⟨_, 300 * (65540 + 8) + 81, by omega, by omega, c.run_violated hc (by omega) cpu (L := 65540) (R := 8) (g := 2) (by omega) (by omega) (by omega)
      (by omega) (by omega) (Or.inr (by rw [h]; decide)) (by omega) (by omega) (by omega)⟩

/-- C18 is false for 24 bit symbols; 128 bytes between the runs are enough. -/
theorem C18_symlut24_violated (c : SlCfg) (hc : c.valid) (h : c.S = 3) (cpu : Cpu) : ∃ inp n, 0 < n ∧ n ≤ 50000 ∧
    c.compress cpu (some inp) n true (bounds n) = .ub := by
  have ht := c.tinyR_eq
  have ht' : c.tinyR = 127 ∨ c.tinyR = 63 := by split at ht <;> omega
  have e : (extOf c.tinyR (128 + 2)).length = 2 ∧ SlCfg.pen c.tinyR (128 + 2) = 2 := by
    rcases ht' with h | h <;> rw [h] <;> decide
  exact ⟨_, 300 * (128 + 6) + 81, by omega, by omega, c.run_violated hc (by omega) cpu (L := 128) (R := 6) (g := 1) (by omega) (by omega) (by omega)
    (by omega) (by omega) (Or.inr (by rw [h]; decide)) (by omega) (by omega) (by omega)⟩

/-- C18 is false for 8 bit symbols. -/
theorem C18_symlut8_violated (c : SlCfg) (hc : c.valid) (h : c.S = 1) (cpu : Cpu) : ∃ inp n, 0 < n ∧ n ≤ 20000000 ∧
    c.compress cpu (some inp) n true (bounds n) = .ub := by
  have ht := c.tinyR_eq
  have ht' : c.tinyR = 127 ∨ c.tinyR = 63 := by split at ht <;> omega
  have e : (extOf c.tinyR (65540 + 2)).length = 4 ∧ SlCfg.pen c.tinyR (65540 + 2) = 2 := by
    rcases ht' with h | h <;> rw [h] <;> decide
  refine ⟨blk 65540 5 (fun _ => [0]), 300 * (65540 + 5) + 40, by omega, by omega, ?_⟩
  generalize hn : 300 * (65540 + 5) + 40 = n
  refine Cdc.ub_of_out _ (by omega) (by unfold maxInput; omega) ((c.cdc_ok hc).total cpu _ n) fun s hr => ?_
  have hW : c.encW cpu = 32 ∨ c.encW cpu = 16 := by unfold SlCfg.encW; rw [if_pos h]; split <;> simp
  have hrun : c.cdc.run cpu = run8 c.fmt (c.encW cpu) := by
    show (if c.S = 1 then _ else _) = _
    rw [if_pos h, c.run8I h]
  rw [hrun] at hr
  have := run8_blocks (K := 300) (g := 1) c.fmt c.fmt.emit (b := 0) (by decide) (I := fun _ lut => lut.find [0] = 0)
    (by omega) (by omega) (by omega) (by omega) (by omega) c.emit_zero hr
    (by show c.init.find [0] = 0
        unfold SlCfg.init; rw [h]; split <;> decide)
    (fun k _ lut hI => by
      obtain ⟨bytes, e1, e2⟩ := c.old_cost hc (cnt := 5) (lits := 65540) hI (by have := c.stored_le 5; omega) (by omega)
      exact ⟨bytes, lut, e1, by omega, hI⟩)
  omega

/-! ### C19 -/

namespace ShCfg

theorem emit_zero (c : ShCfg) (lut : Lut) (sym : List Byte) (lits : Nat) : c.emit lut sym 0 lits = none := by
  unfold emit
  split
  · rfl
  · refine if_neg ?_
    have : 0 < c.minR := by unfold minR; split <;> omega
    have : 0 < c.long := by unfold long; repeat' split
                            all_goals omega
    omega

theorem maxPR_le (c : ShCfg) (hc : c.valid) : c.maxPR ≤ 15 := by
  obtain ⟨hN, _⟩ := hc
  simp only [List.mem_cons, List.not_mem_nil, or_false] at hN
  unfold maxPR
  rcases hN with h | h | h | h <;> simp [CB, RP, h]

theorem far_ext (c : ShCfg) (hc : c.valid) : (extOf c.tinyR (65540 + 2)).length = 4 ∧ SlCfg.pen c.tinyR (65540 + 2) = 2 ∧
    c.tinyR < 65540 := by
  obtain ⟨hN, _⟩ := hc
  simp only [List.mem_cons, List.not_mem_nil, or_false] at hN
  have : c.tinyR = 2047 ∨ c.tinyR = 1023 ∨ c.tinyR = 511 := by
    unfold tinyR
    rcases hN with h | h | h | h <;> simp [CB, RX, RP, h]
  rcases this with h | h | h <;> rw [h] <;> decide

/-- What a far away run costs. -/
theorem far_cost (c : ShCfg) (hc : c.valid) (hm : c.mode ≠ .single) {lut : Lut} {sym : List Byte} {cnt : Nat} (hl : sym.length = c.S)
    (hs : c.stored cnt ≤ 511)
    (hcnt : cnt ≥ c.minR + 4 + (if c.N ≠ 0 ∧ lut.find sym = c.N then c.S else 0)) :
    ∃ bytes, c.emit lut sym cnt 65540 = some (bytes, lut.use (lut.find sym) sym) ∧
      bytes.length = 7 + if lut.find sym = c.N then c.S else 0 := by
  obtain ⟨e1, e2, e3⟩ := c.far_ext hc
  have hp : c.packs (c.stored cnt) 65540 = false := by
    have := c.maxPR_le hc
    unfold packs
    rw [show decide (65540 ≤ c.maxPR) = false by simp; omega]
    rfl
  have hpen : c.penalty (lut.find sym) (c.stored cnt) 65540 = (if c.N ≠ 0 ∧ lut.find sym = c.N then c.S else 0) + 4 := by
    unfold penalty
    rw [hp, e2]
    have : SlCfg.pen 511 (c.stored cnt) = 0 := by unfold SlCfg.pen; rw [if_pos (by omega), if_pos hs]
    have hw : ¬ (c.stored cnt ≤ 511 ∧ 65540 + 2 ≤ c.tinyR) := by omega
    simp only [Bool.false_eq_true, if_false, if_neg hw, this]
  refine ⟨c.pack (lut.find sym) (c.stored cnt) 65540 ++ (if c.news (lut.find sym) then sym else []), ?_, ?_⟩
  · unfold emit
    rw [if_neg (by simp [hm]), if_pos (Or.inr (by rw [hpen]; omega))]
  · have : extOf 511 (c.stored cnt) = [] := by unfold extOf tinyOf; rw [if_pos hs, if_pos rfl]
    have hnews : c.news (lut.find sym) = decide (lut.find sym = c.N) := by
      unfold news
      cases hmm : c.mode <;> simp_all <;> rfl
    unfold pack
    rw [hp, this, hnews]
    simp only [Bool.false_eq_true, if_false, List.length_append, e1, decide_eq_true_eq]
    by_cases h : lut.find sym = c.N
    · rw [if_pos h, if_pos h]; simp [hl]
    · rw [if_neg h, if_neg h]; simp

theorem init_before (c : ShCfg) (hc : c.valid) (hm : c.mode ≠ .single) : LutBefore c.N c.S 0 c.init := by
  refine ⟨?_, fun x hx => Or.inl ?_⟩
  · have := c.init_ok hc
    unfold tab at this
    rwa [if_neg hm] at this
  · unfold init at hx
    rw [if_neg hm] at hx
    obtain ⟨b, hb, rfl⟩ := List.mem_map.mp hx
    refine ⟨b, ?_, rfl⟩
    split at hb
    · exact hb
    · split at hb
      · simp only [List.mem_cons, List.not_mem_nil, or_false] at hb
        rcases hb with rfl | rfl | rfl <;> decide
      · split at hb
        · simp only [List.mem_cons, List.not_mem_nil, or_false] at hb
          subst hb; decide
        · simp at hb

end ShCfg

/-- C19 is false for 16, 24 and 48 bit symbols, and for 32 bit symbols counted in bytes: 300
blocks of 65540 bytes without repetition and a run of a symbol that is not in the table
overflow a buffer of `rle_compress_bounds` bytes. -/
theorem C19_short_violated (c : ShCfg) (hc : c.valid) (hm : c.mode = .normal)
    (h : c.S = 2 ∨ c.S = 3 ∨ c.S = 6 ∨ c.S = 4 ∧ c.unb = true) (cpu : Cpu) : ∃ inp n, 0 < n ∧ n ≤ 20000000 ∧
    c.compress cpu (some inp) n true (bounds n) = .ub := by
  have hns : c.mode ≠ .single := by rw [hm]; decide
  have hS : 2 ≤ c.S ∧ c.S ≤ 6 := by omega
  refine ⟨blk 65540 (c.S + 6) (fun k => newSym c.S (k % 300)), 300 * (65540 + (c.S + 6)) + 81, by omega, by omega, ?_⟩
  generalize hn : 300 * (65540 + (c.S + 6)) + 81 = n
  have hW : SlCfg.encW ⟨c.N, c.S, c.unb⟩ cpu = 0 ∨ SlCfg.encW ⟨c.N, c.S, c.unb⟩ cpu = 16 ∨ SlCfg.encW ⟨c.N, c.S, c.unb⟩ cpu = 32 := by
    unfold SlCfg.encW; repeat' split
    all_goals omega
  refine Cdc.ub_of_out _ (by omega) (by unfold maxInput; omega) ((c.cdc_ok hc).total cpu _ n) fun s hr => ?_
  have hrun : c.cdc.run cpu = runX c.fmt c.S (SlCfg.encW ⟨c.N, c.S, c.unb⟩ cpu) c.unb := by
    show c.run cpu = _
    unfold ShCfg.run
    rw [hm]
    simp only
    rw [if_neg (by omega), SlCfg.runI ⟨c.N, c.S, c.unb⟩ hc.2.1 (by show c.S ≠ 1; omega) c.fmt]
  rw [hrun] at hr
  obtain ⟨s', g1, g2⟩ := runX_blocks c.fmt (K := 300) (g := 1) (n := n) (L := 65540) (R := c.S + 6) (S := c.S)
    (W := SlCfg.encW ⟨c.N, c.S, c.unb⟩ cpu) (unb := c.unb)
    (sym := fun k => newSym c.S (k % 300)) (I := LutBefore c.N c.S) (by omega) (by omega) (by omega)
    (newSym_low (by omega)) (by omega) (by omega) (by omega)
    (by rcases h with h | h | h | h
        · rw [h]; exact Or.inr (by decide)
        · rw [h]; exact Or.inr (by decide)
        · rw [h]; exact Or.inr (by decide)
        · exact Or.inl h.2)
    (by omega) c.emit_zero (c.init_before hc hns) (by
      intro k hk lut hI
      simp only [Nat.mod_eq_of_lt hk]
      have hf := hI.find (by omega) hk
      obtain ⟨bytes, e1, e2⟩ := c.far_cost hc hns (cnt := c.S + 6) (lut := lut) (sym := newSym c.S k) (by simp [newSym]; omega)
        (by have := c.stored_le (c.S + 6); omega)
        (by rw [hf]
            unfold ShCfg.minR
            by_cases hN : c.N = 0
            · rw [if_neg (by simp [hN, hns]), if_neg (by simp [hN])]; omega
            · rw [if_pos (Or.inl hN), if_pos ⟨hN, rfl⟩]; omega)
      rw [if_pos hf] at e2
      exact ⟨bytes, _, e1, by omega, hI.use (by omega)⟩)
  rw [hr] at g1
  cases g1
  omega

/-- C19 is false for 8 bit symbols. -/
theorem C19_short8_violated (c : ShCfg) (hc : c.valid) (hm : c.mode = .normal) (h : c.S = 1) (cpu : Cpu) :
    ∃ inp n, 0 < n ∧ n ≤ 20000000 ∧ c.compress cpu (some inp) n true (bounds n) = .ub := by
  have hns : c.mode ≠ .single := by rw [hm]; decide
  have hR : ∃ R, R = if c.N = 0 then 7 else 6 := ⟨_, rfl⟩
  obtain ⟨R, hR⟩ := hR
  have hR' : R = 7 ∨ R = 6 := by split at hR <;> omega
  refine ⟨blk 65540 R (fun _ => [0]), 300 * (65540 + R) + 40, by omega, by omega, ?_⟩
  generalize hn : 300 * (65540 + R) + 40 = n
  refine Cdc.ub_of_out _ (by omega) (by unfold maxInput; omega) ((c.cdc_ok hc).total cpu _ n) fun s hr => ?_
  have hW : SlCfg.encW ⟨c.N, c.S, c.unb⟩ cpu = 32 ∨ SlCfg.encW ⟨c.N, c.S, c.unb⟩ cpu = 16 := by
    unfold SlCfg.encW; rw [if_pos h]; split <;> simp
  have hrun : c.cdc.run cpu = run8 c.fmt (SlCfg.encW ⟨c.N, c.S, c.unb⟩ cpu) := by
    show c.run cpu = _
    unfold ShCfg.run
    rw [hm]
    simp only
    rw [if_pos h, SlCfg.run8I ⟨c.N, c.S, c.unb⟩ h c.fmt]
  rw [hrun] at hr
  have := run8_blocks (K := 300) (g := 1) c.fmt c.fmt.emit (b := 0) (by decide) (I := fun _ lut => lut.find [0] = 0)
    (by omega) (by omega) (by omega) (by omega) (by omega) c.emit_zero hr
    (by show c.init.find [0] = 0
        unfold ShCfg.init
        rw [h, if_neg hns]
        split
        · decide
        · split
          · decide
          · split <;> decide)
    (fun k _ lut hI => by
      obtain ⟨bytes, e1, e2⟩ := c.far_cost hc hns (cnt := R) (lut := lut) (sym := [0]) (by rw [h]; rfl)
        (by have := c.stored_le R; omega)
        (by rw [hI]
            unfold ShCfg.minR
            by_cases hN : c.N = 0
            · rw [if_pos hN] at hR
              rw [if_neg (by simp [hN, hns]), if_neg (by simp [hN])]; omega
            · rw [if_neg hN] at hR
              rw [if_pos (Or.inl hN), if_neg (by omega)]; omega)
      rw [hI] at e1 e2
      have e1' : c.emit lut [0] R 65540 = some (bytes, lut) := by simpa [Lut.use] using e1
      refine ⟨bytes, lut, e1', ?_, hI⟩
      by_cases hN : c.N = 0
      · rw [if_pos hN] at hR
        rw [if_pos hN.symm] at e2
        omega
      · rw [if_neg hN] at hR
        rw [if_neg (by omega)] at e2
        omega)
  omega

end Hrk
