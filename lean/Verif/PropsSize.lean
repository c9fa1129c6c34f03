import Verif.Grow
import Verif.PropsSymlut
import Verif.PropsShort

/-
C18 and C19: how large the streams of the symbol table codecs and of the short
codecs get.
-/

namespace Hrk

theorem ext_le (tiny x : Nat) :
    (extOf tiny x).length ≤ if x ≤ tiny then 0 else if x ≤ 0xFFFF then 2 else 4 := by
  unfold extOf tinyOf
  by_cases h1 : x ≤ tiny
  · simp [h1]
  · rw [if_neg h1, if_neg h1]
    by_cases h2 : x ≤ 0xFFFF
    · rw [if_pos h2, if_pos h2, if_pos h2]; split <;> simp
    · rw [if_neg h2, if_neg h2, if_neg h2]; split <;> simp

namespace SlCfg

/-- Bytes a run can cost more than it saves, for every `growL` literals in front of it. -/
def growE (c : SlCfg) : Nat := if c.S = 1 ∨ c.S = 3 then 1 else if c.S = 2 ∨ c.S = 4 then 2 else 0

def growL (c : SlCfg) : Nat := if c.S = 3 then c.tinyR - 1 else 65534

theorem emit_len (c : SlCfg) {lut lut' : Lut} {sym bytes : List Byte} {cnt lits : Nat} (hl : sym.length = c.S)
    (h : c.emit lut sym cnt lits = some (bytes, lut')) :
    lut' = lut.use (lut.find sym) sym ∧
    bytes.length ≤ 2 + (if lut.find sym = c.N then c.S else 0) + (extOf 127 (c.stored cnt)).length +
      (extOf c.tinyR (lits + 2)).length ∧
    (cnt ≥ c.long ∨ cnt ≥ 3 + (pen c.tinyR (lits + 2) + pen 127 (c.stored cnt) + if lut.find sym = c.N then 1 else 0)) := by
  unfold emit at h
  by_cases hc : cnt ≥ c.long ∨
      cnt ≥ 3 + (pen c.tinyR (lits + 2) + pen 127 (c.stored cnt) + if lut.find sym = c.N then 1 else 0)
  · rw [if_pos hc] at h
    simp only [Option.some.injEq, Prod.mk.injEq] at h
    obtain ⟨rfl, rfl⟩ := h
    refine ⟨rfl, ?_, hc⟩
    simp only [List.length_append, le16_length]
    split <;> simp [hl]
  · rw [if_neg hc] at h; cases h

theorem stored_le (c : SlCfg) (cnt : Nat) : c.stored cnt ≤ cnt + 2 := by
  unfold stored
  have : cnt / c.S ≤ cnt := Nat.div_le_self _ _
  split
  · omega
  · exact Nat.le_trans (Nat.sub_le _ _) (by omega)

theorem use_ok' {c : SlCfg} (hc : c.valid) {lut : Lut} {sym : List Byte} (hP : Lut.ok c.N c.S lut) (hl : sym.length = c.S) :
    Lut.ok c.N c.S (lut.use (lut.find sym) sym) := by
  rcases Lut.use_ok hP hl with h | h
  · exact h
  · have := hP.1
    rw [h] at this
    have := hc.1
    simp at this
    simp at *
    omega

theorem emit_grow (c : SlCfg) (hc : c.valid) :
    EmitGrow (twoEmit c.S c.emit) (Lut.ok c.N c.S) c.S c.unb c.growE c.growL := by
  intro lut sym cnt lits bytes lut' hP hl hu he
  unfold twoEmit at he
  split at he
  · next h2 =>
    obtain ⟨rfl, h3, h4⟩ := c.emit_len hl he
    refine ⟨use_ok' hc hP hl, Nat.le_trans h3 ?_⟩
    have e1 := ext_le 127 (c.stored cnt)
    have e2 := ext_le c.tinyR (lits + 2)
    have hS := c.valid_S hc
    have hs := c.stored_le cnt
    have hR := c.tinyR_eq
    obtain ⟨hN, hS', _⟩ := hc
    simp only [List.mem_cons, List.not_mem_nil, or_false] at hS' hN
    unfold long pen at h4
    unfold growE growL
    generalize c.stored cnt = sc at *
    generalize c.tinyR = R at *
    have hR' : R = 127 ∨ R = 63 := by split at hR <;> omega
    clear hR
    generalize (extOf 127 sc).length = x1 at *
    generalize (extOf R (lits + 2)).length = x2 at *
    generalize lut.find sym = idx at *
    generalize c.S = S at *
    by_cases hbig : 127 < sc
    · rw [if_neg (by omega)] at e1
      split at e1 <;> split at e2 <;> (try split at e2) <;> split <;> omega
    · rw [if_pos (by omega)] at e1
      clear h3 he hP hl hu hs
      rw [if_pos (show sc ≤ 0xFFFFF by omega), if_pos (show sc ≤ 127 by omega)] at h4
      rcases hR' with rfl | rfl <;> rcases hS' with rfl | rfl | rfl | rfl | rfl | rfl <;> simp at * <;>
      split at e2 <;> (try split at e2) <;> (repeat' split at h4) <;> (repeat' split) <;> omega
  · cases he

/-- 8 bit symbols: every run that is emitted has two symbols anyway. -/
theorem emit_grow1 (c : SlCfg) (hc : c.valid) (h1 : c.S = 1) :
    EmitGrow c.emit (Lut.ok c.N c.S) c.S c.unb c.growE c.growL := by
  intro lut sym cnt lits bytes lut' hP hl hu he
  refine c.emit_grow hc lut sym cnt lits bytes lut' hP hl hu ?_
  have := (c.emit_len hl he).2.2
  unfold twoEmit
  rw [if_pos (by unfold long at this; omega), he]

theorem body_size (c : SlCfg) (hc : c.valid) (cpu : Cpu) (inp : Mem) (n : Nat) :
    ∃ b, c.cdc.body cpu inp n = some b ∧ b.length ≤ n + 16 + c.growE * ((n + c.S) / c.growL) := by
  have hS := c.valid_S hc
  have hL : 0 < c.growL := by
    have := c.tinyR_eq
    unfold growL; split <;> (try split at this) <;> omega
  have e1 : c.cdc.F.endRun.length ≤ 8 := by show c.endRun.length ≤ 8; simp [endRun]
  have e2 : ∀ j, (c.cdc.F.endLit j).length ≤ 8 := by intro j; show (c.endLit j).length ≤ 8; simp [endLit]
  suffices h : ∃ b, c.cdc.body cpu inp n = some b ∧ b.length ≤ n + c.S + (0 + 8) + c.growE * ((n + c.S) / c.growL) by
    obtain ⟨b, h1, h2⟩ := h
    exact ⟨b, h1, by omega⟩
  by_cases h1 : c.S = 1
  · exact (c.cdc_ok hc).grow cpu 0 8 c.growE c.growL hL
      (by intro e he; change e ∈ [c.emit] at he; rw [List.mem_singleton] at he; subst he; exact c.emit_grow1 hc h1)
      (c.emit_grow1 hc h1) e1 e2 (fun _ _ => Nat.le_refl 0) inp n
  · exact Cdc.grow_two (c := c.cdc) (P := Lut.ok c.N c.S) (W := c.encW cpu) cpu hS.1 (by
        unfold encW; rw [if_neg h1]; show _ ∨ c.S < _; repeat' split
        all_goals omega)
      (by show (if c.S = 1 then _ else _) = _; rw [if_neg h1]; exact c.runI hc.2.1 h1 c.fmt cpu) rfl (c.init_ok hc) 0 8 c.growE c.growL hL
      (c.emit_grow hc) (c.emit_grow hc) e1 e2 (fun _ _ => Nat.le_refl 0) inp n

end SlCfg

/-- C18 for 48 and 64 bit symbols: the returned size is at most `rle_compress_bounds`. -/
theorem C18_symlut_bounds (c : SlCfg) (hc : c.valid) (h : c.S = 6 ∨ c.S = 8) (cpu : Cpu) :
    FitsBounds bounds (c.compress cpu) := by
  refine fitsBounds_of_size _ fun inp n _ _ => ?_
  obtain ⟨b, h1, h2⟩ := c.body_size hc cpu inp n
  refine ⟨b, h1, ?_⟩
  have : c.growE = 0 := by unfold SlCfg.growE; rw [if_neg (by omega), if_neg (by omega)]
  rw [this] at h2
  omega

example : (SlCfg.valid ⟨3, 6, true⟩ ∧ SlCfg.valid ⟨7, 8, false⟩) := by decide

/-- C18, what holds of all of them: the expansion is at most 26 bytes plus `c.growE` (1 for 8
and 24 bit, 2 for 16 and 32 bit, 0 for 48 and 64 bit symbols) for every `c.growL` bytes of
input (126 or 62 for 24 bit symbols, 65534 for the others). Missing: this exceeds
`rle_compress_bounds` for long inputs (`C18_symlut_violated`). -/
theorem C18_symlut_growth_partial (c : SlCfg) (hc : c.valid) (cpu : Cpu) :
    GrowsAtMost 26 c.growE c.growL (c.compress cpu) := by
  have hS := c.valid_S hc
  have hL : 8 ≤ c.growL := by
    have := c.tinyR_eq
    unfold SlCfg.growL; split <;> (try split at this) <;> omega
  refine Cdc.growsAtMost (c := c.cdc) (a := 16) (by show c.S ≤ c.growL; omega) (by omega) (c.body_size hc cpu) ?_
  unfold SlCfg.growE; split <;> (try split) <;> omega

/-- C18 for inputs of at most 10000 (24 bit symbols) or 5000000 bytes. -/
theorem C18_symlut_small_partial (c : SlCfg) (hc : c.valid) (cpu : Cpu) :
    FitsUpTo (if c.S = 3 then 10000 else 5000000) bounds (c.compress cpu) := by
  refine Cdc.fitsUpTo (c := c.cdc) (a := 16) (e := c.growE) (L := c.growL) (c.body_size hc cpu) ?_
  show 16 + c.growE * ((_ + c.S) / c.growL) ≤ 185
  have := c.tinyR_eq
  obtain ⟨hN, hS, _⟩ := hc
  simp only [List.mem_cons, List.not_mem_nil, or_false] at hS hN
  rcases hN with h | h <;> rw [h] at this <;> simp at this <;>
    rcases hS with h | h | h | h | h | h <;> simp [SlCfg.growE, SlCfg.growL, this, h]

namespace ShCfg

theorem stored_le (c : ShCfg) (cnt : Nat) : c.stored cnt ≤ cnt + 2 := by
  unfold stored
  have : cnt / c.S ≤ cnt := Nat.div_le_self _ _
  split
  · omega
  · exact Nat.le_trans (Nat.sub_le _ _) (by omega)

theorem emit_len (c : ShCfg) {lut lut' : Lut} {sym bytes : List Byte} {cnt lits : Nat} (hl : sym.length = c.S)
    (h : c.emit lut sym cnt lits = some (bytes, lut')) :
    bytes.length ≤ (if c.news (lut.find sym) then c.S else 0) + (if c.packs (c.stored cnt) lits then 1 else
      3 + (extOf 511 (c.stored cnt)).length + (extOf c.tinyR (lits + 2)).length) ∧
    (cnt ≥ c.long ∨ cnt ≥ c.minR + c.penalty (lut.find sym) (c.stored cnt) lits) := by
  unfold emit at h
  split at h
  · cases h
  · split at h
    · next hc =>
      simp only [Option.some.injEq, Prod.mk.injEq] at h
      obtain ⟨rfl, rfl⟩ := h
      refine ⟨?_, hc⟩
      simp only [List.length_append, pack]
      rw [Nat.add_comm]
      refine Nat.add_le_add ?_ ?_
      · split <;> simp [hl]
      · split <;> simp; omega
    · cases h

/-- Bytes a run can cost more than it saves if 65534 literals are in front of it. -/
def growE (c : ShCfg) : Nat := if c.mode = .normal ∧ (c.S = 8 ∨ c.S = 4 ∧ c.unb = false) then 0 else 1

/-- Size of a record against the emission test. -/
theorem rec_len (c : ShCfg) (hc : c.valid) {idx cnt lits : Nat}
    (h : cnt ≥ c.long ∨ cnt ≥ c.minR + c.penalty idx (c.stored cnt) lits) :
    (if c.news idx then c.S else 0) + (if c.packs (c.stored cnt) lits then 1 else
      3 + (extOf 511 (c.stored cnt)).length + (extOf c.tinyR (lits + 2)).length) ≤ cnt ∨
    (65534 ≤ lits ∧ 6 + (if c.news idx then c.S else 0) ≤ cnt ∧
      (if c.news idx then c.S else 0) + (if c.packs (c.stored cnt) lits then 1 else
      3 + (extOf 511 (c.stored cnt)).length + (extOf c.tinyR (lits + 2)).length) ≤ 7 + if c.news idx then c.S else 0) := by
  have e1 := ext_le 511 (c.stored cnt)
  have e2 := ext_le c.tinyR (lits + 2)
  have hS := c.valid_S hc
  have hs := c.stored_le cnt
  have hR := (c.inval_pos hc).2
  have hR2 : c.tinyR ≤ 65535 := by
    have := hc.1
    simp only [List.mem_cons, List.not_mem_nil, or_false] at this
    unfold tinyR
    rcases this with h | h | h | h <;> simp [CB, RX, RP, h]
  have hn : c.mode = .single → c.N = 0 := fun h => (hc.2.2.2.1 h).1
  have hw : (if c.news idx then c.S else 0) = if c.mode ≠ .single ∧ idx = c.N then c.S else 0 := by
    unfold news; congr 1; simp
  rw [hw]
  unfold long penalty minR SlCfg.pen at *
  generalize c.stored cnt = sc at *
  generalize c.packs sc lits = p at *
  generalize c.tinyR = R at *
  generalize (extOf 511 sc).length = x1 at *
  generalize (extOf R (lits + 2)).length = x2 at *
  generalize c.S = S at *
  generalize c.N = N at *
  clear hw hc
  have hx1 : x1 ≤ 4 := by revert e1; split <;> (try split) <;> omega
  have hx2 : x2 ≤ 4 := by revert e2; split <;> (try split) <;> omega
  by_cases hb : 511 < sc
  · left
    split <;> split <;> omega
  · rw [if_pos (by omega)] at e1
    rw [if_pos (show sc ≤ 0xFFFFF by omega), if_pos (show sc ≤ 511 by omega)] at h
    cases p
    · by_cases hm : c.mode = .single
      · have := hn hm
        subst this
        simp [hm] at h ⊢
        split at e2 <;> (try split at e2) <;> (repeat' split at h) <;> omega
      · by_cases hN : N = 0 <;> by_cases hi : idx = N <;> simp [hm, hN, hi] at h ⊢ <;>
        split at e2 <;> (try split at e2) <;> (repeat' split at h) <;> (try split) <;> omega
    · left
      by_cases hm : c.mode = .single
      · have := hn hm
        subst this
        simp [hm] at h ⊢
        omega
      · by_cases hN : N = 0 <;> by_cases hi : idx = N <;> simp [hm, hN, hi] at h ⊢ <;> (try split) <;> omega

theorem emit_grow (c : ShCfg) (hc : c.valid) : EmitGrowIf c.emit (Lut.ok c.tab c.S) c.S c.unb 1 65534 := by
  intro lut sym cnt lits bytes lut' hP hl hu he
  obtain ⟨h3, h4⟩ := c.emit_len hl he
  refine ⟨c.emit_lut _ _ _ _ _ _ hP hl he, Nat.le_trans h3 ?_⟩
  rcases c.rec_len hc h4 with h | ⟨h1, h2, h3⟩
  · omega
  · rw [if_pos h1]; omega

/-- 64 bit symbols, and 32 bit symbols counted as a whole. -/
theorem emit_two (c : ShCfg) (hc : c.valid) (h : c.growE = 0) :
    EmitGrow (twoEmit c.S c.emit) (Lut.ok c.tab c.S) c.S c.unb 0 65534 := by
  intro lut sym cnt lits bytes lut' hP hl hu he
  have h8 : c.S = 8 ∨ c.S = 4 ∧ c.unb = false := by
    unfold growE at h
    split at h
    · next h8 => exact h8.2
    · omega
  unfold twoEmit at he
  split at he
  · next h2 =>
    obtain ⟨h3, h4⟩ := c.emit_len hl he
    refine ⟨c.emit_lut _ _ _ _ _ _ hP hl he, Nat.le_trans h3 ?_⟩
    rcases c.rec_len hc h4 with h | ⟨h1, h5, h6⟩
    · omega
    · have hw : (if c.news (lut.find sym) then c.S else 0) ≤ c.S := by split <;> omega
      have hw' : (if c.news (lut.find sym) then c.S else 0) = 0 ∨ (if c.news (lut.find sym) then c.S else 0) = c.S := by
        split <;> simp
      generalize (if c.news (lut.find sym) then c.S else 0) = w at *
      rcases h8 with h8 | ⟨h8, hub⟩
      · omega
      · rcases hu with hu | hu
        · rw [hub] at hu; cases hu
        · rw [h8] at hu
          omega
  · cases he

theorem ends_len (c : ShCfg) (hc : c.valid) : c.endRun.length ≤ 17 ∧ ∀ j, (c.endLit j).length ≤ 17 := by
  have hS := c.valid_S hc
  refine ⟨?_, fun j => ?_⟩
  · unfold endRun; split <;> simp
  · unfold endLit; split <;> simp; omega

theorem body_size (c : ShCfg) (hc : c.valid) (cpu : Cpu) (inp : Mem) (n : Nat) :
    ∃ b, c.cdc.body cpu inp n = some b ∧ b.length ≤ n + 26 + c.growE * ((n + c.S) / 65534) := by
  have hS := c.valid_S hc
  obtain ⟨e1, e2⟩ := c.ends_len hc
  have e3 : ∀ lut, Lut.ok c.tab c.S lut → (c.cdc.pre lut).length ≤ 1 := by
    intro lut hl
    show (c.pre lut).length ≤ 1
    unfold pre
    split
    · next hm =>
      have h1 := (hc.2.2.2.1 hm).2
      have h2 := hl.1
      unfold tab at h2
      rw [if_pos hm] at h2
      obtain ⟨x, rfl⟩ := List.length_eq_one_iff.mp h2
      have := hl.2 x (by simp)
      simp; omega
    · simp
  suffices h : ∃ b, c.cdc.body cpu inp n = some b ∧ b.length ≤ n + c.S + (1 + 17) + c.growE * ((n + c.S) / 65534) by
    obtain ⟨b, h1, h2⟩ := h
    exact ⟨b, h1, by omega⟩
  by_cases h0 : c.growE = 0
  · rw [h0]
    have hm : c.mode = .normal ∧ c.S ≠ 1 := by
      unfold growE at h0
      split at h0
      · next h8 => exact ⟨h8.1, by omega⟩
      · omega
    have hns : c.mode ≠ .single := by rw [hm.1]; decide
    exact Cdc.grow_two (c := c.cdc) (P := Lut.ok c.tab c.S) (W := SlCfg.encW ⟨c.N, c.S, c.unb⟩ cpu) cpu hS.1
      (by
        unfold SlCfg.encW; rw [if_neg hm.2]; show _ ∨ c.S < _; repeat' split
        all_goals omega)
      (by show c.run cpu = _; unfold run; rw [hm.1]; simp only [if_neg hm.2]; exact SlCfg.runI ⟨c.N, c.S, c.unb⟩ hc.2.1 hm.2 c.fmt cpu) (c.first_normal hns) (c.init_ok hc)
      1 17 0 65534 (by omega) (c.emit_two hc h0) (c.emit_two hc h0) e1 e2 e3 inp n
  · have h1 : c.growE = 1 := by unfold growE at *; split at h0 <;> simp_all
    rw [h1]
    exact (c.cdc_ok hc).grow cpu 1 17 1 65534 (by omega)
      (by intro e he; change e ∈ [c.emit] at he; rw [List.mem_singleton] at he; subst he
          exact (c.emit_grow hc).grow (by omega))
      ((c.emit_grow hc).grow (by omega)) e1 e2 e3 inp n

end ShCfg

/-- C19 for 64 bit symbols, and for 32 bit symbols counted as a whole, with the ordinary
encoder: the returned size is at most `rle_compress_bounds`. -/
theorem C19_short_bounds (c : ShCfg) (hc : c.valid) (hm : c.mode = .normal) (h : c.S = 8 ∨ c.S = 4 ∧ c.unb = false)
    (cpu : Cpu) : FitsBounds bounds (c.compress cpu) := by
  refine fitsBounds_of_size _ fun inp n _ _ => ?_
  obtain ⟨b, h1, h2⟩ := c.body_size hc cpu inp n
  refine ⟨b, h1, ?_⟩
  have : c.growE = 0 := by unfold ShCfg.growE; rw [if_pos ⟨hm, h⟩]
  rw [this] at h2
  omega

example : ShCfg.valid ⟨3, 8, true, .normal⟩ ∧ ShCfg.valid ⟨0, 4, false, .normal⟩ := by decide

/-- C19, what holds of all of them: the expansion is at most 36 bytes plus one for every
65534 bytes of input. Missing: this exceeds `rle_compress_bounds` for long inputs
(`C19_short_violated`, `C19_greedy_violated`). -/
theorem C19_short_growth_partial (c : ShCfg) (hc : c.valid) (cpu : Cpu) :
    GrowsAtMost 36 c.growE 65534 (c.compress cpu) := by
  have hS := c.valid_S hc
  refine Cdc.growsAtMost (c := c.cdc) (a := 26) (by show c.S ≤ 65534; omega) (by omega) (c.body_size hc cpu) ?_
  unfold ShCfg.growE; split <;> omega

/-- C19 for inputs of at most 10000000 bytes. -/
theorem C19_short_small_partial (c : ShCfg) (hc : c.valid) (cpu : Cpu) :
    FitsUpTo 10000000 bounds (c.compress cpu) := by
  have hS := c.valid_S hc
  refine Cdc.fitsUpTo (c := c.cdc) (a := 26) (e := c.growE) (L := 65534) (c.body_size hc cpu) ?_
  show 26 + c.growE * ((10000000 + c.S) / 65534) ≤ 185
  unfold ShCfg.growE; split <;> omega

end Hrk
