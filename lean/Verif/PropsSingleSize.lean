import Verif.PropsBlocks
namespace Hrk

/-- The heuristic takes 0 when no other byte value is ever repeated. -/
theorem pickMax_zero {prob pcount : Byte → Nat} (h : ∀ c, c ≠ 0 → prob c ≤ 2 * pcount c) : pickMax prob pcount = 0 := by
  unfold pickMax
  have key : ∀ (l : List Nat) (a : Nat × Nat), a.2 = 0 → (∀ i ∈ l, i < 256) →
      (l.foldl (fun (a : Nat × Nat) i =>
        if pcount (b8 i) > 0 ∧ prob (b8 i) / pcount (b8 i) > 2 then
          if prob (b8 i) - pcount (b8 i) * 2 % 4294967296 > a.1 then (prob (b8 i) - pcount (b8 i) * 2 % 4294967296, i) else a
        else a) a).2 = 0 := by
    intro l
    induction l with
    | nil => intro a h _; exact h
    | cons i l ih =>
      intro a ha hl
      rw [List.foldl_cons]
      refine ih _ ?_ fun j hj => hl j (List.mem_cons_of_mem _ hj)
      by_cases hi : i = 0
      · subst hi
        repeat' split
        all_goals first | rfl | exact ha
      · have hc : b8 i ≠ 0 := by
          intro hc
          have := congrArg UInt8.toNat hc
          rw [b8_toNat] at this
          have := hl i (by simp)
          simp at *
          omega
        have h1 := h _ hc
        rw [if_neg]
        · exact ha
        · intro h2
          have := (Nat.lt_div_iff_mul_lt h2.1).mp h2.2
          rw [Nat.mul_comm] at this
          omega
  exact key _ _ rfl fun i hi => List.mem_range.mp hi

theorem pick_zero {inp : Mem} {n : Nat} (hn : n ≤ maxInput) (h : ∀ j, j < n → inp j ≠ 0 → inp (j + 1) ≠ inp j) : pick inp n = 0 := by
  unfold maxInput at hn
  have hO := pickO_some inp n
  unfold pickO at hO
  cases hl : loop (pickStep inp n) (2 * n + 3) (pickInit inp) with
  | none => rw [hl] at hO; cases hO
  | some s =>
    rw [hl] at hO
    simp only [Option.map_some, Option.some.injEq] at hO
    rw [← hO]
    have key := loop_rule_partial (body := pickStep inp n)
      (fun s => s.i ≤ n ∧ (s.search = true → s.i < n) ∧
        (∀ c, c ≠ 0 → s.prob c ≤ 2 * s.pcount c ∧ s.pcount c + (if s.search then 0 else 1) ≤ s.i + 1) ∧
        (s.search = false → s.last ≠ 0 → s.count ≤ 1 ∧ inp s.i ≠ s.last))
      (fun s => s.i ≤ n ∧ 
        (∀ c, c ≠ 0 → s.prob c ≤ 2 * s.pcount c ∧ s.pcount c + (if s.search then 0 else 1) ≤ s.i + 1) ∧
        (s.last ≠ 0 → s.count ≤ 1)) ?_ _ _ s ?_ hl
    · obtain ⟨h1, h2, h3⟩ := key
      rw [pickMax_zero]
      · rfl
      · intro c hc
        obtain ⟨h4, h5⟩ := h2 c hc
        simp only [PickS.tally, setB]
        by_cases hcl : c = s.last
        · rw [if_pos hcl, if_pos hcl]
          subst hcl
          have := h3 hc
          rw [Nat.mod_eq_of_lt (by split at h5 <;> omega), Nat.mod_eq_of_lt (by split at h5 <;> omega)]
          omega
        · rw [if_neg hcl, if_neg hcl]
          exact h4
    · rintro ⟨search, i, count, last, prob, pcount⟩ ⟨h1, h2, h3, h4⟩
      simp only at h1 h2 h3 h4
      unfold pickStep
      cases search with
      | true =>
        have hi := h2 rfl
        simp only [if_true] at h3 ⊢
        by_cases hw : i + 16 < n
        · rw [if_pos hw]
          cases hf : findPair inp 1 i 15 0 with
          | none =>
            refine ⟨by simp only; omega, fun _ => by simp only; omega, fun c hc => ⟨(h3 c hc).1, ?_⟩, fun h => by cases h⟩
            have := (h3 c hc).2
            simp only [if_true]; omega
          | some z =>
            obtain ⟨_, hz, _⟩ := findPair_spec _ _ _ _ _ _ hf
            refine ⟨by simp only; omega, fun h => (by cases h), fun c hc => ⟨(h3 c hc).1, ?_⟩, fun _ hl => ⟨Nat.le_refl _, ?_⟩⟩
            · have := (h3 c hc).2
              simp only [Bool.false_eq_true, if_false]; omega
            · exact h (i + z) (by omega) hl
        · rw [if_neg hw]
          refine ⟨by simp only; omega, fun h => (by cases h), fun c hc => ⟨(h3 c hc).1, ?_⟩, fun _ hl => ⟨Nat.le_refl _, ?_⟩⟩
          · have := (h3 c hc).2
            simp only [Bool.false_eq_true, if_false]; omega
          · exact h i (by omega) hl
      | false =>
        have h5 := h4 rfl
        simp only [Bool.false_eq_true, if_false] at h3 ⊢
        by_cases hw : i + 16 < n
        · rw [if_pos hw]
          have hm := matchLen_le inp [last] i 16 0
          have hm0 : last ≠ 0 → matchLen inp [last] i 16 0 = 0 := by
            intro hl
            exact matchLen_zero 16 (by simpa using (h5 hl).2)
          by_cases h16 : matchLen inp [last] i 16 0 = 16
          · rw [if_pos h16]
            refine ⟨by simp only; omega, fun h => (by cases h), fun c hc => ⟨(h3 c hc).1, ?_⟩, fun _ hl => ?_⟩
            · have := (h3 c hc).2
              simp only [Bool.false_eq_true, if_false]; omega
            · have := hm0 hl
              omega
          · rw [if_neg h16]
            by_cases hc : anyEq inp [last] i 16 = true ∨ count > 1
            · rw [if_pos hc]
              refine ⟨by simp only [PickS.tally]; omega, fun _ => by simp only [PickS.tally]; omega, fun c hc0 => ?_, fun h => by cases h⟩
              obtain ⟨h6, h7⟩ := h3 c hc0
              simp only [PickS.tally, setB, if_true]
              by_cases hcl : c = last
              · rw [if_pos hcl, if_pos hcl]
                subst hcl
                have h8 := (h5 hc0).1
                rw [hm0 hc0]
                rw [Nat.mod_eq_of_lt (a := count + 0) (by omega), Nat.mod_eq_of_lt (by omega), Nat.mod_eq_of_lt (by omega)]
                omega
              · rw [if_neg hcl, if_neg hcl]
                omega
            · rw [if_neg hc]
              refine ⟨h1, fun _ => by simp only; omega, fun c hc => ⟨(h3 c hc).1, ?_⟩, fun h => by cases h⟩
              have := (h3 c hc).2
              simp only [if_true]; omega
        · rw [if_neg hw]
          exact ⟨h1, fun c hc => by simpa using h3 c hc, fun hl => (h5 hl).1⟩
    · refine ⟨by simp [pickInit], by simp [pickInit], fun c hc => by simp [pickInit, hc], fun _ _ => ⟨by simp [pickInit], ?_⟩⟩
      simp only [pickInit]
      exact not_ne _

/-! ### The single symbol scanner -/

theorem cntEq_two {inp : Mem} {sym : List Byte} {i W z : Nat} (h1 : inp (i + z) = sym.getD 0 0) (h2 : inp (i + (z + 1)) = sym.getD 0 0)
    (hz : z + 2 ≤ W) : 2 ≤ cntEq inp sym i W := by
  have key : ∀ k, 2 ≤ cntEq inp sym i (z + 2 + k) := by
    intro k
    induction k with
    | zero =>
      unfold cntEq
      rw [Nat.add_zero, List.range_succ, List.countP_append, List.range_succ, List.countP_append]
      simp only [List.countP_singleton, h1, h2, beq_self_eq_true, if_true]
      omega
    | succ k ih =>
      unfold cntEq at ih ⊢
      rw [← Nat.add_assoc, List.range_succ, List.countP_append]
      omega
  have := key (W - (z + 2))
  rwa [show z + 2 + (W - (z + 2)) = W by omega] at this

theorem findByte_none {inp : Mem} {sym : List Byte} {i : Nat} : ∀ k off, (∀ j, j < k → inp (i + (off + j)) ≠ sym.getD 0 0) →
    findByte inp sym i k off = none := by
  intro k
  induction k with
  | zero => intro off _; rfl
  | succ k ih =>
    intro off h
    unfold findByte
    rw [if_neg (by simpa using h 0 (by omega))]
    refine ih (off + 1) fun j hj => ?_
    have := h (j + 1) (by omega)
    rwa [show off + (j + 1) = off + 1 + j by omega] at this

theorem findByte_at {inp : Mem} {sym : List Byte} {i : Nat} : ∀ k off m, m < k → (∀ j, j < m → inp (i + (off + j)) ≠ sym.getD 0 0) →
    inp (i + (off + m)) = sym.getD 0 0 → findByte inp sym i k off = some (off + m) := by
  intro k
  induction k with
  | zero => intro off m h; omega
  | succ k ih =>
    intro off m hm h ht
    unfold findByte
    cases m with
    | zero => rw [if_pos (by simpa using ht)]; rfl
    | succ m =>
      rw [if_neg (by simpa using h 0 (by omega)), ih (off + 1) m (by omega)]
      · congr 1; omega
      · intro j hj
        have := h (j + 1) (by omega)
        rwa [show off + (j + 1) = off + 1 + j by omega] at this
      · rwa [show off + (m + 1) = off + 1 + m by omega] at ht

section scanS

variable {σ : Type} {emit : Emit σ} {inp : Mem} {n : Nat}

/-- Steps of a loop that contains `stepS8` (except for the end of a run). -/
def HasS8 {τ ρ : Type} (emit : Emit σ) (inp : Mem) (n : Nat) (lift : ES σ → τ) (body : τ → τ ⊕ ρ) : Prop :=
  ∀ s s', s.pc ≠ .second → stepS8 emit 2 inp n s = .inl s' → body (lift s) = .inl (lift s')

theorem stepS8_find {τ ρ : Type} {lift : ES σ → τ} {body : τ → τ ⊕ ρ} (hb : HasS8 emit inp n lift body)
    {b : Byte} {p R : Nat} (hn : p + R + 16 < n) (hr : ExactRun inp [b] p R) (hR : 2 ≤ R) (hR' : R < 16) :
    ∀ d a, a + d = p → (∀ j, a ≤ j → j < p → inp j ≠ b) → ∀ cnt last fs out,
      Steps body (lift ⟨.search, a, cnt, last, [b], fs, out⟩) (lift ⟨.second, p + R, R, last, [b], fs, out⟩) := by
  have hz : ∀ j, j < R → inp (p + j) = b := by
    intro j hj
    have := hr.run j hj
    simpa [Nat.mod_one] using this
  intro d
  induction d using Nat.strongRecOn with
  | ind d ih =>
    intro a had hp cnt last fs out
    by_cases hd : d < 16
    · refine .head (hb _ ⟨.top, p + 1, 1, last, [b], fs, out⟩ (by simp) ?_) ?_
      · simp only [stepS8]
        rw [if_pos (by omega), findByte_at 16 0 d hd (fun j hj => hp _ (by omega) (by omega))
          (by rw [show a + (0 + d) = p + 0 by omega]; exact hz 0 (by omega))]
        simp only
        rw [if_neg]
        · rw [show a + (0 + d) + 1 = p + 1 by omega]
        · rintro ⟨h1, h2⟩
          have : d + R ≤ 15 := by
            apply Nat.le_of_not_lt
            intro h
            apply h1
            have := hz (15 - d) (by omega)
            rwa [show p + (15 - d) = a + 15 by omega] at this
          have h3 := hz 0 (by omega)
          have h4 := hz 1 (by omega)
          rw [show p + 0 = a + d by omega] at h3
          rw [show p + 1 = a + (d + 1) by omega] at h4
          have := cntEq_two (inp := inp) (sym := [b]) (i := a) (z := d) (W := 16) h3 h4 (by omega)
          omega
      · refine .head (hb _ ⟨.ext, p + 1, 1, last, [b], fs, out⟩ (by simp) (by simp only [stepS8]; rw [if_pos (by omega)])) ?_
        have hr1 := hr.shift (d := 1) (Nat.dvd_refl _) (by omega)
        have hm : matchLen inp [b] (p + 1) 16 0 = R - 1 := matchLen_stopAt 16 0 (R - 1)
          (fun j hj => by rw [Nat.zero_add]; exact hr1.run j hj) (by rw [Nat.zero_add]; exact hr1.stop) (by omega)
        have ha : anyEq inp [b] (p + 1) 16 = true := by
          unfold anyEq
          rw [List.any_eq_true]
          refine ⟨0, List.mem_range.mpr (by omega), ?_⟩
          have := hz 1 (by omega)
          simpa using this
        refine .one (hb _ _ (by simp) ?_)
        simp only [stepS8]
        rw [hm, if_neg (by omega), if_pos (Or.inl ha)]
        congr 2 <;> omega
    · refine .head (hb _ ⟨.search, a + 16, cnt, last, [b], fs, out⟩ (by simp) ?_) (ih (d - 16) (by omega) _ (by omega)
        (fun j h1 h2 => hp j (by omega) h2) cnt last fs out)
      simp only [stepS8]
      rw [if_pos (by omega), findByte_none _ _ fun j hj => hp _ (by omega) (by omega)]

/-- The first 16 bytes are not the symbol. -/
theorem stepS8_start {τ ρ : Type} {lift : ES σ → τ} {body : τ → τ ⊕ ρ} (hb : HasS8 emit inp n lift body)
    {b : Byte} (hn : 16 < n) (h0 : ∀ j, j < 16 → inp j ≠ b) (fs : σ) (out : List Byte) :
    Steps body (lift ⟨.top, 0, 0, 0, [b], fs, out⟩) (lift ⟨.search, 0, 0, 0, [b], fs, out⟩) := by
  refine .head (hb _ ⟨.ext, 0, 0, 0, [b], fs, out⟩ (by simp) (by simp only [stepS8]; rw [if_pos (by omega)]))
    (.one (hb _ _ (by simp) ?_))
  have hm0 : matchLen inp [b] 0 16 0 = 0 := matchLen_zero 16 (h0 0 (by omega))
  have ha : anyEq inp [b] 0 16 = false := by
    unfold anyEq
    rw [List.any_eq_false]
    intro j hj
    have := h0 j (List.mem_range.mp hj)
    simpa using this
  simp only [stepS8]
  rw [hm0, if_neg (by omega), ha, if_neg (by simp)]

theorem stepS8_mono {minR : Nat} (s : ES σ) : Post (stepS8 emit minR inp n s) (fun s' => s.out.length ≤ s'.out.length)
    (fun s' => s.out.length ≤ s'.out.length) := by
  obtain ⟨pc, i, count, last, sym, fs, out⟩ := s
  cases pc <;> simp only [stepS8]
  · split <;> exact Nat.le_refl _
  · repeat' split
    all_goals exact Nat.le_refl _
  · split
    · split
      · exact Nat.le_refl _
      · exact doEmit_mono emit inp ⟨.scal, i, count, last, sym, fs, out⟩
    · exact Nat.le_refl _
  · exact doEmit_mono emit inp ⟨.second, i, count, last, sym, fs, out⟩
  · repeat' split
    all_goals exact Nat.le_refl _
  · exact Nat.le_refl _

end scanS

/-- C19 is false for `rle8_single_short_compress`. -/
theorem C19_single_short_violated (c : ShCfg) (hc : c.valid) (hm : c.mode = .single) (cpu : Cpu) : ∃ inp n, 0 < n ∧ n ≤ 20000000 ∧
    c.compress cpu (some inp) n true (bounds n) = .ub := by
  obtain ⟨_, _, _, hg, _⟩ := id hc
  obtain ⟨hN, hS⟩ := hg hm
  have hlow : LowSym 1 (fun _ => [(0 : Byte)]) := fun _ => ⟨rfl, by simp⟩
  refine ⟨blk 65540 6 (fun _ => [0]), 300 * (65540 + 6) + 81, by omega, by omega, ?_⟩
  generalize hn : 300 * (65540 + 6) + 81 = n
  have hbound : n ≤ maxInput := by unfold maxInput; omega
  refine Cdc.ub_of_out _ (by omega) hbound ((c.cdc_ok hc).total cpu _ n) fun s hr => ?_
  have hz : ∀ k q, q < 65540 → blk 65540 6 (fun _ => [0]) (k * (65540 + 6) + q) ≠ 0 := by
    intro k q hq he
    rw [blk_lit k hq] at he
    have := congrArg UInt8.toNat he
    rw [lit_toNat] at this
    simp at this
  have hpick : pick (blk 65540 6 fun _ => [0]) n = 0 := by
    refine pick_zero hbound fun j _ hj he => ?_
    obtain ⟨k, q, hq, rfl⟩ : ∃ k q, q < 65540 + 6 ∧ j = k * (65540 + 6) + q :=
      ⟨j / (65540 + 6), j % (65540 + 6), Nat.mod_lt _ (by omega), by rw [Nat.mul_comm]; exact (Nat.div_add_mod _ _).symm⟩
    by_cases hq2 : q < 65540
    · exact blk_ne hlow (by omega) (by omega) (by omega) k hq2 he.symm
    · apply hj
      obtain ⟨r, rfl⟩ : ∃ r, q = 65540 + r := ⟨q - 65540, by omega⟩
      rw [← Nat.add_assoc, blk_run k (by omega)]
      simp [Nat.mod_one]
  have hrun : c.cdc.run cpu = runS8 c.fmt c.first c.minR pick := by
    show c.run cpu = _
    unfold ShCfg.run
    rw [hm, ← runS8I_eq]
  have hmin : c.minR = 2 := by unfold ShCfg.minR; rw [if_pos (Or.inr hm)]
  have hfirst : c.first (blk 65540 6 fun _ => [0]) n = [[0]] := by unfold ShCfg.first; rw [if_pos hm, hpick]
  rw [hrun] at hr
  unfold runS8 at hr
  rw [hpick, hmin, hfirst] at hr
  have hbr : BlockRun (stepS8 c.emit 2 (blk 65540 6 fun _ => [0]) n) .search c.emit (blk 65540 6 fun _ => [0]) 65540 6 1 300
      (fun _ => [0]) [0] (fun _ fs => fs = [[0]]) := by
    refine ⟨?_, ?_, ?_⟩
    · rintro k hk cnt sy fs out hsy rfl
      have hk' : (k + 1) * (65540 + 6) ≤ 300 * (65540 + 6) := Nat.mul_le_mul_right _ (by omega)
      have hsy' : sy = [0] := by
        rcases hsy with h | ⟨_, h⟩ <;> exact h
      subst hsy'
      refine stepS8_find (lift := fun s => s) (fun _ _ _ h => h) (by omega) (blk_exact (R := 6) hlow (show 0 < 65540 by omega) k) (by omega) (by omega) 65540
        (k * (65540 + 6)) rfl (fun j h1 h2 => ?_) cnt _ _ out
      obtain ⟨q, rfl⟩ := Nat.exists_eq_add_of_le h1
      exact hz k q (Nat.lt_of_add_lt_add_left h2)
    · rintro k _ fs rfl
      obtain ⟨e1, e2, e3⟩ := c.far_ext hc
      have hst : c.stored 6 = 6 := by
        unfold ShCfg.stored
        rw [hmin, hS]
        split <;> omega
      have hp : c.packs 6 65540 = false := by
        have := c.maxPR_le hc
        unfold ShCfg.packs
        rw [show decide (65540 ≤ c.maxPR) = false by simp; omega]
        rfl
      have hf : Lut.find [[0]] [0] = 0 := by decide
      refine ⟨c.pack 0 6 65540, [[0]], ?_, ?_, rfl⟩
      · unfold ShCfg.emit
        rw [if_neg (by simp), hf, hst]
        have hpen : c.penalty 0 6 65540 = 4 := by
          unfold ShCfg.penalty
          rw [hp, e2]
          have hw : ¬ (6 ≤ 511 ∧ 65540 + 2 ≤ c.tinyR) := by omega
          have : SlCfg.pen 511 6 = 0 := by decide
          simp only [Bool.false_eq_true, if_false, if_neg hw, this, hN, ne_eq, not_true_eq_false, false_and]
        rw [if_pos (Or.inr (by rw [hpen, hmin] <;> omega))]
        simp [ShCfg.news, hm, Lut.use]
      · unfold ShCfg.pack
        rw [hp]
        simp only [Bool.false_eq_true, if_false, List.length_append, e1]
        rfl
    · intro s hs
      obtain ⟨pc, i, count, last, sym, fs, out⟩ := s
      cases hs
      exact ⟨_, rfl⟩
  have := hbr.out (fs0 := [[0]]) rfl (cnt0 := 0) ?_ stepS8_mono hr
  · omega
  · have h0 : ∀ j, j < 16 → blk 65540 6 (fun _ => [0]) j ≠ 0 := by
      intro j hj
      have := hz 0 j (by omega)
      rwa [Nat.zero_mul, Nat.zero_add] at this
    exact stepS8_start (lift := fun s => s) (fun _ _ _ h => h) (by omega) h0 _ _

/-! ### C17: rle8_packed_single -/

/-- One block: 255 bytes without repetition, then three times two zeros, with one byte between them. -/
def wPat (q : Nat) : Byte :=
  if q = 255 ∨ q = 256 ∨ q = 258 ∨ q = 259 ∨ q = 261 ∨ q = 262 then 0 else b8 (128 + q % 127)

/-- The block again and again. -/
def wMem : Mem := fun x => wPat (x % 263)

theorem wMem_at (k q : Nat) (h : q < 263) : wMem (k * 263 + q) = wPat q := by
  unfold wMem
  rw [Nat.add_comm, Nat.add_mul_mod_self_right, Nat.mod_eq_of_lt h]

theorem wPat_next : ∀ q < 263, wPat q ≠ 0 → wPat ((q + 1) % 263) ≠ wPat q := by decide +kernel

theorem wMem_next (j : Nat) (h : wMem j ≠ 0) : wMem (j + 1) ≠ wMem j := by
  have := wPat_next (j % 263) (Nat.mod_lt _ (by omega)) h
  unfold wMem
  rwa [Nat.mod_add_mod] at this

theorem wMem_run {k q : Nat} (hq : q = 255 ∨ q = 258 ∨ q = 261) : ExactRun wMem [0] (k * 263 + q) 2 := by
  refine ⟨fun j hj => ?_, ?_⟩
  · rw [Nat.add_assoc, wMem_at k (q + j) (by omega)]
    have : j = 0 ∨ j = 1 := by omega
    rcases hq with rfl | rfl | rfl <;> rcases this with rfl | rfl <;> rfl
  · rcases hq with rfl | rfl | rfl
    · rw [Nat.add_assoc, wMem_at k (255 + 2) (by omega)]; decide
    · rw [Nat.add_assoc, wMem_at k (258 + 2) (by omega)]; decide
    · rw [show k * 263 + 261 + 2 = (k + 1) * 263 + 0 by omega, wMem_at (k + 1) 0 (by omega)]; decide

theorem wMem_lit (k : Nat) {q : Nat} (h : q < 255 ∨ q = 257 ∨ q = 260) : wMem (k * 263 + q) ≠ 0 := by
  rw [wMem_at k q (by omega)]
  unfold wPat
  rw [if_neg (by omega)]
  intro he
  have := congrArg UInt8.toNat he
  rw [lit_toNat] at this
  simp at this

section

variable {σ : Type} {emit emitT : Emit σ} {force : Nat → Nat → List Byte} {inp : Mem} {n : Nat}

theorem stepW_has (wc fw : Nat) : HasS8 emitT inp n (fun e => (⟨e, wc, fw⟩ : WS σ)) (stepW emit emitT force 2 inp n) := by
  intro s s' h1 h2
  unfold stepW
  rw [if_neg h1]
  simp only [h2]

theorem stepW_mono {short : Nat} (w : WS σ) : Post (stepW emit emitT force short inp n w) (fun w' => w.es.out.length ≤ w'.es.out.length)
    (fun w' => w.es.out.length ≤ w'.es.out.length) := by
  unfold stepW
  split
  · unfold second
    split
    · split
      · exact doEmit_mono emit inp w.es
      · unfold wasted
        split
        · exact Nat.le_refl _
        · split
          · simp only [replay, Post, List.length_append]; omega
          · exact Nat.le_refl _
    · exact Nat.le_refl _
  · have := stepS8_mono (emit := emitT) (minR := short) (inp := inp) (n := n) w.es
    split
    · next e he => rw [he] at this; exact this
    · next e he => rw [he] at this; exact this

end

namespace R8Cfg

/-- A block is read in three runs, the scanner goes back to the first of them and writes all three. -/
theorem w_block {n : Nat} (k : Nat) (hn : (k + 1) * 263 + 40 ≤ n) (fw : Nat) (out : List Byte) :
    ∃ fw' out', out'.length = out.length + 267 ∧
      Steps (stepW (emit ⟨true, true⟩) (emitT ⟨true, true⟩) (force ⟨true, true⟩) 2 wMem n)
        ⟨⟨.search, k * 263, 0, k * 263, [0], ⟨true, [0]⟩, out⟩, 0, fw⟩
        ⟨⟨.search, (k + 1) * 263, 0, (k + 1) * 263, [0], ⟨true, [0]⟩, out'⟩, 0, fw'⟩ := by
  have f1 := stepS8_find (stepW_has (emit := emit ⟨true, true⟩) (emitT := emitT ⟨true, true⟩) (force := force ⟨true, true⟩)
    (inp := wMem) (n := n) 0 fw) (by omega) (wMem_run (k := k) (q := 255) (by omega)) (by omega) (by omega) 255 (k * 263) rfl
    (fun j h1 h2 => by
      obtain ⟨q, rfl⟩ := Nat.exists_eq_add_of_le h1
      exact wMem_lit k (by omega)) 0 (k * 263) ⟨true, [0]⟩ out
  have f2 := fun wc fw cnt last out => stepS8_find (stepW_has (emit := emit ⟨true, true⟩) (emitT := emitT ⟨true, true⟩) (force := force ⟨true, true⟩)
    (inp := wMem) (n := n) wc fw) (by omega) (wMem_run (k := k) (q := 258) (by omega)) (by omega) (by omega) 1 (k * 263 + 257) rfl
    (fun j h1 h2 => by
      rw [show j = k * 263 + 257 by omega]
      exact wMem_lit k (by omega)) cnt last ⟨true, [0]⟩ out
  have f3 := fun wc fw cnt last out => stepS8_find (stepW_has (emit := emit ⟨true, true⟩) (emitT := emitT ⟨true, true⟩) (force := force ⟨true, true⟩)
    (inp := wMem) (n := n) wc fw) (by omega) (wMem_run (k := k) (q := 261) (by omega)) (by omega) (by omega) 1 (k * 263 + 260) rfl
    (fun j h1 h2 => by
      rw [show j = k * 263 + 260 by omega]
      exact wMem_lit k (by omega)) cnt last ⟨true, [0]⟩ out
  have e0 : ∀ lits, 255 ≤ lits → emit ⟨true, true⟩ ⟨true, [0]⟩ [0] 2 lits = none := by
    intro lits h
    unfold emit
    simp [short, r8short, long]
    omega
  have e1 : emit ⟨true, true⟩ ⟨true, [0]⟩ [0] 2 1 = some ([1, 2], ⟨true, [0]⟩) := by decide
  have hm : matchLen wMem [0] (k * 263 + 255) (n - 16 - (k * 263 + 255)) 0 = 2 :=
    matchLen_stopAt _ 0 2 (fun j hj => by rw [Nat.zero_add]; exact (wMem_run (k := k) (q := 255) (by omega)).run j hj)
      (by rw [Nat.zero_add]; exact (wMem_run (k := k) (q := 255) (by omega)).stop) (by omega)
  refine ⟨k * 263 + 255, ((out ++ force ⟨true, true⟩ 2 255 ++ rd wMem (k * 263) 255) ++ [1, 2] ++ rd wMem (k * 263 + 257) 1) ++ [1, 2] ++
    rd wMem (k * 263 + 260) 1, ?_, ?_⟩
  · simp [rd_length, force, offL8]
  have hskip : ∀ i last fw o, 257 ≤ i - last → i - fw ≤ 255 →
      stepW (emit ⟨true, true⟩) (emitT ⟨true, true⟩) (force ⟨true, true⟩) 2 wMem n ⟨⟨.second, i, 2, last, [0], ⟨true, [0]⟩, o⟩, 1, fw⟩ =
        .inl ⟨⟨.search, i, 0, last, [0], ⟨true, [0]⟩, o⟩, 2, fw⟩ := by
    intro i last fw o h1 h2
    unfold stepW second
    simp only [if_true]
    rw [if_pos (by omega), e0 _ (by omega)]
    simp only [wasted]
    rw [if_neg (by omega), if_neg (by omega)]
  have hemit : ∀ i last fw o, i - 2 - last = 1 →
      stepW (emit ⟨true, true⟩) (emitT ⟨true, true⟩) (force ⟨true, true⟩) 2 wMem n ⟨⟨.second, i, 2, last, [0], ⟨true, [0]⟩, o⟩, 0, fw⟩ =
        .inl ⟨⟨.search, i, 0, i, [0], ⟨true, [0]⟩, o ++ [1, 2] ++ rd wMem last 1⟩, 0, fw⟩ := by
    intro i last fw o h1
    unfold stepW second
    simp only [if_true]
    rw [if_pos (by omega), h1, e1]
    simp only [doEmit, h1, e1]
  refine f1.trans (.head (s' := ⟨⟨.search, k * 263 + 257, 0, k * 263, [0], ⟨true, [0]⟩, out⟩, 1, k * 263 + 255⟩) ?_ ?_)
  · unfold stepW second
    simp only [if_true]
    rw [if_pos (by omega), e0 _ (by omega)]
    simp only [wasted]
    rw [if_pos (Or.inl trivial)]
    rfl
  refine (f2 _ _ _ _ _).trans (.head (hskip _ _ _ _ (by omega) (by omega)) ?_)
  refine (f3 _ _ _ _ _).trans (.head (s' := ⟨⟨.search, k * 263 + 257, 0, k * 263 + 257, [0], ⟨true, [0]⟩, out ++ force ⟨true, true⟩ 2 255 ++ rd wMem (k * 263) 255⟩, 0, k * 263 + 255⟩) ?_ ?_)
  · unfold stepW second
    simp only [if_true]
    rw [if_pos (by omega), e0 _ (by omega)]
    simp only [wasted]
    rw [if_neg (by omega), if_pos (by omega)]
    simp only [replay]
    rw [hm, show k * 263 + 255 - k * 263 = 255 by omega]
  refine (f2 _ _ _ _ _).trans (.head (hemit _ _ _ _ (by omega)) ?_)
  refine (f3 _ _ _ _ _).trans (.one ?_)
  rw [hemit _ _ _ _ (by omega), show k * 263 + 261 + 2 = (k + 1) * 263 by omega]

theorem w_blocks {n : Nat} (K : Nat) (hn : K * 263 + 40 ≤ n) : ∀ k, k ≤ K → ∃ fw out, out.length = k * 267 ∧
    Steps (stepW (emit ⟨true, true⟩) (emitT ⟨true, true⟩) (force ⟨true, true⟩) 2 wMem n)
      ⟨⟨.search, 0, 0, 0, [0], ⟨true, [0]⟩, []⟩, 0, 0⟩
      ⟨⟨.search, k * 263, 0, k * 263, [0], ⟨true, [0]⟩, out⟩, 0, fw⟩ := by
  intro k
  induction k with
  | zero =>
    intro _
    rw [Nat.zero_mul]
    exact ⟨0, [], rfl, .refl _⟩
  | succ k ih =>
    intro hk
    obtain ⟨fw, out, h1, h2⟩ := ih (by omega)
    have h5 : (k + 1) * 263 + 40 ≤ n := Nat.le_trans (Nat.add_le_add_right (Nat.mul_le_mul_right 263 hk) 40) hn
    obtain ⟨fw', out', h3, h4⟩ := w_block k h5 fw out
    exact ⟨fw', out', by omega, h2.trans h4⟩

end R8Cfg

/-- C17 is false for rle8_packed_single: 60 blocks of 255 bytes without repetition and three
runs of two zeros overflow a buffer of `rle_compress_bounds` bytes. -/
theorem C17_packed_single_violated (cpu : Cpu) : ∃ inp n, 0 < n ∧ n ≤ 16000 ∧
    R8Cfg.compress ⟨true, true⟩ cpu (some inp) n true (bounds n) = .ub := by
  refine ⟨wMem, 60 * 263 + 40, by omega, by omega, ?_⟩
  generalize hn : 60 * 263 + 40 = n
  have hbound : n ≤ maxInput := by unfold maxInput; omega
  refine Cdc.ub_of_out _ (by omega) hbound ((R8Cfg.cdc_ok ⟨true, true⟩).total cpu wMem n) fun s hr => ?_
  have hpick : pick wMem n = 0 := pick_zero hbound fun j _ hj => wMem_next j hj
  change R8Cfg.run ⟨true, true⟩ cpu _ _ = _ at hr
  rw [R8Cfg.run_eq] at hr
  change runW (R8Cfg.emit ⟨true, true⟩) (R8Cfg.emitT ⟨true, true⟩) (R8Cfg.force ⟨true, true⟩) 2 (R8Cfg.first ⟨true, true⟩) pick wMem n = some s at hr
  unfold runW at hr
  rw [hpick] at hr
  have hf : R8Cfg.first ⟨true, true⟩ wMem n = ⟨true, [0]⟩ := by simp [R8Cfg.first, hpick]
  rw [hf] at hr
  cases hl : loop (stepW (R8Cfg.emit ⟨true, true⟩) (R8Cfg.emitT ⟨true, true⟩) (R8Cfg.force ⟨true, true⟩) 2 wMem n) (12 * n + 12)
      ⟨⟨.top, 0, 0, 0, [0], ⟨true, [0]⟩, []⟩, 0, 0⟩ with
  | none => rw [hl] at hr; cases hr
  | some w =>
    rw [hl] at hr
    cases hr
    obtain ⟨fw, out, h1, h2⟩ := R8Cfg.w_blocks (n := n) 60 (by omega) 60 (Nat.le_refl _)
    have hs := stepS8_start (stepW_has (emit := R8Cfg.emit ⟨true, true⟩) (emitT := R8Cfg.emitT ⟨true, true⟩)
      (force := R8Cfg.force ⟨true, true⟩) (inp := wMem) (n := n) 0 0) (b := 0) (by omega)
      (fun j hj => by have := wMem_lit 0 (q := j) (by omega); rwa [Nat.zero_mul, Nat.zero_add] at this) ⟨true, [0]⟩ []
    obtain ⟨f', hf'⟩ := (hs.trans h2).loop _ _ hl
    have := loop_rule_partial (body := stepW (R8Cfg.emit ⟨true, true⟩) (R8Cfg.emitT ⟨true, true⟩) (R8Cfg.force ⟨true, true⟩) 2 wMem n)
      (fun w => 60 * 267 ≤ w.es.out.length) (fun w => 60 * 267 ≤ w.es.out.length) ?_ f' _ w (by show _ ≤ out.length; omega) hf'
    · omega
    · intro v hv
      have := stepW_mono (emit := R8Cfg.emit ⟨true, true⟩) (emitT := R8Cfg.emitT ⟨true, true⟩)
        (force := R8Cfg.force ⟨true, true⟩) (short := 2) (inp := wMem) (n := n) v
      cases hb : stepW (R8Cfg.emit ⟨true, true⟩) (R8Cfg.emitT ⟨true, true⟩) (R8Cfg.force ⟨true, true⟩) 2 wMem n v with
      | inl s' => rw [hb] at this; exact Nat.le_trans hv this
      | inr s' => rw [hb] at this; exact Nat.le_trans hv this

/-- C17 is false for rle8_packed_single at every size from 32126 bytes up to the largest that
`rle_compress_bounds` accepts: some input of exactly that size overflows the buffer. -/
theorem C17_packed_single_sizes_violated (cpu : Cpu) (n : Nat) (h1 : 32126 ≤ n) (h2 : n ≤ 1073741824) : ∃ inp,
    R8Cfg.compress ⟨true, true⟩ cpu (some inp) n true (bounds n) = .ub := by
  refine ⟨wMem, ?_⟩
  obtain ⟨K, hK⟩ : ∃ K, K = (n - 40) / 263 := ⟨_, rfl⟩
  have hbound : n ≤ maxInput := by unfold maxInput; omega
  refine Cdc.ub_of_out _ (by omega) hbound ((R8Cfg.cdc_ok ⟨true, true⟩).total cpu wMem n) fun s hr => ?_
  have hpick : pick wMem n = 0 := pick_zero hbound fun j _ hj => wMem_next j hj
  change R8Cfg.run ⟨true, true⟩ cpu _ _ = _ at hr
  rw [R8Cfg.run_eq] at hr
  change runW (R8Cfg.emit ⟨true, true⟩) (R8Cfg.emitT ⟨true, true⟩) (R8Cfg.force ⟨true, true⟩) 2 (R8Cfg.first ⟨true, true⟩) pick wMem n = some s at hr
  unfold runW at hr
  rw [hpick] at hr
  have hf : R8Cfg.first ⟨true, true⟩ wMem n = ⟨true, [0]⟩ := by simp [R8Cfg.first, hpick]
  rw [hf] at hr
  cases hl : loop (stepW (R8Cfg.emit ⟨true, true⟩) (R8Cfg.emitT ⟨true, true⟩) (R8Cfg.force ⟨true, true⟩) 2 wMem n) (12 * n + 12)
      ⟨⟨.top, 0, 0, 0, [0], ⟨true, [0]⟩, []⟩, 0, 0⟩ with
  | none => rw [hl] at hr; cases hr
  | some w =>
    rw [hl] at hr
    cases hr
    obtain ⟨fw, out, h3, h4⟩ := R8Cfg.w_blocks (n := n) K (by omega) K (Nat.le_refl _)
    have hs := stepS8_start (stepW_has (emit := R8Cfg.emit ⟨true, true⟩) (emitT := R8Cfg.emitT ⟨true, true⟩)
      (force := R8Cfg.force ⟨true, true⟩) (inp := wMem) (n := n) 0 0) (b := 0) (by omega)
      (fun j hj => by have := wMem_lit 0 (q := j) (by omega); rwa [Nat.zero_mul, Nat.zero_add] at this) ⟨true, [0]⟩ []
    obtain ⟨f', hf'⟩ := (hs.trans h4).loop _ _ hl
    have := loop_rule_partial (body := stepW (R8Cfg.emit ⟨true, true⟩) (R8Cfg.emitT ⟨true, true⟩) (R8Cfg.force ⟨true, true⟩) 2 wMem n)
      (fun w => K * 267 ≤ w.es.out.length) (fun w => K * 267 ≤ w.es.out.length) ?_ f' _ w (by show _ ≤ out.length; omega) hf'
    · omega
    · intro v hv
      have := stepW_mono (emit := R8Cfg.emit ⟨true, true⟩) (emitT := R8Cfg.emitT ⟨true, true⟩)
        (force := R8Cfg.force ⟨true, true⟩) (short := 2) (inp := wMem) (n := n) v
      cases hb : stepW (R8Cfg.emit ⟨true, true⟩) (R8Cfg.emitT ⟨true, true⟩) (R8Cfg.force ⟨true, true⟩) 2 wMem n v with
      | inl s' => rw [hb] at this; exact Nat.le_trans hv this
      | inr s' => rw [hb] at this; exact Nat.le_trans hv this

end Hrk
