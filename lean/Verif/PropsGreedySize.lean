import Verif.PropsBlocks
namespace Hrk

theorem prefixLen_const {S : Nat} {c : Byte} {next : List Byte} (h2 : next.getD 0 0 ≠ next.getD 1 0) :
    prefixLen (List.replicate S c) next ≤ 1 := by
  apply Nat.le_of_not_lt
  intro h
  have h0 := prefixLen_spec _ _ 0 (by omega : 0 < prefixLen (List.replicate S c) next)
  have h1 := prefixLen_spec _ _ 1 h
  have hl := prefixLen_le (List.replicate S c) next
  rw [List.length_replicate] at hl
  apply h2
  rw [← h0, ← h1]
  simp [List.getD, show 0 < S by omega, show 1 < S by omega]

/-- Constant symbols match nothing that starts with two different bytes. -/
theorem bestMatch_const {S : Nat} (hS : 2 ≤ S) {next : List Byte} (h2 : next.getD 0 0 ≠ next.getD 1 0) :
    ∀ (ls : Lut) (j : Nat) (best : Nat × Nat), best.2 < 2 → (∀ l ∈ ls, ∃ c, l = List.replicate S c) →
    (bestMatch S next ls j best).2 < 2 := by
  intro ls
  induction ls with
  | nil => intro j best h _; exact h
  | cons l ls ih =>
    intro j best h hl
    obtain ⟨c, rfl⟩ := hl l (by simp)
    unfold bestMatch
    have hne : next ≠ List.replicate S c := by
      rintro rfl
      apply h2
      simp [List.getD, show 0 < S by omega, show 1 < S by omega]
    rw [if_neg hne]
    split
    · exact ih _ _ (by have := prefixLen_const (S := S) (c := c) h2; simp only; omega) fun l hl' => hl l (List.mem_cons_of_mem _ hl')
    · exact ih _ _ h fun l hl' => hl l (List.mem_cons_of_mem _ hl')

/-- Constant symbols that start with another byte do not change the search. -/
theorem bestMatch_rest {S : Nat} (hS : 0 < S) {next : List Byte} (h0 : next.getD 0 0 = 0) :
    ∀ (ls : Lut) (j : Nat) (best : Nat × Nat), (∀ l ∈ ls, ∃ c, c ≠ 0 ∧ l = List.replicate S c) →
    bestMatch S next ls j best = best := by
  intro ls
  induction ls with
  | nil => intro j best _; rfl
  | cons l ls ih =>
    intro j best hl
    obtain ⟨c, hc, rfl⟩ := hl l (by simp)
    have hg : (List.replicate S c).getD 0 0 = c := by simp [List.getD, hS]
    have hne : next ≠ List.replicate S c := by
      rintro rfl
      rw [hg] at h0
      exact hc h0
    have hp : prefixLen (List.replicate S c) next = 0 := by
      apply Nat.eq_zero_of_not_pos
      intro h
      have := prefixLen_spec _ _ 0 h
      rw [hg, h0] at this
      exact hc this
    unfold bestMatch
    rw [if_neg hne, hp, if_neg (by omega)]
    exact ih _ _ fun l hl' => hl l (List.mem_cons_of_mem _ hl')

/-- Nothing repeats in the literals of a block with a run of six bytes. -/
theorem blk_six_ne {L S : Nat} {sym : Nat → List Byte} (h : LowSym S sym) (hL : L % 127 = 8) {d : Nat} (hd : 0 < d) (hd' : d ≤ 8)
    (k : Nat) {q : Nat} (hq : q < L) : blk L 6 sym (k * (L + 6) + q) ≠ blk L 6 sym (k * (L + 6) + q + d) := by
  rw [blk_lit k hq]
  by_cases h1 : q + d < L
  · rw [Nat.add_assoc, blk_lit k h1]
    intro he
    have := congrArg UInt8.toNat he
    rw [lit_toNat, lit_toNat] at this
    omega
  · by_cases h2 : q + d < L + 6
    · rw [show k * (L + 6) + q + d = k * (L + 6) + L + (q + d - L) by omega, blk_run k (by omega)]
      intro he
      have h1 := lit_toNat q
      rw [he] at h1
      have := h.getD k ((q + d - L) % (sym k).length)
      omega
    · rw [show k * (L + 6) + q + d = (k + 1) * (L + 6) + (q + d - (L + 6)) by rw [Nat.add_mul]; omega, blk_lit (k + 1) (by omega)]
      intro he
      have := congrArg UInt8.toNat he
      rw [lit_toNat, lit_toNat] at this
      omega

section scanG

variable {emit : Emit Lut} {S : Nat} {inp : Mem} {n : Nat}

theorem stepG_skip (h0 : ∀ fs sym lits, emit fs sym 0 lits = none) {p : Nat} (hn : p < n) :
    ∀ d a, a + d = p → ∀ cnt last sy fs out,
      (∀ j, a ≤ j → j < p → pairAt inp S j = false ∧ (bestMatch S (rd inp j S) fs 0 (0, 0)).2 < 2) →
      ∃ cnt' sy', Steps (stepG emit S inp n) ⟨.sscan, a, cnt, last, sy, fs, out⟩ ⟨.sscan, p, cnt', last, sy', fs, out⟩ := by
  intro d
  induction d with
  | zero =>
    intro a had cnt last sy fs out _
    cases had
    exact ⟨cnt, sy, .refl _⟩
  | succ d ih =>
    intro a had cnt last sy fs out hp
    obtain ⟨cnt', sy', h⟩ := ih (a + 1) (by omega) 0 last (rd inp a S) fs out fun j h1 h2 => hp j (by omega) h2
    obtain ⟨hp1, hp2⟩ := hp a (Nat.le_refl _) (by omega)
    refine ⟨cnt', sy', ?_⟩
    refine .head (s' := ⟨.top, a + 1, 0, last, rd inp a S, fs, out⟩) ?_ ?_
    · simp only [stepG]
      rw [if_neg, if_neg (by omega)]
      unfold pairAt at hp1
      intro h
      rw [h.2] at hp1
      simp at hp1
    refine .head (s' := ⟨.second, a + 1, 0, last, rd inp a S, fs, out⟩) ?_ ?_
    · simp only [stepG]
      rw [if_pos (by omega), if_neg (by simp)]
    exact .head (s' := ⟨.sscan, a + 1, 0, last, rd inp a S, fs, out⟩) (by simp only [stepG, doEmit, h0]) h

/-- The run of six zero bytes. -/
theorem stepG_six (hS : S ∈ [2, 3, 4, 6, 8]) {p : Nat} (hr : ExactRun inp (List.replicate S 0) p 6) (hn : p + 6 + 2 * S < n) (h8 : inp (p + 8) ≠ 0)
    {fs : Lut} {ls : Lut} (hfs : fs = List.replicate S 0 :: ls) (hls : ∀ l ∈ ls, ∃ c, c ≠ 0 ∧ l = List.replicate S c)
    (cnt last : Nat) (sy : List Byte) (out : List Byte) :
    Steps (stepG emit S inp n) ⟨.sscan, p, cnt, last, sy, fs, out⟩ ⟨.second, p + 6, 6, last, List.replicate S 0, fs, out⟩ := by
  simp only [List.mem_cons, List.not_mem_nil, or_false] at hS
  have hz : ∀ j, j < 6 → inp (p + j) = 0 := by
    intro j hj
    rw [hr.run j hj, List.length_replicate]
    have : j % S < S := Nat.mod_lt _ (by omega)
    simp [List.getD, this]
  have hstop : inp (p + 6) ≠ 0 := by
    have := hr.stop
    rw [List.length_replicate] at this
    have h2 : 6 % S < S := Nat.mod_lt _ (by omega)
    simpa [List.getD, List.getElem?_replicate, h2] using this
  have hrd : ∀ a k, (∀ j, j < k → inp (a + j) = 0) → rd inp a k = List.replicate k 0 := by
    intro a k h
    apply List.ext_getElem?
    intro q
    rw [rd_getElem?, List.getElem?_replicate]
    split
    · next hq => rw [h q hq]
    · rfl
  have hml : ∀ a d, d < S → (∀ j, j < d → inp (a + j) = 0) → inp (a + d) ≠ 0 → matchLen inp (List.replicate S 0) a S 0 = d := by
    intro a d hd h1 h2
    refine matchLen_stopAt S 0 d (fun j hj => ?_) ?_ hd
    · rw [Nat.zero_add, h1 j hj, List.length_replicate]
      simp [List.getD, Nat.mod_lt j (show S > 0 by omega)]
    · rw [Nat.zero_add, List.length_replicate]
      simpa [List.getD, List.getElem?_replicate, Nat.mod_lt d (show S > 0 by omega)] using h2
  have hne : ∀ a d, d < S → inp (a + d) ≠ 0 → rd inp a S ≠ List.replicate S 0 := by
    intro a d hd h1 he
    have e := congrArg (fun l => l.getD d 0) he
    simp only [rd_getD _ _ _ _ _ hd] at e
    apply h1
    rw [e]
    simp [List.getD, hd]
  have htop : ∀ a c d, d < S → c ≠ 0 → a + S ≤ n → a + d + S < n → (∀ j, j < d → inp (a + j) = 0) → inp (a + d) ≠ 0 →
      Steps (stepG emit S inp n) ⟨.top, a, c, last, List.replicate S 0, fs, out⟩
        ⟨.second, a + d, c + d, last, List.replicate S 0, fs, out⟩ := by
    intro a c d hd hc ha hb h1 h2
    refine .one ?_
    simp only [stepG]
    rw [if_pos (by omega), if_pos ⟨hc, ha⟩, if_neg (hne a d hd h2), hml a d hd h1 h2]
  by_cases h3 : S ≤ 3
  · -- a pair
    refine .head (s' := ⟨.top, p + 2 * S, 2 * S, last, List.replicate S 0, fs, out⟩) ?_ ?_
    · simp only [stepG]
      rw [if_pos]
      · rw [hrd p S fun j hj => hz j (by omega)]
      · refine ⟨by omega, ?_⟩
        rw [hrd p S fun j hj => hz j (by omega), hrd (p + S) S fun j hj => ?_]
        rw [Nat.add_assoc]
        exact hz _ (by omega)
    · rcases hS with rfl | rfl | rfl | rfl | rfl <;> try omega
      · refine .head (s' := ⟨.top, p + 6, 6, last, List.replicate 2 0, fs, out⟩) ?_ ?_
        · simp only [stepG]
          rw [if_pos (by omega), if_pos (by omega), if_pos]
          refine hrd _ _ fun j hj => ?_
          rw [Nat.add_assoc]
          exact hz _ (by omega)
        · exact htop (p + 6) 6 0 (by omega) (by omega) (by omega) (by omega) (by omega) hstop
      · exact htop (p + 6) 6 0 (by omega) (by omega) (by omega) (by omega) (by omega) hstop
  · have hnp : ¬ (p + S ≤ n ∧ rd inp (p + S) S = rd inp p S) := by
      intro h
      have h2 := h.2
      have e : ∀ d, d < S → inp (p + S + d) = inp (p + d) := by
        intro d hd
        have := congrArg (fun l => l.getD d 0) h2
        simpa only [rd_getD _ _ _ _ _ hd] using this
      rcases hS with rfl | rfl | rfl | rfl | rfl <;> try omega
      · have := e 2 (by omega)
        rw [hz 2 (by omega)] at this
        exact hstop this
      · have := e 0 (by omega)
        rw [hz 0 (by omega)] at this
        exact hstop this
      · have := e 0 (by omega)
        rw [hz 0 (by omega)] at this
        exact h8 this
    have hb : bestMatch S (rd inp p S) fs 0 (0, 0) = (0, if S = 8 then 6 else S) := by
      by_cases hS8 : S = 8
      · subst hS8
        have e : rd inp p 8 = [0, 0, 0, 0, 0, 0, inp (p + 6), inp (p + 7)] := by
          have h0 := hz 0 (by omega)
          have h1 := hz 1 (by omega)
          have h2 := hz 2 (by omega)
          have h3 := hz 3 (by omega)
          have h4 := hz 4 (by omega)
          have h5 := hz 5 (by omega)
          simp only [rd, List.range_succ_eq_map, List.range_zero, List.map_cons, List.map_nil, h0, h1, h2, h3, h4, h5]
        rw [e, hfs]
        unfold bestMatch
        rw [if_neg (by simp [List.replicate, hstop])]
        have hp : prefixLen (List.replicate 8 0) [0, 0, 0, 0, 0, 0, inp (p + 6), inp (p + 7)] = 6 := by
          simp [List.replicate, prefixLen, Ne.symm hstop]
        rw [hp, if_pos (by omega)]
        exact bestMatch_rest (by omega) rfl ls _ _ hls
      · rw [if_neg hS8, hrd p S fun j hj => hz j (by omega), hfs]
        simp [bestMatch]
    have h0 : fs.getD 0 [] = List.replicate S 0 := by rw [hfs]; rfl
    by_cases hS8 : S = 8
    · rw [if_pos hS8] at hb
      refine .one ?_
      simp only [stepG]
      rw [if_neg hnp, hb, if_pos ⟨by omega, by omega⟩]
      simp only
      rw [if_pos (by omega), h0]
    · rw [if_neg hS8] at hb
      refine .head (s' := ⟨.top, p + S, S, last, List.replicate S 0, fs, out⟩) ?_ ?_
      · simp only [stepG]
        rw [if_neg hnp, hb, if_pos ⟨by omega, by omega⟩]
        simp only
        rw [if_neg (by omega), h0]
      · have := htop (p + S) S (6 - S) (by omega) (by omega) (by omega) (by omega)
          (fun j hj => by rw [Nat.add_assoc]; exact hz _ (by omega))
          (by rw [Nat.add_assoc, show S + (6 - S) = 6 by omega]; exact hstop)
        rwa [show p + S + (6 - S) = p + 6 by omega, show S + (6 - S) = 6 by omega] at this

theorem stepG_mono (s : ES Lut) : Post (stepG emit S inp n s) (fun s' => s.out.length ≤ s'.out.length)
    (fun s' => s.out.length ≤ s'.out.length) := by
  obtain ⟨pc, i, count, last, sym, fs, out⟩ := s
  cases pc <;> simp only [stepG]
  · repeat' split
    all_goals exact Nat.le_refl _
  · exact Nat.le_refl _
  · exact Nat.le_refl _
  · exact doEmit_mono emit inp ⟨.second, i, count, last, sym, fs, out⟩
  · exact Nat.le_refl _
  · repeat' split
    all_goals exact Nat.le_refl _

end scanG

/-- C19 is false for every greedy encoder: 300 blocks of 65540 bytes without repetition and six
zero bytes overflow a buffer of `rle_compress_bounds` bytes. -/
theorem C19_greedy_violated (c : ShCfg) (hc : c.valid) (hm : c.mode = .greedy) (cpu : Cpu) : ∃ inp n, 0 < n ∧ n ≤ 20000000 ∧
    c.compress cpu (some inp) n true (bounds n) = .ub := by
  have hns : c.mode ≠ .single := by rw [hm]; decide
  obtain ⟨hN, hS, _, _, hg⟩ := id hc
  obtain ⟨hN0, hS2, _⟩ := hg hm
  simp only [List.mem_cons, List.not_mem_nil, or_false] at hN hS
  let sym : Nat → List Byte := fun _ => List.replicate c.S 0
  have hlow : LowSym c.S sym := fun _ => ⟨by simp [sym], by simp [sym, List.mem_replicate]⟩
  refine ⟨blk 65540 6 sym, 300 * (65540 + 6) + 81, by omega, by omega, ?_⟩
  generalize hn : 300 * (65540 + 6) + 81 = n
  refine Cdc.ub_of_out _ (by omega) (by unfold maxInput; omega) ((c.cdc_ok hc).total cpu _ n) fun s hr => ?_
  have hrun : c.cdc.run cpu = runG c.fmt c.S := by
    show c.run cpu = _
    unfold ShCfg.run
    rw [hm]
    exact runGI_eq c.fmt (by have := hc.2.1; have := hc.2.2.2.2 hm; simp only [List.mem_cons, List.not_mem_nil, or_false] at *; unfold symSize; omega)
      c.emit_lut (c.init_ok hc)
  rw [hrun] at hr
  have hinit : ∃ ls, c.init = List.replicate c.S 0 :: ls ∧ ∀ l ∈ ls, ∃ b, b ≠ 0 ∧ l = List.replicate c.S b := by
    unfold ShCfg.init
    rw [if_neg hns]
    rcases hN with h | h | h | h
    · omega
    all_goals
      rw [h]
      refine ⟨_, rfl, ?_⟩
      intro l hl
      simp only [List.map_cons, List.map_nil, List.mem_cons, List.not_mem_nil, or_false] at hl
    · rcases hl with rfl | rfl
      · exact ⟨0x7F, by decide, rfl⟩
      · exact ⟨0xFF, by decide, rfl⟩
    · rcases hl with rfl | rfl | rfl | rfl | rfl | rfl
      · exact ⟨0x7F, by decide, rfl⟩
      · exact ⟨0xFF, by decide, rfl⟩
      · exact ⟨0x01, by decide, rfl⟩
      · exact ⟨0x7E, by decide, rfl⟩
      · exact ⟨0x80, by decide, rfl⟩
      · exact ⟨0xFE, by decide, rfl⟩
  obtain ⟨ls, hi1, hi2⟩ := hinit
  have hbr : BlockRun (stepG c.emit c.S (blk 65540 6 sym) n) .sscan c.emit (blk 65540 6 sym) 65540 6 1 300 sym
      ((rd (blk 65540 6 sym) 0 c.S).map (fun b => ~~~ b)) (fun _ fs => fs = c.init) := by
    refine ⟨?_, ?_, ?_⟩
    · rintro k hk cnt sy fs out _ rfl
      have hk' : (k + 1) * (65540 + 6) ≤ 300 * (65540 + 6) := Nat.mul_le_mul_right _ (by omega)
      have hex := blk_exact (R := 6) hlow (show 0 < 65540 by omega) k
      have h8 : blk 65540 6 sym (k * (65540 + 6) + 65540 + 8) ≠ 0 := by
        have := blk_lit (L := 65540) (R := 6) (sym := sym) (k + 1) (j := 2) (by omega)
        rw [show (k + 1) * (65540 + 6) + 2 = k * (65540 + 6) + 65540 + 8 by omega] at this
        rw [this]
        decide
      have hlit : ∀ j, k * (65540 + 6) ≤ j → j < k * (65540 + 6) + 65540 → pairAt (blk 65540 6 sym) c.S j = false ∧
          (bestMatch c.S (rd (blk 65540 6 sym) j c.S) c.init 0 (0, 0)).2 < 2 := by
        intro j hj1 hj2
        obtain ⟨q, rfl⟩ : ∃ q, j = k * (65540 + 6) + q := ⟨j - k * (65540 + 6), by omega⟩
        have hq : q < 65540 := by omega
        refine ⟨pairAt_false (by omega) (blk_six_ne hlow (by decide) (by omega) (by omega) k hq), ?_⟩
        apply bestMatch_const (by omega)
        · rw [rd_getD _ _ _ _ _ (by omega), rd_getD _ _ _ _ _ (by omega), Nat.add_zero]
          exact blk_six_ne hlow (by decide) (by omega) (by omega) k hq
        · simp
        · intro l hl
          rw [hi1] at hl
          rcases List.mem_cons.mp hl with rfl | hl
          · exact ⟨0, rfl⟩
          · obtain ⟨b, _, rfl⟩ := hi2 l hl
            exact ⟨b, rfl⟩
      obtain ⟨cnt', sy', h1⟩ := stepG_skip (emit := c.emit) (S := c.S) (inp := blk 65540 6 sym) (n := n) c.emit_zero
        (p := k * (65540 + 6) + 65540) (by omega) 65540 (k * (65540 + 6)) rfl cnt (k * (65540 + 6)) sy c.init out hlit
      exact h1.trans (stepG_six (by simp; omega) hex (by omega) h8 hi1 hi2 cnt' _ sy' out)
    · rintro k _ fs rfl
      have hf : Lut.find c.init (sym k) = 0 := by
        rw [hi1]
        simp [Lut.find, sym]
      obtain ⟨bytes, e1, e2⟩ := c.far_cost hc hns (cnt := 6) (lut := c.init) (sym := sym k) (by simp [sym])
        (by have := c.stored_le 6; omega)
        (by rw [hf]
            unfold ShCfg.minR
            rw [if_pos (Or.inl (by omega)), if_neg (by omega)] <;> omega)
      rw [hf] at e1 e2
      rw [if_neg (by omega)] at e2
      exact ⟨bytes, c.init, by simpa [Lut.use] using e1, by omega, rfl⟩
    · intro s hs
      obtain ⟨pc, i, count, last, sym, fs, out⟩ := s
      cases hs
      exact ⟨_, rfl⟩
  have := hbr.out (fs0 := c.init) rfl (cnt0 := 0) ?_ stepG_mono hr
  · omega
  · refine .head (s' := ⟨.second, 0, 0, 0, (rd (blk 65540 6 sym) 0 c.S).map (fun b => ~~~ b), c.init, []⟩) ?_ (.one ?_)
    · simp only [stepG]
      rw [if_pos (by omega), if_neg (by simp)]
      rfl
    · simp only [stepG, doEmit, c.emit_zero]
end Hrk
