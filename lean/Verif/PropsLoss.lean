import Verif.PropsPays
import Verif.PropsBlocks
import Verif.PropsGreedySize
import Verif.PropsSingleSize

/-
C78: where runs are stored at a loss, on every processor.
-/

namespace Hrk

theorem SlCfg.emit_any (c : SlCfg) (hc : c.valid) : EmitPays c.emit (Lut.ok c.N c.S) c.S c.unb fun _ => 18 := by
  intro lut sym cnt lits bytes lut' hP hl hu he
  obtain ⟨rfl, h3, h4⟩ := c.emit_len hl he
  refine ⟨use_ok' hc hP hl, Nat.le_trans h3 ?_⟩
  have e1 := ext_le 127 (c.stored cnt)
  have e2 := ext_le c.tinyR (lits + 2)
  have hS := c.valid_S hc
  have : (if lut.find sym = c.N then c.S else 0) ≤ 8 := by split <;> omega
  have : (extOf 127 (c.stored cnt)).length ≤ 4 := by revert e1; split <;> (try split) <;> omega
  have : (extOf c.tinyR (lits + 2)).length ≤ 4 := by revert e2; split <;> (try split) <;> omega
  show _ ≤ cnt + 18
  omega

/-- C78 is false for the codecs with a table of 3 or 7 symbols of 8, 16, 24 and 32 bits, on every processor. -/
theorem C78_symlut_all_violated (c : SlCfg) (hc : c.valid) (h : c.S = 1 ∨ c.S = 2 ∨ c.S = 3 ∨ c.S = 4) (cpu : Cpu) :
    ¬ RunsPay c.S noMore c.cdc.start c.hdr (c.compress cpu) := by
  refine (c.cdc_ok hc).loses (emitEnd := c.cdc.emitEnd) (more := fun _ => 18) cpu ((c.cdc_ok hc).scan cpu) ?_ (fun _ _ _ _ _ => rfl) ?_ ?_ ?_ ?_
  · intro em hem
    have : em = c.emit := by
      change em ∈ [c.emit, c.emit] at hem
      simpa using hem
    subst this
    exact ⟨(c.cdc_ok hc).fmt.emit, c.emit_any hc⟩
  · show c.endRun.length ≤ 20
    simp [SlCfg.endRun]
  · intro k
    show (c.endLit k).length ≤ 20
    simp [SlCfg.endLit]
  · intro fs _
    exact Nat.zero_le 20
  · show ∃ inp n, 0 < n ∧ n ≤ 20000000 ∧ c.compress cpu (some inp) n true (bounds n) = .ub
    rcases h with h | h | h | h
    · exact C18_symlut8_violated c hc h cpu
    · exact C18_symlut_violated c hc (.inl h) cpu
    · obtain ⟨inp, n, h1, h2, h3⟩ := C18_symlut24_violated c hc h cpu
      exact ⟨inp, n, h1, by omega, h3⟩
    · exact C18_symlut_violated c hc (.inr h) cpu

/-- C78 is false for all short codecs `C78_short_two` is not about, on every processor. -/
theorem C78_short_violated (c : ShCfg) (hc : c.valid) (h : ¬ (c.mode = .normal ∧ (c.S = 8 ∨ c.S = 4 ∧ c.unb = false))) (cpu : Cpu) :
    ¬ RunsPay c.S noMore c.cdc.start c.hdr (c.compress cpu) := by
  obtain ⟨e1, e2⟩ := c.ends_len hc
  refine (c.cdc_ok hc).loses (emitEnd := c.cdc.emitEnd) (more := moreFrom 65534 1) cpu ((c.cdc_ok hc).scan cpu) ?_ (fun _ _ _ _ _ => rfl) (Nat.le_trans e1 (by omega))
    (fun k => Nat.le_trans (e2 k) (by omega)) ?_ ?_
  · intro em hem
    have : em = c.emit := by
      change em ∈ [c.emit, c.emit] at hem
      simpa using hem
    subst this
    exact ⟨(c.cdc_ok hc).fmt.emit, (c.emit_grow hc).pays⟩
  · intro lut hl
    show (c.pre lut).length ≤ 20
    unfold ShCfg.pre
    split
    · next hm =>
      have h1 := (hc.2.2.2.1 hm).2
      have h2 := hl.1
      unfold ShCfg.tab at h2
      rw [if_pos hm] at h2
      obtain ⟨x, rfl⟩ := List.length_eq_one_iff.mp h2
      have := hl.2 x (by simp)
      simp; omega
    · simp
  · show ∃ inp n, 0 < n ∧ n ≤ 20000000 ∧ c.compress cpu (some inp) n true (bounds n) = .ub
    cases hm : c.mode with
    | single => exact C19_single_short_violated c hc hm cpu
    | greedy => exact C19_greedy_violated c hc hm cpu
    | normal =>
      have hS := hc.2.1
      simp only [List.mem_cons, List.not_mem_nil, or_false] at hS
      by_cases h1 : c.S = 1
      · exact C19_short8_violated c hc hm h1 cpu
      · refine C19_short_violated c hc hm ?_ cpu
        cases hu : c.unb <;> simp [hm, hu] at h ⊢ <;> omega

/-- C78 is false for rle8_multi and rle8_packed_single, on every processor. -/
theorem C78_rle8_all_violated (single : Bool) (cpu : Cpu) :
    ¬ RunsPay 1 noMore R8Cfg.start (R8Cfg.hdr single) (R8Cfg.compress ⟨single, single⟩ cpu) := by
  refine (R8Cfg.cdc_ok ⟨single, single⟩).loses (emitEnd := (R8Cfg.cdc ⟨single, single⟩).emitEnd) cpu ((R8Cfg.cdc_ok ⟨single, single⟩).scan cpu)
    (more := moreFrom 255 (R8Cfg.grow ⟨single, single⟩)) ?_ (fun _ _ _ _ _ => rfl) ?_ ?_ ?_ ?_
  · generalize (⟨single, single⟩ : R8Cfg) = c
    intro em hem
    refine ⟨?_, ?_⟩
    · rcases List.mem_cons.mp hem with rfl | hem
      · exact c.cdc_ok.emitEnd
      · rcases List.mem_cons.mp hem with rfl | hem
        · exact c.cdc_ok.fmt.emit
        · exact c.cdc_ok.extra _ hem
    · change em ∈ [c.emitT, c.emit, c.emitT, c.emitF] at hem
      simp only [List.mem_cons, List.not_mem_nil, or_false] at hem
      rcases hem with rfl | rfl | rfl | rfl
      · exact c.emitT_grow.pays
      · exact c.emit_grow.pays
      · exact c.emitT_grow.pays
      · exact c.emitF_grow.pays
  · show (R8Cfg.endRun _).length ≤ 20
    unfold R8Cfg.endRun
    split <;> simp
  · intro k
    show (R8Cfg.endLit _ k).length ≤ 20
    unfold R8Cfg.endLit
    split <;> simp
  · intro fs hfs
    show (R8Cfg.pre _ fs).length ≤ 20
    unfold R8Cfg.pre
    split <;> simp [hfs.2]
  · show ∃ inp n, 0 < n ∧ n ≤ 20000000 ∧ (R8Cfg.compress ⟨single, single⟩) cpu (some inp) n true (bounds n) = .ub
    cases single
    · obtain ⟨inp, n, h1, h2, h3⟩ := C17_multi_violated cpu
      exact ⟨inp, n, h1, by omega, h3⟩
    · obtain ⟨inp, n, h1, h2, h3⟩ := C17_packed_single_violated cpu
      exact ⟨inp, n, h1, by omega, h3⟩

/-- The hypotheses are met. -/
example : (SlCfg.valid ⟨7, 2, false⟩) ∧ (ShCfg.valid ⟨3, 4, true, .greedy⟩) ∧ ShCfg.valid ⟨0, 1, true, .single⟩ := by decide

end Hrk
