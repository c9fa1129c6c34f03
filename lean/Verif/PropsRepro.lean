import Verif.PropsReuse
import Verif.PropsSame

/-
C82: a file that is compressed again, later, elsewhere or after having been restored, gives the same stream.
-/

namespace Hrk

/-! ### Specification -/

/-- How many bytes behind the input have an effect on the stream: none for the codecs of 8 bit symbols, one symbol for the others. -/
def CName.over : CName → Nat
  | .x S _ _ => S
  | .sl _ S _ => if S = 1 then 0 else S
  | .sh _ S _ _ => if S = 1 then 0 else S
  | .x128 _ _ => 16
  | _ => 0

/-- The bytes 1 to 16, with other bytes behind them. -/
def countUp : Mem := fun k => if k < 16 then b8 (k + 1) else b8 (k + 200)

/-- The bytes 1 to 16, and the last `S` of them once more behind them. -/
def countAgain (S : Nat) : Mem := fun k => if k < 16 then b8 (k + 1) else b8 (k - S + 1)

/-! ### Nothing behind the input has an effect on the codecs of 8 bit symbols -/

theorem pick_congr0 {inp inp' : Mem} {n : Nat} (h0 : 0 < n) (hm : ∀ k, k < n → inp k = inp' k) : pick inp n = pick inp' n := by
  have h0 := hm 0 h0
  rw [pick_eq, pick_eq]
  unfold pickO
  have : pickInit inp = pickInit inp' := by simp [pickInit, h0]
  rw [this]
  have : loop (pickStep inp n) (2 * n + 3) (pickInit inp') = loop (pickStep inp' n) (2 * n + 3) (pickInit inp') := by
    refine loop_congr (fun s => s.search = true → s.i < n) ?_ _ _ (by simp [pickInit])
    intro s hs
    refine ⟨?_, ?_⟩
    · unfold pickStep
      by_cases h1 : s.search = true
      · have := hs h1
        simp only [h1, if_true]
        by_cases hn : s.i + 16 < n
        · rw [if_pos hn, if_pos hn, findPair_congr1 (inp := inp) (inp' := inp') 15 0 (fun j hj => hm _ (by omega))]
          cases hf : findPair inp' 1 s.i 15 0 with
          | none => rfl
          | some z =>
            obtain ⟨_, hz, _⟩ := findPair_spec _ _ _ _ _ _ hf
            simp only
            rw [hm _ (by omega)]
        · rw [if_neg hn, if_neg hn, hm _ (by omega)]
      · rw [if_neg h1, if_neg h1]
        by_cases hn : s.i + 16 < n
        · rw [if_pos hn, if_pos hn, matchLen_congr' (inp := inp) (inp' := inp') 16 0 (fun j hj => hm _ (by omega)),
            anyEq_congr (inp := inp) (inp' := inp') (fun j h1 h2 => hm _ (by omega))]
        · rw [if_neg hn, if_neg hn]
    · intro s' hs'
      have := pickStep_inv inp n s hs
      rw [hs'] at this
      exact this.1
  rw [this]

theorem run8T_congr0 {σ : Type} (F : Fmt σ) (emitT : Emit σ) {W : Nat} (hW : 2 ≤ W) {inp inp' : Mem} {n : Nat} (h0 : 0 < n)
    (hm : ∀ k, k < n → inp k = inp' k) : run8T F emitT W inp n = run8T F emitT W inp' n := by
  have hc : ∀ e : Emit σ, Closed e inp 1 true n (fun _ _ _ => True) := fun _ => closed_true
  unfold run8T
  rw [hm 0 h0]
  refine loop_congr (Inv8 W inp n (fun _ _ _ => True)) (b₁ := step8 F.emit emitT W inp n)
    (b₂ := step8 F.emit emitT W inp' n) ?_ _ _ (inv8_start trivial)
  intro s hs
  refine ⟨step8_congr hW hm s hs, ?_⟩
  intro s' hs'
  have := step8_inv hW (Nat.le_refl _) (hc F.emit) (hc emitT) s hs
  rw [hs'] at this
  exact this.1

theorem runS8_congr0 {σ : Type} (F : Fmt σ) (fs0 : Mem → Nat → σ) {minR : Nat} {sym : Mem → Nat → Byte} {inp inp' : Mem} {n : Nat}
    (hm : ∀ k, k < n → inp k = inp' k) (h1 : sym inp n = sym inp' n) (h2 : fs0 inp n = fs0 inp' n) :
    runS8 F fs0 minR sym inp n = runS8 F fs0 minR sym inp' n := by
  have hc : Closed F.emit inp 1 true n (fun _ _ _ => True) := closed_true
  unfold runS8
  rw [h1, h2]
  refine loop_congr (fun s => Inv8 16 inp n (fun _ _ _ => True) s ∧ s.pc ≠ .sscan ∧ (s.pc = .search → s.count = 0))
    (b₁ := stepS8 F.emit minR inp n)
    (b₂ := stepS8 F.emit minR inp' n) ?_ _ _ ⟨inv8_start trivial, by simp, by simp⟩
  intro s hs
  refine ⟨stepS8_congr hm s hs.1, ?_⟩
  intro s' hs'
  have := stepS8_inv (minR := minR) (Nat.le_refl _) hc s hs
  rw [hs'] at this
  exact this.1

theorem runW_congr0 {σ : Type} {emit emitT emitF : Emit σ} {force : Nat → Nat → List Byte} {short long far : Nat}
    {fs0 : Mem → Nat → σ} {sym : Mem → Nat → Byte} {inp inp' : Mem} {n : Nat}
    (hR : WRules emit emitT emitF force short long far (fs0 inp n) (sym inp n)) (hm : ∀ k, k < n → inp k = inp' k)
    (h1 : sym inp n = sym inp' n) (h2 : fs0 inp n = fs0 inp' n) :
    runW emit emitT force short fs0 sym inp n = runW emit emitT force short fs0 sym inp' n := by
  have hc : ∀ e : Emit σ, Closed e inp 1 true n (fun _ _ _ => True) := fun _ => closed_true
  unfold runW
  rw [← h1, ← h2]
  congr 1
  refine loop_congr (WInv short long far (fs0 inp n) (sym inp n) inp n (fun _ _ _ => True))
    (b₁ := stepW emit emitT force short inp n)
    (b₂ := stepW emit emitT force short inp' n) ?_ _ _ (wInv_start trivial)
  intro w hw
  refine ⟨stepW_congr hm w hw.inv.1 ?_, ?_⟩
  · intro hp hwc
    obtain ⟨c, k1, k2, k3, k4, k5, _⟩ := hw.chance (by simp [hp]) hwc
    have := k5 hp
    omega
  intro w' hw'
  have := stepW_inv (Nat.le_refl _) hR (hc _) (hc _) (hc emitF) w hw
  rw [hw'] at this
  exact this.1

theorem Cdc.prefix0 {σ : Type} (c : Cdc σ) (cpu : Cpu) (run' : Mem → Nat → Nat → Option (ES σ))
    (hs : ∀ inp n, 0 < n → SameIn (c.run cpu) run' inp n n)
    (hr : ∀ inp inp' n, 0 < n → (∀ k, k < n → inp k = inp' k) → c.run cpu inp n = c.run cpu inp' n)
    (hf : ∀ inp inp' n, 0 < n → (∀ k, k < n → inp k = inp' k) → c.first inp n = c.first inp' n) : DependsOnPrefix 0 (c.compress cpu) := by
  intro inp inp' n pOut outSize hm
  have hm : ∀ k, k < n → inp k = inp' k := hm
  by_cases h0 : n = 0
  · simp [Cdc.compress, apiCompress, h0]
  have h0 : 0 < n := by omega
  have : c.body cpu inp n = c.body cpu inp' n := by
    obtain ⟨s, h1, _, h3, h4⟩ := hs inp n h0
    unfold Cdc.body
    rw [← hr inp inp' n h0 hm, hf inp inp' n h0 hm, h1]
    simp only [Option.map_some, finish]
    rw [rd_congr (m₁ := inp) (m₂ := inp') (a := s.lastRLE) (fun j h1 h2 => hm j (by omega)),
      rd_congr (m₁ := inp) (m₂ := inp') (a := s.lastRLE) (k := s.i - s.lastRLE) (fun j h1 h2 => hm j (by omega))]
  simp only [Cdc.compress, apiCompress, this]

/-- C29, without the one byte `C29_rle8_prefix` allows. -/
theorem C29_rle8_exact (c : R8Cfg) (cpu : Cpu) : DependsOnPrefix 0 (c.compress cpu) := by
  obtain ⟨s, p⟩ := c
  cases s with
  | true =>
    refine Cdc.prefix0 (R8Cfg.cdc ⟨true, p⟩) cpu _ (fun inp n hn => inWI_same (emitF := R8Cfg.emitF ⟨true, p⟩) (long := R8Cfg.long ⟨true, p⟩) inp
      (R8Cfg.wrules ⟨true, p⟩ rfl inp n) hn (Nat.le_refl _)) (fun inp inp' n hn hm => ?_) (fun inp inp' n hn hm => ?_)
    · show R8Cfg.run ⟨true, p⟩ cpu inp n = R8Cfg.run ⟨true, p⟩ cpu inp' n
      rw [R8Cfg.run_eq]
      exact runW_congr0 (emitF := R8Cfg.emitF ⟨true, p⟩) (long := R8Cfg.long ⟨true, p⟩) (R8Cfg.wrules ⟨true, p⟩ rfl inp n) hm (pick_congr0 hn hm)
        (by simp [R8Cfg.first, pick_congr0 hn hm])
    · show R8Cfg.first ⟨true, p⟩ inp n = R8Cfg.first ⟨true, p⟩ inp' n
      simp [R8Cfg.first, pick_congr0 hn hm]
  | false =>
    refine Cdc.prefix0 (R8Cfg.cdc ⟨false, p⟩) cpu _ (fun inp n hn => in8TI_same _ _ (SlCfg.vec ⟨0, 0, false⟩ cpu) inp hn (Nat.le_refl _))
      (fun inp inp' n hn hm => ?_) (fun inp inp' n hn hm => ?_)
    · show R8Cfg.run ⟨false, p⟩ cpu inp n = R8Cfg.run ⟨false, p⟩ cpu inp' n
      rw [R8Cfg.run_eq]
      simp only [Bool.false_eq_true, if_false]
      exact run8T_congr0 (R8Cfg.fmt ⟨false, p⟩) (R8Cfg.emitT ⟨false, p⟩) (by split <;> omega) hn hm
    · show R8Cfg.first ⟨false, p⟩ inp n = R8Cfg.first ⟨false, p⟩ inp' n
      simp [R8Cfg.first]

/-- C29 for the symbol table codecs of 8 bit symbols, without that byte. -/
theorem C29_symlut8_exact (N : Nat) (u : Bool) (cpu : Cpu) : DependsOnPrefix 0 (SlCfg.compress ⟨N, 1, u⟩ cpu) := by
  refine Cdc.prefix0 (SlCfg.cdc ⟨N, 1, u⟩) cpu (in8TI (SlCfg.fmt ⟨N, 1, u⟩) (SlCfg.fmt ⟨N, 1, u⟩).emit (SlCfg.simd8 ⟨N, 1, u⟩ cpu)) (fun inp n hn => ?_) (fun inp inp' n hn hm => ?_) (fun _ _ _ _ _ => rfl)
  · have e : (SlCfg.cdc ⟨N, 1, u⟩).run cpu = run8TI (SlCfg.fmt ⟨N, 1, u⟩) (SlCfg.fmt ⟨N, 1, u⟩).emit (SlCfg.simd8 ⟨N, 1, u⟩ cpu) := by
      simp only [SlCfg.cdc, if_true]
    rw [e]
    exact in8TI_same _ _ (SlCfg.vec _ cpu) inp hn (Nat.le_refl _)
  · simp only [SlCfg.cdc, if_true]
    rw [SlCfg.run8I ⟨N, 1, u⟩ rfl]
    exact run8T_congr0 _ _ (SlCfg.encW1 _ rfl cpu) hn hm

/-- C29 for the short codecs of 8 bit symbols, without that byte. -/
theorem C29_short8_exact (N : Nat) (u : Bool) (md : ShMode) (hc : ShCfg.valid ⟨N, 1, u, md⟩) (cpu : Cpu) :
    DependsOnPrefix 0 (ShCfg.compress ⟨N, 1, u, md⟩ cpu) := by
  cases md with
  | greedy => have := (hc.2.2.2.2 rfl).2.1; simp at this
  | single =>
    refine Cdc.prefix0 (ShCfg.cdc ⟨N, 1, u, .single⟩) cpu _ (fun inp n hn => inS8I_same _ _ _ inp hn (Nat.le_refl _))
      (fun inp inp' n hn hm => ?_) (fun inp inp' n hn hm => ?_)
    · show ShCfg.run ⟨N, 1, u, .single⟩ cpu inp n = ShCfg.run ⟨N, 1, u, .single⟩ cpu inp' n
      unfold ShCfg.run
      simp only
      rw [runS8I_eq]
      exact runS8_congr0 _ _ hm (pick_congr0 hn hm) (by simp [ShCfg.first, pick_congr0 hn hm])
    · show ShCfg.first ⟨N, 1, u, .single⟩ inp n = ShCfg.first ⟨N, 1, u, .single⟩ inp' n
      simp [ShCfg.first, pick_congr0 hn hm]
  | normal =>
    refine Cdc.prefix0 (ShCfg.cdc ⟨N, 1, u, .normal⟩) cpu _ (fun inp n hn => in8TI_same _ _ (SlCfg.vec ⟨N, 1, u⟩ cpu) inp hn (Nat.le_refl _))
      (fun inp inp' n hn hm => ?_) (fun inp inp' n hn hm => ?_)
    · show ShCfg.run ⟨N, 1, u, .normal⟩ cpu inp n = ShCfg.run ⟨N, 1, u, .normal⟩ cpu inp' n
      unfold ShCfg.run
      simp only [if_true]
      rw [SlCfg.run8I ⟨N, 1, u⟩ rfl]
      exact run8T_congr0 _ _ (SlCfg.encW1 _ rfl cpu) hn hm
    · show ShCfg.first ⟨N, 1, u, .normal⟩ inp n = ShCfg.first ⟨N, 1, u, .normal⟩ inp' n
      simp [ShCfg.first]

theorem CName.prefix (f : CName) (hf : f.exists?) (cpu : Cpu) (junk : Vec) (m : Mem) : DependsOnPrefix f.over (f.run cpu junk m) := by
  cases f with
  | r8 s p => exact C29_rle8_exact ⟨s, p⟩ cpu
  | x S u p => exact C29_multibyte_prefix ⟨S, u, p⟩ hf cpu
  | sl N S u =>
    by_cases h : S = 1
    · subst h; exact C29_symlut8_exact N u cpu
    · simp only [CName.over, if_neg h]; exact C29_symlut_prefix ⟨N, S, u⟩ hf cpu
  | sh N S u md =>
    by_cases h : S = 1
    · subst h; exact C29_short8_exact N u md hf cpu
    · simp only [CName.over, if_neg h]; exact C29_short_prefix ⟨N, S, u, md⟩ hf cpu
  | x128 u p => exact C29_rle128_prefix u p cpu
  | rsh => exact C29_sh_prefix m
  | mm => exact C29_mmtf128_prefix junk m
  | le s o => exact C29_low_entropy_prefix ⟨s, o⟩

theorem same_on {row : Row} (hr : row ∈ table) (junk : Vec) (m : Mem) (cpu cpu' : Cpu) (hp : row.comp = .r8 false true → cpu.avx2 = cpu'.avx2)
    (pIn : Option Mem) (n : Nat) (pOut : Bool) (o : Nat) :
    row.comp.run cpu junk m pIn n pOut o = row.comp.run cpu' junk m pIn n pOut o := by
  by_cases h : row.comp = .r8 false true
  · rw [h]
    exact C47_packed_multi_partial cpu cpu' (hp h) pIn n pOut o
  · exact C47_table_partial row hr h junk m cpu cpu' pIn n pOut o

/-! ### The property -/

/-- C82: whenever the same file is compressed, whatever processor, buffer and left-overs there are, the stream is the same, if the `over` bytes behind
the file are. Missing: `rle8_packed_multi_compress` with and without AVX2 (`C47_packed_multi_violated`), `rle8_mmtf128_compress` with another value in the uninitialised
register (`C29_mmtf128_register_violated`), and the codecs of wider symbols with other bytes behind the file (`C82_behind_violated`). -/
theorem C82_same_partial (row : Row) (hr : row ∈ table) (cpu cpu' : Cpu) (hp : row.comp = .r8 false true → cpu.avx2 = cpu'.avx2) (junk junk' : Vec)
    (hj : row.comp = .mm → junk = junk') (held held' inp inp' : Mem) (n o o' ret ret' : Nat) (out out' : List Byte) (ho : o < 4294967296)
    (ho' : o' < 4294967296) (hm : ∀ k, k < n + row.comp.over → inp k = inp' k) (h : row.comp.run cpu junk held (some inp) n true o = .ok ret out)
    (h' : row.comp.run cpu' junk' held' (some inp') n true o' = .ok ret' out') : ret = ret' ∧ out = out' := by
  have key : table.all (fun r => decide r.comp.exists?) = true := by decide +kernel
  have hk := List.all_eq_true.mp key row hr
  rw [decide_eq_true_eq] at hk
  rw [row.comp.prefix hk cpu junk held inp inp' n true o hm, same_on hr junk held cpu cpu' hp] at h
  have hjj : row.comp.run cpu' junk held = row.comp.run cpu' junk' held := by
    cases hc : row.comp with
    | mm => rw [hj hc]
    | _ => rfl
  rw [hjj] at h
  have big : ∀ {a b r r' : Nat} {x y : List Byte} {k l : Mem}, a ≤ b → b < 4294967296 → row.comp.run cpu' junk' k (some inp') n true a = .ok r x →
      row.comp.run cpu' junk' l (some inp') n true b = .ok r' y → r = r' ∧ x = y := by
    intro a b r r' x y k l hab hb h1 h2
    rw [C50_room row.comp cpu' junk' inp' n a b r x k l hab hb h1] at h2
    injection h2 with e1 e2
    exact ⟨e1, e2⟩
  rcases Nat.le_total o o' with hle | hle
  · exact big hle ho' h h'
  · obtain ⟨e1, e2⟩ := big hle ho h' h
    exact ⟨e1.symm, e2.symm⟩

/-- C82 for `rle8m_compress`, with the same number of sub-sections: without exception. -/
theorem C82_rle8m_same (k : Nat) (inp inp' : Mem) (n o o' ret ret' : Nat) (out out' : List Byte) (ho : o < 4294967296) (ho' : o' < 4294967296)
    (hm : ∀ j, j < n → inp j = inp' j) (h : mCompress k (some inp) n true o = .ok ret out) (h' : mCompress k (some inp') n true o' = .ok ret' out') :
    ret = ret' ∧ out = out' := by
  rw [C29_rle8m_prefix k inp inp' n true o hm] at h
  rcases Nat.le_total o o' with hle | hle
  · have : mCompress k (some inp') n true o' = .ok ret out := C50_rle8m_room k inp' n o o' ret out (fun _ => 0) (fun _ => 0) hle ho' h
    rw [this] at h'
    injection h' with e1 e2
    exact ⟨e1, e2⟩
  · have : mCompress k (some inp') n true o = .ok ret' out' := C50_rle8m_room k inp' n o' o ret' out' (fun _ => 0) (fun _ => 0) hle ho h'
    rw [this] at h
    injection h with e1 e2
    exact ⟨e1.symm, e2.symm⟩

/-- C82: a file that was compressed, restored on another computer and is compressed there again, gives the stream it came from. `again` is the memory it
is compressed from the second time: the `n` bytes the decompressor restored and, for the codecs of wider symbols, the same bytes behind them. Missing: what
is missing from `C82_same_partial`, and the two low entropy codecs of C07 and C08. -/
theorem C82_again_partial (row : Row) (hr : row ∈ table) (hn : row.comp ≠ .le false false) (hn' : row.comp ≠ .le true false) (ce cd ce' : Cpu)
    (hp : row.comp = .r8 false true → ce.avx2 = ce'.avx2) (junk junk' : Vec) (hj : row.comp = .mm → junk = junk') (held held' inp : Mem)
    (n o o' ret : Nat) (out : List Byte) (h0 : 0 < n) (hmax : n ≤ maxInput) (ho : o < 4294967296) (ho' : o ≤ o') (hb : o' < 4294967296)
    (h : row.comp.run ce junk held (some inp) n true o = .ok ret out) (slack : List Byte) (hs : 64 ≤ slack.length) (m : Mem) (aIn aOut : Nat) :
    ∃ m', row.dec.run cd ⟨some (out ++ slack), out.length, some m, n, n + addSize, aIn, aOut⟩ = .ok n m' ∧
      ∀ again : Mem, (∀ k, k < n → again k = m' k) → (∀ k, n ≤ k → k < n + row.comp.over → again k = inp k) →
        row.comp.run ce' junk' held' (some again) n true o' = .ok ret out := by
  obtain ⟨m', e1, e2, _⟩ := C38_table_partial row hr hn hn' ce cd junk held inp n o ret out h0 hmax ho h slack m
    ⟨some (out ++ slack), out.length, some m, n, n + addSize, aIn, aOut⟩ hs rfl (Nat.le_refl _) rfl (Nat.le_refl _) (Nat.le_refl _)
  refine ⟨m', e1, fun again h1 h2 => ?_⟩
  have key : table.all (fun r => decide r.comp.exists?) = true := by decide +kernel
  have hk := List.all_eq_true.mp key row hr
  rw [decide_eq_true_eq] at hk
  have h3 : ∀ k, k < n + row.comp.over → inp k = again k := by
    intro k hkk
    by_cases hlt : k < n
    · rw [h1 k hlt, e2 k hlt]
    · exact (h2 k (by omega) hkk).symm
  have hjj : row.comp.run ce' junk held = row.comp.run ce' junk' held := by
    cases hc : row.comp with
    | mm => rw [hj hc]
    | _ => rfl
  rw [row.comp.prefix hk ce junk held inp again n true o h3, same_on hr junk held ce ce' hp, hjj] at h
  exact C50_room row.comp ce' junk' again n o o' ret out held held' ho' hb h

theorem over_cases (row : Row) (hr : row ∈ table) (h : 0 < row.comp.over) :
    row.comp.run noSimd (fun _ => 0) (fun _ => 0) (some countUp) 16 true (bounds 16) ≠
      row.comp.run noSimd (fun _ => 0) (fun _ => 0) (some (countAgain row.comp.over)) 16 true (bounds 16) := by
  have key : table.all (fun r => decide (0 < r.comp.over → r.comp.run noSimd (fun _ => 0) (fun _ => 0) (some countUp) 16 true (bounds 16) ≠
      r.comp.run noSimd (fun _ => 0) (fun _ => 0) (some (countAgain r.comp.over)) 16 true (bounds 16))) = true := by decide +kernel
  have hk := List.all_eq_true.mp key row hr
  rw [decide_eq_true_eq] at hk
  exact hk h

/-- C82 does not hold for any codec of symbols of more than 8 bits: on every processor these 16 bytes are compressed to two different streams, depending on
what happens to lie behind them. -/
theorem C82_behind_violated (row : Row) (hr : row ∈ table) (h : 0 < row.comp.over) (cpu : Cpu) (junk : Vec) (held : Mem) :
    (∀ k, k < 16 → countUp k = countAgain row.comp.over k) ∧
    ∃ out out', row.comp.run cpu junk held (some countUp) 16 true (bounds 16) = .ok out.length out ∧
      row.comp.run cpu junk held (some (countAgain row.comp.over)) 16 true (bounds 16) = .ok out'.length out' ∧ out ≠ out' := by
  refine ⟨fun k hk => by simp [countUp, countAgain, hk], ?_⟩
  have key : table.all (fun r => decide (r.comp.exists? ∧ (0 < r.comp.over → 16 ≤ r.comp.upTo ∧ r.comp ≠ .r8 false true))) = true := by decide +kernel
  have hk := List.all_eq_true.mp key row hr
  rw [decide_eq_true_eq] at hk
  obtain ⟨k1, k2⟩ := hk
  obtain ⟨k2, k3⟩ := k2 h
  obtain ⟨out, h1, _⟩ := row.comp.fits k1 cpu junk held (inp := countUp) (n := 16) (by decide) k2
  obtain ⟨out', h2, _⟩ := row.comp.fits k1 cpu junk held (inp := countAgain row.comp.over) (n := 16) (by decide) k2
  refine ⟨out, out', h1, h2, fun e => ?_⟩
  have hne := over_cases row hr h
  have hz : row.comp.run noSimd (fun _ => 0) (fun _ => 0) = row.comp.run noSimd junk held := by
    cases hc : row.comp with
    | mm => rw [hc] at h; exact absurd h (by decide)
    | rsh => rw [hc] at h; exact absurd h (by decide)
    | _ => rfl
  rw [hz, same_on hr junk held noSimd cpu (fun e => absurd e k3), same_on hr junk held noSimd cpu (fun e => absurd e k3), h1, h2, e] at hne
  exact hne rfl

/-! ### The hypotheses can be met -/

/-- The 60 bytes of `sampleInp` with zeroes and with ones behind them. -/
def zeroesBehind : Mem := fun k => if k < 60 then sampleInp k else 0
def onesBehind : Mem := fun k => if k < 60 then sampleInp k else 1

/-- `rle8_multi_compress` with the smallest and with a larger buffer, without and with AVX2: one stream. -/
example : ∃ row ∈ table, row.comp = .r8 false false ∧ ∃ out,
    row.comp.run noSimd (fun _ => 0) (fun _ => 0) (some zeroesBehind) 60 true 253 = .ok out.length out ∧
    row.comp.run withAvx2 (fun _ => 1) (fun _ => 1) (some onesBehind) 60 true 500 = .ok out.length out := by
  refine ⟨⟨"Extreme8", .r8 false false, .r8 false⟩, by decide +kernel, rfl, ?_⟩
  obtain ⟨out, h1, _⟩ := CName.fits (.r8 false false) (by decide) noSimd (fun _ => 0) (fun _ => 0) (inp := zeroesBehind) (n := 60) (by decide) (by decide)
  obtain ⟨out', h2, _⟩ := CName.fits (.r8 false false) (by decide) withAvx2 (fun _ => 1) (fun _ => 1) (inp := onesBehind) (n := 60) (by decide) (by decide)
  have e : bounds 60 = 253 := by decide
  rw [e] at h1 h2
  have h3 := C50_room (.r8 false false) withAvx2 (fun _ => 1) onesBehind 60 253 500 _ _ (fun _ => 1) (fun _ => 1) (by decide) (by decide) h2
  have h4 := C82_same_partial ⟨"Extreme8", .r8 false false, .r8 false⟩ (by decide +kernel) noSimd withAvx2 (by intro h; cases h) (fun _ => 0) (fun _ => 1)
    (by intro h; cases h) (fun _ => 0) (fun _ => 1) zeroesBehind onesBehind 60 253 500 _ _ out out' (by decide) (by decide)
    (fun k hk => by
      have hk : k < 60 := hk
      simp only [zeroesBehind, onesBehind, if_pos hk]) h1 h3
  exact ⟨out, h1, by rw [h4.1, h4.2]; exact h3⟩

/-- `rle32_byte_packed_compress`, after decompression with AVX2, with four zeroes behind the file both times. -/
example : ∃ out m', CName.run (.x 4 true true) noSimd (fun _ => 0) (fun _ => 0) (some zeroesBehind) 60 true 253 = .ok out.length out ∧
    DName.run (.x 4 true true) withAvx2 ⟨some (out ++ List.replicate 64 9), out.length, some fun _ => 5, 60, 60 + addSize, 3, 8⟩ = .ok 60 m' ∧
    CName.run (.x 4 true true) withAvx2 (fun _ => 1) (fun _ => 1) (some fun k => if k < 60 then m' k else 0) 60 true 300 = .ok out.length out := by
  obtain ⟨out, h1, _⟩ := CName.fits (.x 4 true true) (by decide) noSimd (fun _ => 0) (fun _ => 0) (inp := zeroesBehind) (n := 60) (by decide) (by decide)
  have e : bounds 60 = 253 := by decide
  rw [e] at h1
  obtain ⟨m', h2, h3⟩ := C82_again_partial ⟨"Extreme32BytePacked", .x 4 true true, .x 4 true true⟩ (by decide +kernel) (by decide) (by decide)
    noSimd withAvx2 withAvx2 (by intro h; cases h) (fun _ => 0) (fun _ => 1) (by intro h; cases h) (fun _ => 0) (fun _ => 1) zeroesBehind 60 253 300 _ out (by decide) (by decide)
    (by decide) (by decide) (by decide) h1 (List.replicate 64 9) (by simp) (fun _ => 5) 3 8
  refine ⟨out, m', h1, h2, h3 _ (fun k hk => by simp only [if_pos hk]) (fun k hk _ => ?_)⟩
  simp only [zeroesBehind, if_neg (show ¬k < 60 by omega)]

/-- `rle8m_compress` with two sub-sections, with zeroes and with ones behind the file. -/
example : ∃ out, mCompress 2 (some zeroesBehind) 60 true 1000 = .ok out.length out ∧ mCompress 2 (some onesBehind) 60 true 2000 = .ok out.length out := by
  obtain ⟨out, h1, _⟩ := C20_rle8m_partial 2 zeroesBehind 60 1000 (by decide) (by decide) (by decide) (by decide)
  obtain ⟨out', h2, _⟩ := C20_rle8m_partial 2 onesBehind 60 2000 (by decide) (by decide) (by decide) (by decide)
  have h3 := C82_rle8m_same 2 zeroesBehind onesBehind 60 1000 2000 _ _ out out' (by decide) (by decide)
    (fun k hk => by simp only [zeroesBehind, onesBehind, if_pos hk]) h1 h2
  exact ⟨out, h1, by rw [h3.1, h3.2]; exact h2⟩

/-- The rows `C82_behind_violated` is about: 99 different compressors. -/
example : (((table.map Row.comp).filter fun f => decide (0 < f.over)).eraseDups).length = 99 := by decide +kernel

end Hrk
