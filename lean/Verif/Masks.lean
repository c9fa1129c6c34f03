import Verif.ScanXI
import Verif.ScanW

/-
The scanners of the single byte codecs as the C code has them: vector registers, comparison masks, counted
zeros and ones. They are the scanners of Scan8.lean and ScanW.lean (`run8TI_eq`, `runS8I_eq`, `runWI_eq`).
-/

namespace Hrk

/-! ### The scanners -/

/-- The mask of the bytes equal to the symbol (src/rleX_Xsl.h:360, 429, src/rle8_extreme_cpu.h:784, 952, 1117,
src/rleX_Xsl_short.h:1070, src/rle8_extreme_cpu.c:77). -/
def symMask (W : Nat) (inp : Mem) (sym : List Byte) (i : Nat) : Nat :=
  movemask W (veq (vset1 (sym.getD 0 0)) (vmem inp i))

/-- The mask of the bytes equal to the byte behind them, without the last one: the SSE2 code shifts the register
by a byte (src/rleX_Xsl.h:386-388, src/rleX_Xsl_short.h:563-565, src/rle8_extreme_cpu.h:896-898,
src/rle8_extreme_cpu.c:104-106), the AVX2 code loads again (src/rleX_Xsl.h:455-457, src/rleX_Xsl_short.h:632-634,
src/rle8_extreme_cpu.h:1064-1066). -/
def nextMask (k : Simd) (inp : Mem) (i : Nat) : Nat :=
  let current := vmem inp i
  match k with
  | .avx2 => 0x7FFFFFFF &&& movemask 32 (veq current (vmem inp (i + 1)))
  | _ => 0x7FFF &&& movemask 16 (veq current (vsrli current 1))

/-- One step of the multi symbol scanner: src/rleX_Xsl.h:352-485, src/rleX_Xsl_short.h:529-662,
src/rle8_extreme_cpu.h:768-1099, then the scalar loop (src/rleX_Xsl.h:300-313, src/rleX_Xsl_short.h:439-456,
src/rle8_extreme_cpu.h:111-200). Program points as for `step8`; `.inr none` is undefined behaviour. -/
def step8I {σ : Type} (emit emitT : Emit σ) (k : Simd) (inp : Mem) (n : Nat) (s : ES σ) : ES σ ⊕ Option (ES σ) :=
  let W := k.width
  match s.pc with
  | .top => if s.i + W < n then .inl { s with pc := .ext } else .inl { s with pc := .scal }
  | .ext =>
    let mask := symMask W inp s.sym s.i
    if 2 ^ W - 1 = mask then .inl { s with count := s.count + W, i := s.i + W, pc := .top }
    else if mask ≠ 0 ∨ s.count > 1 then
      match ctz (not32 mask) with
      | none => .inr none
      | some zero => .inl { s with count := s.count + zero, i := s.i + zero, pc := .second }
    else .inl { s with pc := .search }
  | .second => .inl { doEmit emit inp s with pc := .search }
  | .search =>
    if s.i + W < n then
      let cmp := nextMask k inp s.i
      if cmp = 0 then .inl { s with i := s.i + (W - 1) }
      else match ctz cmp with
        | none => .inr none
        | some zero => .inl { s with i := s.i + zero, pc := .sscan }
    else .inl { s with pc := .sscan }
  | .sscan => .inl { s with sym := rd inp s.i 1, count := 1, i := s.i + 1, pc := .top }
  | .scal =>
    if s.i < n then
      if rd inp s.i 1 = s.sym then .inl { s with count := s.count + 1, i := s.i + 1 }
      else
        .inl { doEmit emitT inp s with sym := rd inp s.i 1, count := 1, i := s.i + 1 }
    else .inr (some s)

/-- One step of the single symbol scanner: `compress_single_sse2` (src/rleX_Xsl_short.h:1061-1122), then the scalar
loop (src/rleX_Xsl_short.h:439-456). Program points as for `stepS8`; `.inr none` is undefined behaviour. -/
def stepS8I {σ : Type} (emit : Emit σ) (minR : Nat) (inp : Mem) (n : Nat) (s : ES σ) : ES σ ⊕ Option (ES σ) :=
  match s.pc with
  | .top => if s.i + 16 < n then .inl { s with pc := .ext } else .inl { s with pc := .scal }
  | .ext =>
    let mask := symMask 16 inp s.sym s.i
    if 0xFFFF = mask then .inl { s with count := s.count + 16, i := s.i + 15 + 1, pc := .top }
    else if mask ≠ 0 ∨ s.count > 1 then
      match ctz (not32 mask) with
      | none => .inr none
      | some zero => .inl { s with count := s.count + zero, i := s.i + zero, pc := .second }
    else .inl { s with count := 0, pc := .search }
  | .second => .inl { doEmit emit inp s with count := 0, pc := .search }
  | .search =>
    if s.i + 16 < n then
      let cmp := symMask 16 inp s.sym s.i
      if cmp = 0 ∨ (cmp &&& 0x8000 = 0 ∧ popcount cmp < minR) then .inl { s with i := s.i + 16 }
      else match ctz cmp with
        | none => .inr none
        | some zero => .inl { s with i := s.i + zero + 1, count := 1, pc := .top }
    else .inl { s with i := s.i + 1, pc := .top }
  | .sscan => .inr (some s)
  | .scal =>
    if s.i < n then
      if rd inp s.i 1 = s.sym then .inl { s with count := s.count + 1, i := s.i + 1 }
      else .inl { doEmit emit inp s with count := 0, i := s.i + 1 }
    else .inr (some s)

/-- One step of `rle8[_packed]_compress_single_sse2` (src/rle8_extreme_cpu.h:1103-1321) and of the scalar loop behind
it (src/rle8_extreme_cpu.h:383-510), as `stepW`. -/
def stepWI {σ : Type} (emit emitT : Emit σ) (force : Nat → Nat → List Byte) (short : Nat) (inp : Mem) (n : Nat)
    (w : WS σ) : WS σ ⊕ Option (WS σ) :=
  if w.es.pc = .second then .inl (second emit force short inp n w)
  else
    match stepS8I emitT short inp n w.es with
    | .inl e => .inl ⟨e, w.wc, w.fw⟩
    | .inr e => .inr (e.map fun e => ⟨e, w.wc, w.fw⟩)

/-- The multi symbol scanner; `state.symbol = ~(*pIn)` at the start
(src/rleX_Xsl.h:289, src/rleX_Xsl_short.h:411, src/rle8_extreme_cpu.h:102). -/
def run8TI {σ : Type} (F : Fmt σ) (emitT : Emit σ) (k : Simd) (inp : Mem) (n : Nat) : Option (ES σ) :=
  (loop (step8I F.emit emitT k inp n) (6 * n + 6) ⟨.top, 0, 0, 0, [~~~ inp 0], F.init, []⟩).join

/-- The single symbol scanner for the symbol `sym inp n` (src/rleX_Xsl_short.h:418-455). -/
def runS8I {σ : Type} (F : Fmt σ) (fs0 : Mem → Nat → σ) (minR : Nat) (sym : Mem → Nat → Byte) (inp : Mem) (n : Nat) :
    Option (ES σ) :=
  (loop (stepS8I F.emit minR inp n) (6 * n + 6) ⟨.top, 0, 0, 0, [sym inp n], fs0 inp n, []⟩).join

/-- The single symbol scanner of `rle8[_packed]_single_compress` (src/rle8_extreme_cpu.h:383-510, 1103-1321). -/
def runWI {σ : Type} (emit emitT : Emit σ) (force : Nat → Nat → List Byte) (short : Nat) (fs0 : Mem → Nat → σ)
    (sym : Mem → Nat → Byte) (inp : Mem) (n : Nat) : Option (ES σ) :=
  (loop (stepWI emit emitT force short inp n) (12 * n + 12)
    ⟨⟨.top, 0, 0, 0, [sym inp n], fs0 inp n, []⟩, 0, 0⟩).join.map WS.es

/-! ### Masks -/

theorem symMask_testBit (W : Nat) (inp : Mem) (sym : List Byte) (i j : Nat) :
    (symMask W inp sym i).testBit j = (decide (j < W) && decide (inp (i + j) = sym.getD 0 0)) := by
  unfold symMask
  rw [mask_testBit]
  congr 1
  exact decide_eq_decide.mpr eq_comm

theorem symMask_lt (W : Nat) (inp : Mem) (sym : List Byte) (i : Nat) : symMask W inp sym i < 2 ^ W := movemask_lt _ _

theorem symMask_full {W : Nat} {inp : Mem} {sym : List Byte} (hl : sym.length = 1) (i : Nat) :
    2 ^ W - 1 = symMask W inp sym i ↔ matchLen inp sym i W 0 = W := by
  have hle := matchLen_le inp sym i W 0
  rw [eq_comm]
  unfold symMask
  rw [movemask_full]
  constructor
  · intro h
    by_cases hlt : matchLen inp sym i W 0 < W
    · have := matchLen_stop inp sym i W 0 hlt
      have h2 := (veq_ge _ _ _).mp (h _ hlt)
      rw [Nat.zero_add, hl, Nat.mod_one] at this
      exact absurd h2.symm this
    · omega
  · intro h j hj
    have := matchLen_spec inp sym i W 0 j (by omega)
    rw [Nat.zero_add, hl, Nat.mod_one] at this
    rw [veq_ge]
    exact this.symm

theorem symMask_ctz {W : Nat} {inp : Mem} {sym : List Byte} (hl : sym.length = 1) (hW : W ≤ 32) (i : Nat)
    (h : matchLen inp sym i W 0 ≠ W) : ctz (not32 (symMask W inp sym i)) = some (matchLen inp sym i W 0) := by
  have hle := matchLen_le inp sym i W 0
  have hlt : matchLen inp sym i W 0 < W := by omega
  have hm : symMask W inp sym i < 4294967296 :=
    Nat.lt_of_lt_of_le (symMask_lt _ _ _ _) (Nat.pow_le_pow_right (by decide) hW : 2 ^ W ≤ 2 ^ 32)
  refine ctz_at (by omega) ?_ fun j hj => ?_
  · rw [not32_testBit hm, symMask_testBit]
    have := matchLen_stop inp sym i W 0 hlt
    rw [Nat.zero_add, hl, Nat.mod_one] at this
    rw [decide_eq_false this, decide_eq_true (show matchLen inp sym i W 0 < 32 by omega)]
    simp
  · rw [not32_testBit hm, symMask_testBit]
    have := matchLen_spec inp sym i W 0 j hj
    rw [Nat.zero_add, hl, Nat.mod_one] at this
    rw [decide_eq_true this, decide_eq_true (show j < W by omega)]
    simp

theorem symMask_ne (W : Nat) (inp : Mem) (sym : List Byte) (i : Nat) :
    symMask W inp sym i ≠ 0 ↔ anyEq inp sym i W = true := by
  unfold anyEq
  rw [List.any_eq_true]
  constructor
  · intro h
    obtain ⟨j, hj⟩ := Nat.exists_testBit_of_ne_zero h
    rw [symMask_testBit, Bool.and_eq_true, decide_eq_true_eq, decide_eq_true_eq] at hj
    exact ⟨j, List.mem_range.mpr hj.1, by simpa using hj.2⟩
  · rintro ⟨j, hj, he⟩ h0
    have := symMask_testBit W inp sym i j
    rw [h0, Nat.zero_testBit, decide_eq_true (List.mem_range.mp hj), decide_eq_true (by simpa using he)] at this
    cases this

theorem symMask_find {W : Nat} (hW : W ≤ 64) (inp : Mem) (sym : List Byte) (i : Nat) :
    ctz (symMask W inp sym i) = findByte inp sym i W 0 := by
  have key : ∀ k off, off + k ≤ W → bitFrom (symMask W inp sym i) k off = findByte inp sym i k off := by
    intro k
    induction k with
    | zero => intro off _; rfl
    | succ k ih =>
      intro off h
      rw [bitFrom, findByte, ih (off + 1) (by omega), symMask_testBit, decide_eq_true (show off < W by omega)]
      simp
  unfold ctz
  rw [bitFrom_more (k := W) hW fun j h1 h2 => by
    rw [symMask_testBit, decide_eq_false (show ¬ j < W by omega)]; rfl]
  exact key W 0 (by omega)

theorem countP_range_more {p : Nat → Bool} {W K : Nat} (h : W ≤ K) (hp : ∀ j, W ≤ j → p j = false) :
    (List.range K).countP p = (List.range W).countP p := by
  induction K with
  | zero => rw [show W = 0 by omega]
  | succ K ih =>
    by_cases e : W = K + 1
    · rw [e]
    · rw [List.range_succ, List.countP_append, ih (by omega)]
      simp [hp K (by omega)]

theorem symMask_pop {W : Nat} (hW : W ≤ 64) (inp : Mem) (sym : List Byte) (i : Nat) :
    popcount (symMask W inp sym i) = cntEq inp sym i W := by
  unfold popcount cntEq
  rw [countP_range_more hW fun j hj => by rw [symMask_testBit, decide_eq_false (show ¬ j < W by omega)]; rfl]
  refine List.countP_congr fun j hj => ?_
  rw [symMask_testBit, decide_eq_true (List.mem_range.mp hj)]
  simp

theorem and_8000 (m : Nat) : m &&& 0x8000 = 0 ↔ m.testBit 15 = false := by
  rw [show (0x8000 : Nat) = 2 ^ 15 by decide]
  constructor
  · intro h
    have := congrArg (fun x => x.testBit 15) h
    rw [Nat.testBit_and, Nat.testBit_two_pow, Nat.zero_testBit] at this
    simpa only [decide_true, Bool.and_true] using this
  · intro h
    refine Nat.eq_of_testBit_eq fun j => ?_
    rw [Nat.testBit_and, Nat.testBit_two_pow, Nat.zero_testBit]
    by_cases hj : 15 = j
    · subst hj; rw [h]; rfl
    · rw [decide_eq_false hj, Bool.and_false]

theorem symMask_top (inp : Mem) (sym : List Byte) (i : Nat) :
    symMask 16 inp sym i &&& 0x8000 = 0 ↔ inp (i + 15) ≠ sym.getD 0 0 := by
  rw [and_8000, symMask_testBit]
  by_cases h : inp (i + 15) = sym.getD 0 0
  · rw [decide_eq_true h]; simp [h]
  · rw [decide_eq_false h]; simp only [ne_eq, h]; decide

/-- The two versions of the 8 bit scanners (src/rleX_Xsl.h:293-298). -/
def Simd.vec (k : Simd) : Prop := k = .sse2 ∨ k = .avx2

theorem nextMask_testBit {k : Simd} (hk : k.vec) (inp : Mem) (i j : Nat) :
    (nextMask k inp i).testBit j = (decide (j < k.width - 1) && pairAt inp 1 (i + j)) := by
  have hp : ∀ p, pairAt inp 1 p = decide (inp p = inp (p + 1)) := by
    intro p
    rw [Bool.eq_iff_iff, pairAt_iff]
    simp
  rw [hp]
  rcases hk with rfl | rfl
  · unfold nextMask
    show _ = (decide (j < 15) && _)
    rw [Nat.testBit_and, show (0x7FFF : Nat) = 2 ^ 15 - 1 by decide, Nat.testBit_two_pow_sub_one, mask_testBit]
    by_cases hj : j < 15
    · have e : vsrli (vmem inp i) 1 j = inp (i + j + 1) := by
        unfold vsrli vmem
        rw [if_pos (by omega)]
        rfl
      rw [decide_eq_true hj, decide_eq_true (show j < 16 by omega), e]
      rfl
    · rw [decide_eq_false hj]; rfl
  · unfold nextMask
    show _ = (decide (j < 31) && _)
    rw [Nat.testBit_and, show (0x7FFFFFFF : Nat) = 2 ^ 31 - 1 by decide, Nat.testBit_two_pow_sub_one, mask_testBit]
    by_cases hj : j < 31
    · have e : vmem inp (i + 1) j = inp (i + j + 1) := by
        unfold vmem
        congr 1
        omega
      rw [decide_eq_true hj, decide_eq_true (show j < 32 by omega), e]
      rfl
    · rw [decide_eq_false hj]; rfl

theorem nextMask_ctz {k : Simd} (hk : k.vec) (inp : Mem) (i : Nat) :
    ctz (nextMask k inp i) = findPair inp 1 i (k.width - 1) 0 := by
  have hw := width_le k
  unfold ctz
  rw [bitFrom_more (k := k.width - 1) (by omega) fun j h1 h2 => by
    rw [nextMask_testBit hk, decide_eq_false (show ¬ j < k.width - 1 by omega)]; rfl]
  refine (findPair_bitFrom _ _ fun j hj => ?_).symm
  rw [Nat.zero_add, nextMask_testBit hk, decide_eq_true hj]
  rfl

theorem nextMask_lt {k : Simd} (hk : k.vec) (inp : Mem) (i : Nat) : nextMask k inp i < 2 ^ 64 := by
  rcases hk with rfl | rfl
  · exact Nat.lt_of_le_of_lt Nat.and_le_left (by decide)
  · exact Nat.lt_of_le_of_lt Nat.and_le_left (by decide)

/-! ### The scanners are the same -/

theorem step8I_eq {σ : Type} (emit emitT : Emit σ) {k : Simd} (hk : k.vec) (inp : Mem) (n : Nat) (s : ES σ)
    (hl : s.sym.length = 1) : step8I emit emitT k inp n s = (step8 emit emitT k.width inp n s).map id some := by
  unfold step8I step8
  have hw := width_le k
  cases hpc : s.pc
  all_goals dsimp only
  · split <;> rfl
  · by_cases h1 : matchLen inp s.sym s.i k.width 0 = k.width
    · rw [if_pos h1, if_pos ((symMask_full hl s.i).mpr h1)]
      rfl
    · rw [if_neg h1, if_neg (fun e => h1 ((symMask_full hl s.i).mp e)), symMask_ctz hl hw s.i h1]
      have e := symMask_ne k.width inp s.sym s.i
      by_cases h2 : anyEq inp s.sym s.i k.width = true ∨ s.count > 1
      · rw [if_pos h2, if_pos (h2.imp_left e.mpr)]
        rfl
      · rw [if_neg h2, if_neg (fun x => h2 (x.imp_left e.mp))]
        rfl
  · split
    · split <;> rfl
    · rfl
  · rfl
  · split
    · rw [nextMask_ctz hk]
      by_cases h0 : nextMask k inp s.i = 0
      · rw [if_pos h0, ← nextMask_ctz hk, h0, ctz_zero]
        rfl
      · rw [if_neg h0]
        cases hf : findPair inp 1 s.i (k.width - 1) 0 with
        | none =>
          rw [← nextMask_ctz hk] at hf
          exact absurd (ctz_none (nextMask_lt hk inp s.i) hf) h0
        | some b => rfl
    · rfl
  · rfl

theorem step8_symlen {σ : Type} {emit emitT : Emit σ} {W : Nat} {inp : Mem} {n : Nat}
    {s s' : ES σ} (hl : s.sym.length = 1) (h : step8 emit emitT W inp n s = .inl s') : s'.sym.length = 1 := by
  unfold step8 at h
  cases hpc : s.pc <;> rw [hpc] at h <;> dsimp only at h
  case second =>
    cases h
    unfold doEmit
    split <;> exact hl
  all_goals
    repeat' split at h
    all_goals cases h
    all_goals first | exact hl | simp

theorem run8TI_eq {σ : Type} (F : Fmt σ) (emitT : Emit σ) {k : Simd} (hk : k.vec) :
    run8TI F emitT k = run8T F emitT k.width := by
  funext inp n
  unfold run8TI run8T
  exact loop_map (fun s => s.sym.length = 1) (fun s hs => ⟨step8I_eq F.emit emitT hk inp n s hs, fun s' => step8_symlen hs⟩)
    _ _ (by simp)

theorem stepS8I_eq {σ : Type} (emit : Emit σ) (minR : Nat) (inp : Mem) (n : Nat) (s : ES σ)
    (hl : s.sym.length = 1) : stepS8I emit minR inp n s = (stepS8 emit minR inp n s).map id some := by
  unfold stepS8I stepS8
  cases hpc : s.pc
  all_goals dsimp only
  · split <;> rfl
  · have hfull : 0xFFFF = symMask 16 inp s.sym s.i ↔ _ := symMask_full (W := 16) hl s.i
    by_cases h1 : matchLen inp s.sym s.i 16 0 = 16
    · rw [if_pos h1, if_pos (hfull.mpr h1)]
      rfl
    · rw [if_neg h1, if_neg (fun e => h1 (hfull.mp e)), symMask_ctz hl (by decide) s.i h1]
      have e := symMask_ne 16 inp s.sym s.i
      by_cases h2 : anyEq inp s.sym s.i 16 = true ∨ s.count > 1
      · rw [if_pos h2, if_pos (h2.imp_left e.mpr)]
        rfl
      · rw [if_neg h2, if_neg (fun x => h2 (x.imp_left e.mp))]
        rfl
  · split
    · split <;> rfl
    · rfl
  · rfl
  · split
    · rw [symMask_find (by decide), symMask_pop (by decide)]
      have ht := symMask_top inp s.sym s.i
      cases hf : findByte inp s.sym s.i 16 0 with
      | none =>
        rw [← symMask_find (by decide)] at hf
        have := ctz_none (Nat.lt_trans (symMask_lt 16 inp s.sym s.i) (by decide)) hf
        rw [if_pos (Or.inl this)]
        rfl
      | some z =>
        have h0 : symMask 16 inp s.sym s.i ≠ 0 := by
          intro e
          rw [← symMask_find (by decide), e, ctz_zero] at hf
          cases hf
        dsimp only
        by_cases h2 : inp (s.i + 15) ≠ s.sym.getD 0 0 ∧ cntEq inp s.sym s.i 16 < minR
        · rw [if_pos h2, if_pos (Or.inr ⟨ht.mpr h2.1, h2.2⟩)]
          rfl
        · rw [if_neg h2, if_neg (fun x => x.elim h0 fun y => h2 ⟨ht.mp y.1, y.2⟩)]
          rfl
    · rfl
  · rfl

theorem stepS8_symlen {σ : Type} {emit : Emit σ} {minR : Nat} {inp : Mem} {n : Nat}
    {s s' : ES σ} (hl : s.sym.length = 1) (h : stepS8 emit minR inp n s = .inl s') : s'.sym.length = 1 := by
  have hd : (doEmit emit inp s).sym = s.sym := by
    unfold doEmit
    split <;> rfl
  unfold stepS8 at h
  cases hpc : s.pc <;> rw [hpc] at h <;> dsimp only at h
  all_goals
    repeat' split at h
    all_goals cases h
    all_goals first | exact hl | (rw [← hd] at hl; exact hl)

theorem runS8I_eq {σ : Type} (F : Fmt σ) (fs0 : Mem → Nat → σ) (minR : Nat) (sym : Mem → Nat → Byte) :
    runS8I F fs0 minR sym = runS8 F fs0 minR sym := by
  funext inp n
  unfold runS8I runS8
  exact loop_map (fun s => s.sym.length = 1) (fun s hs => ⟨stepS8I_eq F.emit minR inp n s hs, fun s' => stepS8_symlen hs⟩)
    _ _ (by simp)

theorem second_symlen {σ : Type} (emit : Emit σ) (force : Nat → Nat → List Byte) (short : Nat) (inp : Mem) (n : Nat)
    (w : WS σ) : (second emit force short inp n w).es.sym = w.es.sym := by
  unfold second
  split
  · split
    · show (doEmit emit inp w.es).sym = _
      unfold doEmit
      split <;> rfl
    · unfold wasted
      repeat' split
      all_goals rfl
  · rfl

theorem stepWI_eq {σ : Type} (emit emitT : Emit σ) (force : Nat → Nat → List Byte) (short : Nat) (inp : Mem) (n : Nat)
    (w : WS σ) (hl : w.es.sym.length = 1) :
    stepWI emit emitT force short inp n w = (stepW emit emitT force short inp n w).map id some := by
  unfold stepWI stepW
  split
  · rfl
  · rw [stepS8I_eq emitT short inp n w.es hl]
    cases stepS8 emitT short inp n w.es <;> rfl

theorem runWI_eq {σ : Type} (emit emitT : Emit σ) (force : Nat → Nat → List Byte) (short : Nat) (fs0 : Mem → Nat → σ)
    (sym : Mem → Nat → Byte) : runWI emit emitT force short fs0 sym = runW emit emitT force short fs0 sym := by
  funext inp n
  unfold runWI runW
  rw [loop_map (fun w : WS σ => w.es.sym.length = 1) (fun w hw => ⟨stepWI_eq emit emitT force short inp n w hw, fun w' h => ?_⟩)]
  · simp
  · unfold stepW at h
    split at h
    · cases h
      show (second emit force short inp n w).es.sym.length = 1
      rw [second_symlen]
      exact hw
    · split at h
      · next e he =>
        cases h
        exact stepS8_symlen hw he
      · cases h

end Hrk
