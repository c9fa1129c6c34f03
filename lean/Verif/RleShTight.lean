import Verif.ChangesSh

/-
How large a rle8_sh stream gets: coding symbol by symbol is only chosen when it pays, so that the stream grows by no more than one byte in 221.
-/

namespace Hrk

/-! ### Copies -/

theorem shSym_count (enc : Bool) (last : Byte) (st : ShSt) (x : Byte) :
    cost (shSym enc last st x).1 + (if x = last then 9 else 0) ≤ 10 := by
  by_cases h : x = last
  · unfold shSym
    rw [if_pos h, if_pos h]
    exact Nat.le_refl _
  · rw [if_neg h]
    exact shSym_cost enc last st x

theorem shSyms_count (enc : Bool) (last : Byte) : ∀ (xs : List Byte) (st : ShSt),
    cost (shSyms enc last xs st).1 + 9 * xs.count last ≤ 10 * xs.length := by
  intro xs
  induction xs with
  | nil => intro st; exact Nat.le_refl _
  | cons x xs ih =>
    intro st
    have h1 := shSym_count enc last st x
    have h2 := ih (shSym enc last st x).2
    simp only [shSyms, cost_append, List.length_cons, List.count_cons]
    by_cases h : x = last
    · rw [if_pos h] at h1
      rw [if_pos (by simpa using h)]
      omega
    · rw [if_neg h] at h1
      rw [if_neg (by simpa using h)]
      omega

theorem shEncCopy_count (last : Byte) : ∀ (fuel : Nat) (xs : List Byte) (st : ShSt), xs.length ≤ fuel →
    416 * cost (shEncCopy last fuel xs st).1 + 3744 * xs.count last ≤ 4160 * xs.length + if xs.length = 0 then 0 else 15 * xs.length + 6225 := by
  intro fuel
  induction fuel with
  | zero =>
    intro xs st h
    have : xs = [] := List.length_eq_zero_iff.mp (by omega)
    subst this
    exact Nat.le_refl _
  | succ fuel ih =>
    intro xs st h
    unfold shEncCopy
    by_cases h0 : xs.length = 0
    · have : xs = [] := List.length_eq_zero_iff.mp h0
      subst this
      exact Nat.le_refl _
    · rw [if_neg h0, if_neg h0]
      by_cases h161 : 161 < xs.length
      · rw [if_pos h161]
        simp only
        have hl : (xs.take (min 255 (xs.length - 161) + 161)).length = min 255 (xs.length - 161) + 161 := by
          rw [List.length_take]; omega
        have hc : xs.count last = (xs.take (min 255 (xs.length - 161) + 161)).count last +
            (xs.drop (min 255 (xs.length - 161) + 161)).count last := by
          rw [← List.count_append, List.take_append_drop]
        have h1 := shSyms_count true last (xs.take (min 255 (xs.length - 161) + 161)) st
        have h2 := ih (xs.drop (min 255 (xs.length - 161) + 161))
          (shSyms true last (xs.take (min 255 (xs.length - 161) + 161)) st).2 (by rw [List.length_drop]; omega)
        rw [hl] at h1
        rw [List.length_drop] at h2
        rw [hc]
        have e : ∀ (d : Byte) (o : List ShOp), cost (ShOp.bits 127 7 :: ShOp.bytes [d] :: o) = 15 + cost o := by
          intro d o
          rw [show ShOp.bits 127 7 :: ShOp.bytes [d] :: o = [ShOp.bits 127 7, ShOp.bytes [d]] ++ o from rfl, cost_append]
          rfl
        rw [e, cost_append]
        generalize (xs.take (min 255 (xs.length - 161) + 161)).count last = c1 at *
        generalize (xs.drop (min 255 (xs.length - 161) + 161)).count last = c2 at *
        split at h2 <;> omega
      · rw [if_neg h161]
        have h1 := shSyms_count false last xs st
        omega

/-- A copy that has not been coded symbol by symbol. -/
theorem shCopy_tight (last : Byte) (xs : List Byte) (st : ShSt) : 416 * cost (shCopy last xs st).1 ≤ 3343 * xs.length + 12279 := by
  unfold shCopy
  by_cases h1 : 255 + 7 < xs.length
  · rw [if_pos h1]
    simp only [cost, dataOf, bitsOf, List.flatMap_cons, List.flatMap_nil, ShOp.dataOf, ShOp.bitsOf, List.length_append,
      le32_length, patBits_length, List.length_nil]
    omega
  · rw [if_neg h1]
    by_cases h7 : 7 ≤ xs.length
    · rw [if_pos h7]
      simp only [cost, dataOf, bitsOf, List.flatMap_cons, List.flatMap_nil, ShOp.dataOf, ShOp.bitsOf, List.length_append,
        patBits_length, List.length_nil, List.length_cons]
      omega
    · rw [if_neg h7]
      have := shSyms_cost false last xs st
      omega

/-- The choice, given how often the run symbol occurs. -/
theorem shPick_tight (last : Byte) (xs : List Byte) (st : ShSt) (hn : xs.length < 4294967296) :
    416 * cost (shPick (xs.count last) last xs st).1 ≤ 3343 * xs.length + 12279 := by
  have hc : xs.count last ≤ xs.length := List.count_le_length
  unfold shPick
  by_cases h : mulU (subU xs.length (xs.count last)) 2 < mulU (xs.count last) 7
  · rw [if_pos h]
    rw [subU_eq hc hn] at h
    unfold mulU at h
    rw [Nat.mod_eq_of_lt (by omega), Nat.mod_eq_of_lt (by omega)] at h
    have h1 := shEncCopy_count last xs.length xs st (Nat.le_refl _)
    split at h1 <;> omega
  · rw [if_neg h]
    exact shCopy_tight last xs st

theorem shRun_tight (last : Byte) (c : Nat) :
    416 * cost (shRun last c) ≤ 3343 * c ∧ (15 ≤ c → 416 * cost (shRun last c) + 12279 ≤ 3343 * c) := by
  unfold shRun
  by_cases h : 255 + 14 < c
  · rw [if_pos h]
    have : cost [ShOp.bits 0b1011111 7, .bytes (le32 (c - 14)), .bytes [last]] = 47 := by generalize c - 14 = d; rfl
    omega
  · rw [if_neg h]
    by_cases h14 : 14 ≤ c
    · rw [if_pos h14]
      have : cost [ShOp.bits 0b01111 5, .bytes [b8 (c - 14)]] = 13 := by generalize c - 14 = d; rfl
      omega
    · rw [if_neg h14, zeros_cost]
      omega

/-! ### The encoder -/

/-- What has been written behind `i` bytes, and how often the run symbol occurs in what is pending. -/
def ShTight (inp : Mem) (i : Nat) (s : ShEnc) : Prop :=
  (s.wasCopy = false → 416 * cost s.ops + 3343 * s.rle ≤ 3343 * i + if s.rle ≤ 14 then 0 else 12279) ∧
  (s.wasCopy = true → 416 * cost s.ops ≤ 3343 * s.start ∧ s.symCopy = (rd inp s.start s.copy).count s.lastRle + s.rle)

theorem rd_count_succ (inp : Mem) (a k : Nat) (x : Byte) :
    (rd inp a (k + 1)).count x = (rd inp a k).count x + if inp (a + k) = x then 1 else 0 := by
  rw [rd_cat, List.count_append]
  congr 1
  by_cases h : inp (a + k) = x <;> simp [rd, h]

/-- A run of something else does not count. -/
theorem rd_count_other (inp : Mem) (a : Nat) {x y : Byte} (hxy : y ≠ x) : ∀ c k, c ≤ k → (∀ j, a + k - c ≤ j → j < a + k → inp j = y) →
    (rd inp a k).count x = (rd inp a (k - c)).count x := by
  intro c
  induction c with
  | zero => intros; rfl
  | succ c ih =>
    intro k hk h
    obtain ⟨m, rfl⟩ : ∃ m, k = m + 1 := ⟨k - 1, by omega⟩
    rw [rd_count_succ, h (a + m) (by omega) (by omega), if_neg hxy, ih m (by omega) (fun j h1 h2 => h j (by omega) (by omega)),
      show m + 1 - (c + 1) = m - c by omega]
    rfl

/-- The pending bytes are what has not been covered. -/
theorem ShInv.pending {inp : Mem} {i : Nat} {s : ShEnc} (H : ShInv inp i s) (hw : s.wasCopy = true) : s.start + s.copy + s.rle = i := by
  cases H with
  | run c cov hw' => rw [hw] at hw'; cases hw'
  | copy cov hw' hs hi hrl => omega
  | both cov hw' hs hi => exact hi

theorem shSame1_tight {inp : Mem} {i : Nat} {s : ShEnc} (hn : i < 4294967296) (H : ShInv inp i s) (hp : ShPhase inp i s)
    (hx : inp i = s.lastRle) (hs : s.same = false) (T : ShTight inp i s) : ShTight inp (i + 1) (shSame1 inp (inp i) s) := by
  have hcl := H.copy_le
  rcases hp with ⟨rfl, rfl⟩ | ⟨h0, h1, _⟩ | ⟨h0, h1, h2, h3, h4, h5, h6, h7⟩
  · refine ⟨fun _ => ?_, fun h => nomatch h⟩
    show 416 * 0 + 3343 * 1 ≤ 3343 * 1 + 0
    omega
  · rw [hs] at h1; cases h1
  · obtain ⟨t1, t2⟩ := T.2 h2
    have hpend := H.pending h2
    unfold shSame1
    by_cases h10 : 10 ≤ s.change
    · rw [if_pos h10, subU_eq h6 (by omega)]
      refine ⟨fun h => ?_, fun _ => ⟨?_, ?_⟩⟩
      · have h : s.wasCopy = false := h
        rw [h2] at h; cases h
      · have hc := shCopy_tight s.lastRle (rd inp s.start (s.copy - s.change)) s.st
        rw [rd_length] at hc
        simp only [cost_append, shChange_cost]
        omega
      · show 0 = (rd inp (s.start + s.copy) 1).count s.lastSym + 0
        rw [show (1 : Nat) = 0 + 1 from rfl, rd_count_succ, rd_zero, show s.start + s.copy + 0 = i by omega, hx, if_neg (fun e => h4 e.symm)]
        rfl
    · rw [if_neg h10]
      refine ⟨fun h => ?_, fun _ => ⟨t1, ?_⟩⟩
      · have h : s.wasCopy = false := h
        rw [h2] at h; cases h
      · show s.symCopy + 1 = (rd inp s.start s.copy).count s.lastRle + 1
        omega

theorem shSame2_tight {inp : Mem} {i : Nat} {s : ShEnc} (hn : i < 4294967296) (H : ShInv inp i s) (hp : ShPhase inp i s)
    (hs : s.same = true) (T : ShTight inp i s) : ShTight inp (i + 1) (shSame2 inp (inp i) s) := by
  have hcl := H.copy_le
  rcases hp with ⟨rfl, rfl⟩ | ⟨h0, h1, h2, h3, h4, h5, h6⟩ | ⟨h0, h1, _⟩
  · cases hs
  · unfold shSame2
    by_cases h14 : 14 < s.rle + 1
    · rw [if_pos h14]
      refine ⟨fun _ => ?_, fun h => nomatch h⟩
      unfold ShEnc.flush
      simp only [cost_append]
      rw [if_neg (by omega)]
      by_cases hw : s.wasCopy = true
      · obtain ⟨t1, t2⟩ := T.2 hw
        have hpend := H.pending hw
        have hsub : subU (s.symCopy + 1) (s.rle + 1) = (rd inp s.start s.copy).count s.lastRle := by
          have hle : (rd inp s.start s.copy).count s.lastRle ≤ (rd inp s.start s.copy).length := List.count_le_length
          rw [rd_length] at hle
          unfold subU
          omega
        rw [hsub]
        have hc := shPick_tight s.lastRle (rd inp s.start s.copy) s.st (by rw [rd_length]; omega)
        rw [rd_length] at hc
        omega
      · have hw : s.wasCopy = false := by simpa using hw
        have t := T.1 hw
        have hc := (shPick_emits (subU (s.symCopy + 1) (s.rle + 1)) s.lastRle (rd inp s.start s.copy) s.st (by rw [rd_length]; omega)).2
        rw [rd_length] at hc
        have hc0 : s.copy = 0 := by
          cases H with
          | run c cov hw hc => exact hc
          | copy cov hw' => rw [hw] at hw'; cases hw'
          | both cov hw' => rw [hw] at hw'; cases hw'
        split at t <;> omega
    · rw [if_neg h14]
      refine ⟨fun h => ?_, fun h => ?_⟩
      · have t := T.1 h
        rw [if_pos (by omega)] at t
        show 416 * cost s.ops + 3343 * (s.rle + 1) ≤ 3343 * (i + 1) + if s.rle + 1 ≤ 14 then 0 else 12279
        rw [if_pos (by omega)]
        omega
      · obtain ⟨t1, t2⟩ := T.2 h
        refine ⟨t1, ?_⟩
        show s.symCopy + 1 = (rd inp s.start s.copy).count s.lastRle + (s.rle + 1)
        omega
  · rw [hs] at h1; cases h1

theorem shOther_tight {inp : Mem} {i : Nat} {s : ShEnc} (hn : i < 4294967296) (H : ShInv inp i s) (hp : ShPhase inp i s)
    (hx : inp i ≠ s.lastRle) (T : ShTight inp i s) : ShTight inp (i + 1) (shCount i (shTrack inp (inp i) (shMerge s))) := by
  have hcl := H.copy_le
  rcases hp with ⟨rfl, rfl⟩ | ⟨h0, h1, h2, h3, h4, h5, h6⟩ | ⟨h0, h1, h2, h3, h4, h5, h6, h7⟩
  · have hm : shMerge shInit = shInit := rfl
    rw [hm]
    have hone : (rd inp 0 1).count shInit.lastRle = 0 := by
      rw [show (1 : Nat) = 0 + 1 from rfl, rd_count_succ, rd_zero, if_neg hx]; rfl
    unfold shTrack
    by_cases h : inp 0 = shInit.lastSym
    · rw [if_pos h]
      refine ⟨fun h => (nomatch h), fun _ => ⟨Nat.le_refl _, ?_⟩⟩
      show 0 = (rd inp 0 1).count shInit.lastRle + 0
      rw [hone]
    · rw [if_neg h, if_neg (by show ¬ 10 ≤ 0; omega)]
      refine ⟨fun h => (nomatch h), fun _ => ⟨Nat.le_refl _, ?_⟩⟩
      show 0 = (rd inp 0 1).count shInit.lastRle + 0
      rw [hone]
  · by_cases hw : s.wasCopy = true
    · obtain ⟨t1, t2⟩ := T.2 hw
      have hpend := H.pending hw
      have hm : shMerge s = { s with same := false, copy := s.copy + s.rle, rle := 0 } := if_pos ⟨h1, hw⟩
      rw [hm]
      unfold shTrack
      rw [if_neg (by show inp i ≠ s.lastSym; rw [h2]; exact hx), if_neg (by show ¬ 10 ≤ s.change; omega)]
      unfold shCount
      rw [if_neg (by show s.wasCopy ≠ false; rw [hw]; exact Bool.noConfusion)]
      refine ⟨fun h => ?_, fun _ => ⟨t1, ?_⟩⟩
      · have h : s.wasCopy = false := h
        rw [hw] at h; cases h
      · show s.symCopy = (rd inp s.start (s.copy + s.rle + 1)).count s.lastRle + 0
        rw [rd_count_succ, show s.start + (s.copy + s.rle) = i by omega, if_neg hx, rd_cat, List.count_append]
        have hrun : rd inp (s.start + s.copy) s.rle = List.replicate s.rle s.lastRle := by
          refine rd_replicate ?_
          cases H with
          | run c cov hw' => rw [hw] at hw'; cases hw'
          | copy cov hw' hs => rw [h1] at hs; cases hs
          | both cov hw' hs hi hch hr => exact fun j a b => hr j a (by omega)
        rw [hrun, List.count_replicate_self]
        omega
    · have hw : s.wasCopy = false := by simpa using hw
      have t := T.1 hw
      rw [shMerge_run hw]
      unfold shTrack
      rw [if_neg (by rw [h2]; exact hx), if_neg (by omega)]
      unfold shCount
      rw [if_pos hw]
      refine ⟨fun h => (nomatch h), fun _ => ⟨?_, ?_⟩⟩
      · obtain ⟨r1, r2⟩ := shRun_tight s.lastRle s.rle
        simp only [cost_append]
        split at t <;> omega
      · show 0 = (rd inp i 1).count s.lastRle + 0
        rw [show (1 : Nat) = 0 + 1 from rfl, rd_count_succ, rd_zero, Nat.add_zero i, if_neg hx]
        rfl
  · obtain ⟨t1, t2⟩ := T.2 h2
    have hpend := H.pending h2
    have hm : shMerge s = s := if_neg (by rw [h1]; simp)
    rw [hm]
    unfold shTrack
    have hstep : (rd inp s.start (s.copy + 1)).count s.lastRle = (rd inp s.start s.copy).count s.lastRle := by
      rw [rd_count_succ, show s.start + s.copy = i by omega, if_neg hx]
      rfl
    by_cases hl : inp i = s.lastSym
    · rw [if_pos hl]
      unfold shCount
      rw [if_neg (by show s.wasCopy ≠ false; rw [h2]; exact Bool.noConfusion)]
      refine ⟨fun h => ?_, fun _ => ⟨t1, ?_⟩⟩
      · have h : s.wasCopy = false := h
        rw [h2] at h; cases h
      · show s.symCopy = (rd inp s.start (s.copy + 1)).count s.lastRle + s.rle
        rw [hstep]; exact t2
    · rw [if_neg hl]
      by_cases h10 : 10 ≤ s.change
      · have hcount : s.symCopy = (rd inp s.start (s.copy - s.change)).count s.lastRle := by
          rw [← rd_count_other inp s.start h4 s.change s.copy h6]
          · omega
          · cases H with
            | run c cov hw' => rw [h2] at hw'; cases hw'
            | copy cov hw' hs hi hrl hch hr => exact fun j a b => hr j (by omega) (by omega)
            | both cov hw' hs => rw [h1] at hs; cases hs
        rw [if_pos h10, subU_eq h6 (by omega), hcount]
        have hc := shPick_tight s.lastRle (rd inp s.start (s.copy - s.change)) s.st (by rw [rd_length]; omega)
        rw [rd_length] at hc
        generalize shPick (List.count s.lastRle (rd inp s.start (s.copy - s.change))) s.lastRle (rd inp s.start (s.copy - s.change)) s.st = r at *
        unfold shCount ShEnc.turn
        rw [if_neg (by show s.wasCopy ≠ false; rw [h2]; exact Bool.noConfusion)]
        refine ⟨fun h => ?_, fun _ => ⟨?_, ?_⟩⟩
        · have h : s.wasCopy = false := h
          rw [h2] at h; cases h
        · simp only [cost_append, shChange_cost]
          omega
        · show 0 = (rd inp (s.start + s.copy) (0 + 1)).count s.lastSym + s.rle
          rw [rd_count_succ, rd_zero, show s.start + s.copy + 0 = i by omega, if_neg hl, h7]
          rfl
      · rw [if_neg h10]
        unfold shCount
        rw [if_neg (by show s.wasCopy ≠ false; rw [h2]; exact Bool.noConfusion)]
        refine ⟨fun h => ?_, fun _ => ⟨t1, ?_⟩⟩
        · have h : s.wasCopy = false := h
          rw [h2] at h; cases h
        · show s.symCopy = (rd inp s.start (s.copy + 1)).count s.lastRle + s.rle
          rw [hstep]; exact t2

theorem shLoopE_tight (inp : Mem) : ∀ n, n ≤ 4294967296 → ShTight inp n (shLoopE inp n) := by
  intro n
  induction n with
  | zero =>
    intro _
    exact ⟨fun _ => Nat.le_refl _, fun h => by cases h⟩
  | succ n ih =>
    intro hn
    have T := ih (by omega)
    have H := shLoopE_inv inp n (by omega)
    have hp := (shLoopE_due inp n (by omega)).1
    rw [shLoopE]
    unfold shStepE
    by_cases hx : inp n = (shLoopE inp n).lastRle
    · rw [if_pos hx]
      by_cases hs : (shLoopE inp n).same = false
      · rw [if_pos hs]
        exact shSame1_tight (by omega) H hp hx hs T
      · rw [if_neg hs]
        exact shSame2_tight (by omega) H hp (by simpa using hs) T
    · rw [if_neg hx]
      exact shOther_tight (by omega) H hp hx T

theorem shBody_tight (inp : Mem) {n : Nat} (hn : n < 4294967296) : 416 * cost (shBody inp n) ≤ 3343 * n + 12279 := by
  have T := shLoopE_tight inp n (by omega)
  have H := shLoopE_inv inp n (by omega)
  unfold shBody
  simp only
  rw [cost_append]
  generalize shLoopE inp n = s at *
  by_cases hw : s.wasCopy = true
  · rw [if_pos hw]
    obtain ⟨t1, t2⟩ := T.2 hw
    obtain ⟨_, _, _, hi, _, _, _, _, _⟩ := shMerge_inv H hw
    have hc := shCopy_tight (shMerge s).lastRle (rd inp (shMerge s).start (shMerge s).copy) (shMerge s).st
    rw [rd_length] at hc
    have hst : (shMerge s).start = s.start := by unfold shMerge; split <;> rfl
    omega
  · rw [if_neg hw]
    have t := T.1 (by simpa using hw)
    obtain ⟨r1, r2⟩ := shRun_tight s.lastRle s.rle
    split at t <;> omega

theorem shSize_tight (inp : Mem) {n : Nat} (hn : n < 4294967296) : shSize inp n ≤ n + n / 221 + 18 := by
  have hb := shBody_tight inp hn
  unfold cost at hb
  unfold shSize shData shBitsE
  rw [List.length_append, List.length_append, le32_length, patBits_length]
  omega

/-! ### C20 -/

/-- C20 for `rle8_sh_compress`, as far as it holds: with room for one byte more in 221 and 18 bytes compression succeeds, the output is
that small, and nothing is written out of bounds. Missing: neither the size the compressor asks for nor `rle8_sh_bounds` is enough, see
`C20_sh_violated`, which also shows that the 18 bytes are needed. -/
theorem C20_sh_partial (m0 inp : Mem) (n outSize : Nat) (h0 : 0 < n) (hn : n ≤ maxInput)
    (hs : n + n / 221 + 18 ≤ outSize) (ho : outSize < 4294967296) :
    ∃ out, shCompress m0 (some inp) n true outSize = .ok out.length out ∧ out.length ≤ n + n / 221 + 18 := by
  unfold maxInput at hn
  have h1 := shSize_tight inp (show n < 4294967296 by omega)
  have hb : mmBounds n ≤ outSize := by unfold mmBounds; rw [if_neg (by omega)]; omega
  refine ⟨shStream inp n, ?_, ?_⟩
  · rw [shCompress_eq m0 inp h0 hb ho, if_pos (by omega), shStream_length]
  · rw [shStream_length]; exact h1

/-- A million bytes fit into 1 004 542 bytes, whatever they are. -/
example (m0 inp : Mem) : ∃ out, shCompress m0 (some inp) 1000000 true 1004542 = .ok out.length out ∧ out.length ≤ 1004542 :=
  C20_sh_partial m0 inp 1000000 1004542 (by decide) (by decide) (by decide) (by decide)

end Hrk
