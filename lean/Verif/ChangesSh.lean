import Verif.RleShApi
import Verif.ChangesLow

/-
The size of a rle8_sh stream: every run but the last one is found.
-/

namespace Hrk

theorem ShInv.copy_le {inp : Mem} {i : Nat} {s : ShEnc} (H : ShInv inp i s) : s.copy ≤ i := by
  cases H with
  | run c cov hw hc => omega
  | copy cov hw hs hi => omega
  | both cov hw hs hi => omega

/-- Bits of a pending run of the run symbol. -/
def shRunDue (c : Nat) : Nat := if c = 0 then 0 else if c ≤ 14 then 154 else 47

theorem shRun_due (last : Byte) {c : Nat} (hn : c < 4294967296) : cost (shRun last c) ≤ shRunDue c := by
  have h11 := (shRun_emits last shSt0 c hn).2
  unfold shRunDue
  by_cases h0 : c = 0
  · rw [if_pos h0]; omega
  · rw [if_neg h0]
    by_cases h14 : c ≤ 14
    · rw [if_pos h14]; omega
    · rw [if_neg h14]
      unfold shRun
      by_cases h : 255 + 14 < c
      · rw [if_pos h]; generalize c - 14 = d; exact Nat.le_refl 47
      · rw [if_neg h, if_pos (by omega)]
        generalize c - 14 = d
        show 13 ≤ 47
        omega

/-- Bits the stream takes so far, with what is still due for the run that is going on. -/
def shDue (s : ShEnc) : Nat := cost s.ops + 11 * (s.copy - s.change) + (if s.change = 0 then 0 else 100) + shRunDue s.rle

/-- Where the encoder is behind `i` bytes. -/
def ShPhase (inp : Mem) (i : Nat) (s : ShEnc) : Prop :=
  (i = 0 ∧ s = shInit) ∨
  (0 < i ∧ s.same = true ∧ s.lastSym = s.lastRle ∧ inp (i - 1) = s.lastRle ∧ 1 ≤ s.rle ∧ s.change = 0 ∧ (15 ≤ s.rle → s.wasCopy = false)) ∨
  (0 < i ∧ s.same = false ∧ s.wasCopy = true ∧ inp (i - 1) = s.lastSym ∧ s.lastSym ≠ s.lastRle ∧ 1 ≤ s.change ∧ s.change ≤ s.copy ∧
    s.rle = 0)

/-- The number of runs before `i`. -/
def runsTo (inp : Mem) (i : Nat) : Nat := if i = 0 then 0 else changes 1 inp i + 1

theorem runsTo_succ (inp : Mem) {i : Nat} (h : 0 < i) : runsTo inp (i + 1) = runsTo inp i + if inp (i - 1) = inp i then 0 else 1 := by
  obtain ⟨j, rfl⟩ : ∃ j, i = j + 1 := ⟨i - 1, by omega⟩
  unfold runsTo
  rw [if_neg (by omega), if_neg (by omega), changes_succ, show j + 1 - 1 = j by omega]
  omega

theorem shSame1_due {inp : Mem} {i : Nat} {s : ShEnc} (hn : i < 4294967296) (hcl : s.copy ≤ i) (hp : ShPhase inp i s)
    (hx : inp i = s.lastRle) (hs : s.same = false) :
    ShPhase inp (i + 1) (shSame1 inp (inp i) s) ∧ shDue (shSame1 inp (inp i) s) + 154 * runsTo inp i ≤ shDue s + 154 * runsTo inp (i + 1) := by
  rcases hp with ⟨rfl, rfl⟩ | ⟨h0, h1, _⟩ | ⟨h0, h1, h2, h3, h4, h5, h6, h7⟩
  · have hd : shDue (shSame1 inp (inp 0) shInit) = 154 ∧ shDue shInit = 0 := ⟨rfl, rfl⟩
    refine ⟨Or.inr (Or.inl ⟨by omega, rfl, hx, hx, Nat.le_refl _, rfl, fun h => absurd h (by show ¬ 15 ≤ 1; omega)⟩), ?_⟩
    rw [hd.1, hd.2]
    show 154 + 154 * 0 ≤ 0 + 154 * (changes 1 inp 1 + 1)
    omega
  · rw [hs] at h1; cases h1
  · have hr : runsTo inp (i + 1) = runsTo inp i + 1 := by
      rw [runsTo_succ inp h0, if_neg]
      rw [h3, hx]; exact h4
    rw [hr]
    unfold shSame1
    by_cases h10 : 10 ≤ s.change
    · rw [if_pos h10, subU_eq h6 (by omega)]
      have hc := (shCopy_emits s.lastRle (rd inp s.start (s.copy - s.change)) s.st (by rw [rd_length]; omega)).2
      rw [rd_length] at hc
      have hg := shChange_cost s.lastSym s.change
      generalize shCopy s.lastRle (rd inp s.start (s.copy - s.change)) s.st = r at *
      generalize shChange s.lastSym s.change = g at *
      refine ⟨Or.inr (Or.inr ⟨by omega, rfl, h2, rfl, ?_, Nat.le_refl _, Nat.le_refl _, rfl⟩), ?_⟩
      · show inp i ≠ s.lastSym
        rw [hx]; exact fun e => h4 e.symm
      · unfold shDue
        simp only [cost_append, hg]
        rw [if_neg (show ¬ s.change = 0 by omega), if_neg (show ¬ 1 = 0 by omega), h7]
        omega
    · rw [if_neg h10]
      refine ⟨Or.inr (Or.inl ⟨by omega, rfl, hx, hx, Nat.le_refl _, rfl, fun h => absurd h (by show ¬ 15 ≤ 1; omega)⟩), ?_⟩
      unfold shDue
      simp only
      rw [if_neg (show ¬ s.change = 0 by omega), if_true, h7]
      have : shRunDue 1 = 154 := rfl
      have e0 : shRunDue 0 = 0 := rfl
      omega

theorem flush_due {inp : Mem} {i : Nat} {s : ShEnc} {r : List ShOp × ShSt} (hc : cost r.1 ≤ 11 * s.copy) (hx : inp i = s.lastRle)
    (h5 : s.change = 0) (h14 : 14 ≤ s.rle) :
    ShPhase inp (i + 1) (s.flush (inp i) r) ∧ shDue (s.flush (inp i) r) ≤ shDue s := by
  refine ⟨Or.inr (Or.inl ⟨by omega, rfl, hx, hx, by show 1 ≤ s.rle + 1; omega, h5, fun _ => rfl⟩), ?_⟩
  unfold ShEnc.flush shDue
  simp only [cost_append]
  rw [h5]
  have e1 : shRunDue (s.rle + 1) = 47 := by unfold shRunDue; rw [if_neg (by omega), if_neg (by omega)]
  have e2 : 47 ≤ shRunDue s.rle := by unfold shRunDue; rw [if_neg (by omega)]; split <;> omega
  simp only [if_true]
  omega

theorem more_due {inp : Mem} {i : Nat} {s : ShEnc} (hs : s.same = true) (h2 : s.lastSym = s.lastRle) (hx : inp i = s.lastRle)
    (h4 : 1 ≤ s.rle) (h5 : s.change = 0) (h14 : s.rle + 1 ≤ 14) :
    ShPhase inp (i + 1) { s with rle := s.rle + 1, symCopy := s.symCopy + 1 } ∧
      shDue { s with rle := s.rle + 1, symCopy := s.symCopy + 1 } ≤ shDue s := by
  refine ⟨Or.inr (Or.inl ⟨by omega, hs, h2, hx, by show 1 ≤ s.rle + 1; omega, h5, fun h => ?_⟩), ?_⟩
  · have h : 15 ≤ s.rle + 1 := h; omega
  · unfold shDue
    simp only
    have e1 : shRunDue (s.rle + 1) = 154 := by unfold shRunDue; rw [if_neg (by omega), if_pos (by omega)]
    have e2 : shRunDue s.rle = 154 := by unfold shRunDue; rw [if_neg (by omega), if_pos (by omega)]
    omega

theorem shSame2_due {inp : Mem} {i : Nat} {s : ShEnc} (hn : i < 4294967296) (hcl : s.copy ≤ i) (hp : ShPhase inp i s)
    (hx : inp i = s.lastRle) (hs : s.same = true) :
    ShPhase inp (i + 1) (shSame2 inp (inp i) s) ∧ shDue (shSame2 inp (inp i) s) + 154 * runsTo inp i ≤ shDue s + 154 * runsTo inp (i + 1) := by
  rcases hp with ⟨_, h1⟩ | ⟨h0, h1, h2, h3, h4, h5, h6⟩ | ⟨h0, h1, _⟩
  · rw [h1] at hs; cases hs
  · have hr : runsTo inp (i + 1) = runsTo inp i := by
      rw [runsTo_succ inp h0, if_pos (by rw [h3, hx]), Nat.add_zero]
    rw [hr]
    by_cases h14 : 14 < s.rle + 1
    · have hc := (shPick_emits (subU (s.symCopy + 1) (s.rle + 1)) s.lastRle (rd inp s.start s.copy) s.st (by rw [rd_length]; omega)).2
      rw [rd_length] at hc
      have he : shSame2 inp (inp i) s =
          s.flush (inp i) (shPick (subU (s.symCopy + 1) (s.rle + 1)) s.lastRle (rd inp s.start s.copy) s.st) := if_pos h14
      rw [he]
      obtain ⟨g1, g2⟩ := flush_due (inp := inp) (i := i) hc hx h5 (by omega)
      exact ⟨g1, by omega⟩
    · have he : shSame2 inp (inp i) s = { s with rle := s.rle + 1, symCopy := s.symCopy + 1 } := if_neg h14
      rw [he]
      obtain ⟨g1, g2⟩ := more_due (inp := inp) (i := i) hs h2 hx h4 h5 (by omega)
      exact ⟨g1, by omega⟩
  · rw [hs] at h1; cases h1

theorem shOther_due {inp : Mem} {i : Nat} {s : ShEnc} (hn : i < 4294967296) (H : ShInv inp i s) (hp : ShPhase inp i s)
    (hx : inp i ≠ s.lastRle) :
    ShPhase inp (i + 1) (shCount i (shTrack inp (inp i) (shMerge s))) ∧
      shDue (shCount i (shTrack inp (inp i) (shMerge s))) + 154 * runsTo inp i ≤ shDue s + 154 * runsTo inp (i + 1) := by
  have hcl := H.copy_le
  rcases hp with ⟨rfl, rfl⟩ | ⟨h0, h1, h2, h3, h4, h5, h6⟩ | ⟨h0, h1, h2, h3, h4, h5, h6, h7⟩
  · have hm : shMerge shInit = shInit := rfl
    have hd0 : shDue shInit = 0 := rfl
    have hr : runsTo inp (0 + 1) = changes 1 inp 1 + 1 := rfl
    have hr0 : runsTo inp 0 = 0 := rfl
    rw [hm, hr, hr0, hd0]
    unfold shTrack
    by_cases h : inp 0 = shInit.lastSym
    · rw [if_pos h]
      refine ⟨Or.inr (Or.inr ⟨by omega, rfl, rfl, h, ?_, Nat.le_refl _, Nat.le_refl _, rfl⟩), ?_⟩
      · show shInit.lastSym ≠ shInit.lastRle
        rw [← h]; exact hx
      · have hd : shDue (shCount 0 { shInit with change := shInit.change + 1 }) = 100 := rfl
        rw [hd]; omega
    · rw [if_neg h, if_neg (by show ¬ 10 ≤ 0; omega)]
      refine ⟨Or.inr (Or.inr ⟨by omega, rfl, rfl, rfl, hx, Nat.le_refl _, Nat.le_refl _, rfl⟩), ?_⟩
      have hd : shDue (shCount 0 { shInit with change := 1, lastSym := inp 0 }) = 100 := rfl
      rw [hd]; omega
  · have hr : runsTo inp (i + 1) = runsTo inp i + 1 := by
      rw [runsTo_succ inp h0, if_neg]
      rw [h3]; exact fun e => hx e.symm
    rw [hr]
    by_cases hw : s.wasCopy = true
    · have hrle : s.rle ≤ 14 := by
        apply Classical.byContradiction
        intro h
        have := h6 (by omega)
        rw [hw] at this; cases this
      have hm : shMerge s = { s with same := false, copy := s.copy + s.rle, rle := 0 } := if_pos ⟨h1, hw⟩
      rw [hm]
      unfold shTrack
      rw [if_neg (by show inp i ≠ s.lastSym; rw [h2]; exact hx), if_neg (by show ¬ 10 ≤ s.change; omega)]
      unfold shCount
      rw [if_neg (by show s.wasCopy ≠ false; rw [hw]; exact Bool.noConfusion)]
      refine ⟨Or.inr (Or.inr ⟨by omega, rfl, hw, rfl, hx, Nat.le_refl _, by show 1 ≤ s.copy + s.rle + 1; omega, rfl⟩), ?_⟩
      unfold shDue
      simp only
      have e2 : shRunDue s.rle = 154 := by unfold shRunDue; rw [if_neg (by omega), if_pos (by omega)]
      have e1 : shRunDue 0 = 0 := rfl
      rw [if_neg (by omega), h5, if_pos rfl, e1, e2]
      omega
    · have hw : s.wasCopy = false := by simpa using hw
      rw [shMerge_run hw]
      unfold shTrack
      rw [if_neg (by rw [h2]; exact hx), if_neg (by omega)]
      unfold shCount
      rw [if_pos hw]
      refine ⟨Or.inr (Or.inr ⟨by omega, rfl, rfl, rfl, hx, Nat.le_refl _, Nat.le_refl _, rfl⟩), ?_⟩
      have hrl : s.rle < 4294967296 := by
        cases H with
        | run c cov hw hc hch hi => omega
        | copy cov hw' => rw [hw] at hw'; cases hw'
        | both cov hw' => rw [hw] at hw'; cases hw'
      have hc := shRun_due s.lastRle hrl
      unfold shDue
      simp only [cost_append]
      have e1 : shRunDue 0 = 0 := rfl
      rw [if_neg (by omega), h5, if_pos rfl, e1]
      omega
  · have hm : shMerge s = s := if_neg (by rw [h1]; simp)
    rw [hm]
    unfold shTrack
    by_cases hl : inp i = s.lastSym
    · have hr : runsTo inp (i + 1) = runsTo inp i := by
        rw [runsTo_succ inp h0, if_pos (by rw [h3, hl]), Nat.add_zero]
      rw [hr, if_pos hl]
      unfold shCount
      rw [if_neg (by show s.wasCopy ≠ false; rw [h2]; exact Bool.noConfusion)]
      refine ⟨Or.inr (Or.inr ⟨by omega, h1, h2, hl, h4, by show 1 ≤ s.change + 1; omega, by show s.change + 1 ≤ s.copy + 1; omega, h7⟩), ?_⟩
      unfold shDue
      simp only
      rw [if_neg (by omega), if_neg (by omega)]
      omega
    · have hr : runsTo inp (i + 1) = runsTo inp i + 1 := by
        rw [runsTo_succ inp h0, if_neg]
        rw [h3]; exact fun e => hl e.symm
      rw [hr, if_neg hl]
      by_cases h10 : 10 ≤ s.change
      · rw [if_pos h10, subU_eq h6 (by omega)]
        have hc := (shPick_emits s.symCopy s.lastRle (rd inp s.start (s.copy - s.change)) s.st (by rw [rd_length]; omega)).2
        rw [rd_length] at hc
        generalize shPick s.symCopy s.lastRle (rd inp s.start (s.copy - s.change)) s.st = r at *
        unfold shCount ShEnc.turn
        have hg := shChange_cost s.lastSym s.change
        generalize shChange s.lastSym s.change = g at *
        rw [if_neg (by show s.wasCopy ≠ false; rw [h2]; exact Bool.noConfusion)]
        refine ⟨Or.inr (Or.inr ⟨by omega, h1, h2, rfl, hl, Nat.le_refl _, Nat.le_refl _, h7⟩), ?_⟩
        unfold shDue
        simp only [cost_append, hg]
        rw [if_neg (by omega), if_neg (by omega)]
        omega
      · rw [if_neg h10]
        unfold shCount
        rw [if_neg (by show s.wasCopy ≠ false; rw [h2]; exact Bool.noConfusion)]
        refine ⟨Or.inr (Or.inr ⟨by omega, h1, h2, rfl, hx, Nat.le_refl _, by show 1 ≤ s.copy + 1; omega, h7⟩), ?_⟩
        unfold shDue
        simp only
        rw [if_neg (by omega), if_neg (by omega)]
        omega

theorem shLoopE_due (inp : Mem) : ∀ n, n ≤ 4294967296 →
    ShPhase inp n (shLoopE inp n) ∧ shDue (shLoopE inp n) ≤ 154 * runsTo inp n := by
  intro n
  induction n with
  | zero => intro _; exact ⟨Or.inl ⟨rfl, rfl⟩, Nat.zero_le _⟩
  | succ n ih =>
    intro hn
    obtain ⟨hp, hd⟩ := ih (by omega)
    have H := shLoopE_inv inp n (by omega)
    rw [shLoopE]
    unfold shStepE
    by_cases hx : inp n = (shLoopE inp n).lastRle
    · rw [if_pos hx]
      by_cases hs : (shLoopE inp n).same = false
      · rw [if_pos hs]
        obtain ⟨g1, g2⟩ := shSame1_due (by omega) H.copy_le hp hx hs
        exact ⟨g1, by omega⟩
      · rw [if_neg hs]
        obtain ⟨g1, g2⟩ := shSame2_due (by omega) H.copy_le hp hx (by simpa using hs)
        exact ⟨g1, by omega⟩
    · rw [if_neg hx]
      obtain ⟨g1, g2⟩ := shOther_due (by omega) H hp hx
      exact ⟨g1, by omega⟩

theorem shCopy_cost8 (last : Byte) (xs : List Byte) (st : ShSt) : cost (shCopy last xs st).1 ≤ 8 * xs.length + 39 := by
  unfold shCopy
  by_cases h1 : 255 + 7 < xs.length
  · rw [if_pos h1]
    simp only [cost, dataOf, bitsOf, List.flatMap_cons, List.flatMap_nil, ShOp.dataOf, ShOp.bitsOf, List.length_append,
      le32_length, patBits_length, List.length_nil]
    omega
  · rw [if_neg h1]
    by_cases h7 : 7 ≤ xs.length
    · rw [if_pos h7]
      simp only [cost, dataOf, bitsOf, List.flatMap_cons, List.flatMap_nil, ShOp.dataOf, ShOp.bitsOf, List.length_append,
        patBits_length, List.length_nil, List.length_cons]
      omega
    · rw [if_neg h7]
      have := shSyms_cost false last xs st
      omega

/-- Bytes that are all `s` are a run of `s`. -/
theorem curRun_ge {inp : Mem} {x : Byte} : ∀ (c i : Nat), c ≤ i → (∀ j, i - c ≤ j → j < i → inp j = x) → c ≤ curRun inp x.toNat i := by
  intro c
  induction c with
  | zero => intros; exact Nat.zero_le _
  | succ c ih =>
    intro i hc h
    obtain ⟨k, rfl⟩ : ∃ k, i = k + 1 := ⟨i - 1, by omega⟩
    have h1 := ih k (by omega) (fun j h1 h2 => h j (by omega) (by omega))
    rw [curRun_succ, if_pos (by rw [h k (by omega) (by omega)])]
    omega

theorem shBody_changes (inp : Mem) {n : Nat} (h0 : 0 < n) (hn : n < 4294967296) :
    cost (shBody inp n) ≤ 154 * (changes 1 inp n + 1) + 8 * curRun inp (inp (n - 1)).toNat n + 39 := by
  obtain ⟨hp, hd⟩ := shLoopE_due inp n (by omega)
  have H := shLoopE_inv inp n (by omega)
  have hr : runsTo inp n = changes 1 inp n + 1 := if_neg (by omega)
  rw [hr] at hd
  unfold shBody
  simp only
  rw [cost_append]
  generalize shLoopE inp n = s at *
  unfold shDue at hd
  by_cases hw : s.wasCopy = true
  · rw [if_pos hw]
    have hc := shCopy_cost8 (shMerge s).lastRle (rd inp (shMerge s).start (shMerge s).copy) (shMerge s).st
    rw [rd_length] at hc
    rcases hp with ⟨rfl, _⟩ | ⟨_, h1, h2, h3, h4, h5, h6⟩ | ⟨_, h1, h2, h3, h4, h5, h6, h7⟩
    · omega
    · have hrle : s.rle ≤ 14 := by
        apply Classical.byContradiction
        intro h
        have := h6 (by omega)
        rw [hw] at this; cases this
      have hm : (shMerge s).copy = s.copy + s.rle := by
        unfold shMerge; rw [if_pos ⟨h1, hw⟩]
      have e2 : shRunDue s.rle = 154 := by unfold shRunDue; rw [if_neg (by omega), if_pos (by omega)]
      omega
    · have hm : (shMerge s).copy = s.copy := by
        unfold shMerge; rw [if_neg (by rw [h1]; simp)]
      have hrun : s.change ≤ curRun inp (inp (n - 1)).toNat n := by
        rw [h3]
        refine curRun_ge _ _ (by have := H.copy_le; omega) ?_
        cases H with
        | run c cov hw' => rw [hw] at hw'; cases hw'
        | copy cov hw' hs hi hrl hch hr => exact hr
        | both cov hw' hs => rw [h1] at hs; cases hs
      omega
  · rw [if_neg hw]
    have hw : s.wasCopy = false := by simpa using hw
    have hrl : s.rle < 4294967296 := by
      cases H with
      | run c cov hw hc hch hi => omega
      | copy cov hw' => rw [hw] at hw'; cases hw'
      | both cov hw' => rw [hw] at hw'; cases hw'
    have hc := shRun_due s.lastRle hrl
    omega

/-! ### C48 -/

/-- C48 for `rle8_sh_compress`, as far as it holds: at most 20 bytes for every change, and the last run. Missing: the last run, which
is copied byte by byte unless its symbol happens to be the current run symbol, see `C48_sh_violated`. -/
theorem C48_sh_partial (m0 inp : Mem) (n outSize ret : Nat) (out : List Byte) (hn : n < 4294967296) (ho : outSize < 4294967296)
    (h : shCompress m0 (some inp) n true outSize = .ok ret out) :
    out.length ≤ 20 * changes 1 inp n + curRun inp (inp (n - 1)).toNat n + 38 := by
  obtain ⟨h0, _, _, _, rfl⟩ := sh_guard ho h
  rw [shStream_length]
  have hb := shBody_changes inp h0 hn
  unfold cost at hb
  unfold shSize shData shBitsE
  rw [List.length_append, List.length_append, le32_length, patBits_length]
  omega

/-- A run at the end that is not one of the run symbol: nothing is written before the end. -/
theorem shLoopE_const {x : Byte} (hx : x ≠ 0x7F) : ∀ n,
    shLoopE (fun _ => x) (n + 1) = ⟨0x7F, shSt0, x, n + 1, n + 1, 0, 0, false, true, 0, []⟩ := by
  intro n
  induction n with
  | zero =>
    show shStepE (fun _ => x) 0 shInit = _
    unfold shStepE
    rw [if_neg (show ¬ x = shInit.lastRle from hx), shMerge_run rfl]
    unfold shTrack
    by_cases h0 : x = (0 : Byte)
    · rw [if_pos (show x = shInit.lastSym from h0), h0]
      rfl
    · rw [if_neg (show ¬ x = shInit.lastSym from h0)]
      rfl
  | succ n ih =>
    rw [shLoopE, ih]
    unfold shStepE
    rw [if_neg (show ¬ x = (0x7F : Byte) from hx)]
    unfold shMerge
    rw [if_neg (by simp)]
    unfold shTrack
    rw [if_pos (show x = x from rfl)]
    rfl

/-- C48 is false of `rle8_sh_compress`: an input that is one single run of any byte but 0x7F is not compressed at all; however long it
is, the stream is longer. -/
theorem C48_sh_violated (m0 : Mem) (x : Byte) (hx : x ≠ 0x7F) (n : Nat) (hn7 : 7 ≤ n) (hn : n ≤ maxInput) :
    changes 1 (fun _ => x) n = 0 ∧
      ∃ out, shCompress m0 (some fun _ => x) n true (n + 18) = .ok out.length out ∧ n + 15 ≤ out.length := by
  unfold maxInput at hn
  have hb : mmBounds n = n + 8 := by unfold mmBounds; rw [if_neg (by omega)]
  obtain ⟨k, rfl⟩ : ∃ k, n = k + 1 := ⟨n - 1, by omega⟩
  have hl := shLoopE_const hx k
  have hbody : shBody (fun _ => x) (k + 1) = (shCopy 0x7F (rd (fun _ => x) 0 (k + 1)) shSt0).1 := by
    unfold shBody
    rw [hl]
    rfl
  have hsize : shSize (fun _ => x) (k + 1) = k + 1 + (if 262 < k + 1 then 18 else 15) := by
    unfold shSize shData shBitsE
    rw [hbody]
    unfold shCopy
    rw [rd_length]
    by_cases h : 262 < k + 1
    · rw [if_pos h, if_pos h]
      simp only [dataOf, bitsOf, List.flatMap_cons, List.flatMap_nil, ShOp.dataOf, ShOp.bitsOf, List.length_append,
        rd_length, le32_length, patBits_length, List.length_nil]
      omega
    · rw [if_neg h, if_neg h, if_pos hn7]
      simp only [dataOf, bitsOf, List.flatMap_cons, List.flatMap_nil, ShOp.dataOf, ShOp.bitsOf, List.length_append,
        rd_length, le32_length, patBits_length, List.length_nil, List.length_cons]
      omega
  have hge : k + 1 + 15 ≤ shSize (fun _ => x) (k + 1) := by rw [hsize]; split <;> omega
  have hle : shSize (fun _ => x) (k + 1) ≤ k + 1 + 18 := by rw [hsize]; split <;> omega
  refine ⟨by simp [changes], shStream (fun _ => x) (k + 1), ?_, ?_⟩
  · rw [shCompress_eq m0 _ (by omega) (by omega) (by omega), if_pos hle, shStream_length]
  · rw [shStream_length]; exact hge

/-- Hundred bytes of one kind and one of another are found: the last run has length one. -/
example (m0 : Mem) : ∃ out, shCompress m0 (some fun k => if k < 100 then 7 else 9) 101 true 250 = .ok out.length out ∧ out.length ≤ 59 := by
  obtain ⟨out, h, _⟩ := shCompress_fits m0 (fun k => if k < 100 then 7 else 9) 101 250 (by decide) (by decide) (by decide) (by decide)
  refine ⟨out, h, ?_⟩
  have h1 := C48_sh_partial m0 _ 101 250 _ out (by decide) (by decide) h
  have h2 : changes 1 (fun k => if k < 100 then (7 : Byte) else 9) 101 = 1 := by decide +kernel
  have h3 : curRun (fun k => if k < 100 then (7 : Byte) else 9) ((fun k => if k < 100 then (7 : Byte) else 9) (101 - 1)).toNat 101 = 1 := by
    decide +kernel
  rw [h2, h3] at h1
  exact h1

end Hrk
