import Verif.RleShEnc
import Verif.PropsRle8Mmtf

/-
rle8_sh: every input comes back from its stream.
-/

namespace Hrk

attribute [local irreducible] subU mulU shPick shCopy shRun shChange

/-! ### The compressor's loop -/

/-- What has been written stands for the first `c` bytes of the input. -/
structure ShCov (inp : Mem) (ops : List ShOp) (last : Byte) (st : ShSt) (c : Nat) : Prop where
  emits : Emits ops 0x7F shSt0 (rd inp 0 c) last st
  cost : cost ops ≤ 11 * c

theorem ShCov.ext {inp : Mem} {ops o : List ShOp} {l l' : Byte} {st st' : ShSt} {c k : Nat} (h : ShCov inp ops l st c)
    (h1 : Emits o l st (rd inp c k) l' st') (h2 : Hrk.cost o ≤ 11 * k) : ShCov inp (ops ++ o) l' st' (c + k) := by
  refine ⟨?_, ?_⟩
  · rw [rd_cat, Nat.zero_add]
    exact h.emits.append h1
  · rw [cost_append]
    have := h.cost
    omega

theorem rd_replicate {m : Mem} {a k : Nat} {x : Byte} (h : ∀ j, a ≤ j → j < a + k → m j = x) : rd m a k = List.replicate k x := by
  apply List.ext_getElem (by simp)
  intro i h1 h2
  rw [rd_length] at h1
  rw [rd_getElem, List.getElem_replicate]
  exact h _ (by omega) (by omega)

/-- The state after `i` bytes. -/
inductive ShInv (inp : Mem) (i : Nat) (s : ShEnc) : Prop where
  /-- a run of the run symbol is pending -/
  | run (c : Nat) (cov : ShCov inp s.ops s.lastRle s.st c) (hw : s.wasCopy = false) (hc : s.copy = 0) (hch : s.change = 0)
      (hi : c + s.rle = i) (hr : ∀ j, c ≤ j → j < i → inp j = s.lastRle) (hs : s.same = false → s.rle = 0)
  /-- a copy is pending -/
  | copy (cov : ShCov inp s.ops s.lastRle s.st s.start) (hw : s.wasCopy = true) (hs : s.same = false)
      (hi : s.start + s.copy = i) (hrl : s.rle = 0) (hch : s.change ≤ s.copy)
      (hr : ∀ j, i - s.change ≤ j → j < i → inp j = s.lastSym)
  /-- a copy is pending and some of the run symbol behind it -/
  | both (cov : ShCov inp s.ops s.lastRle s.st s.start) (hw : s.wasCopy = true) (hs : s.same = true)
      (hi : s.start + s.copy + s.rle = i) (hch : s.change = 0)
      (hr : ∀ j, s.start + s.copy ≤ j → j < i → inp j = s.lastRle)

theorem ShInv.init (inp : Mem) : ShInv inp 0 shInit :=
  .run 0 ⟨by rw [rd_zero]; exact Emits.nil _ _, Nat.zero_le _⟩ rfl rfl rfl rfl (fun j _ h => absurd h (by omega)) (fun _ => rfl)

theorem subU_eq {a b : Nat} (h : b ≤ a) (ha : a < 4294967296) : subU a b = a - b := by
  unfold subU
  omega

theorem shChange_cost (x : Byte) (c : Nat) : cost (shChange x c) = 47 := by
  unfold shChange
  generalize subU c 14 % 4294967296 = d
  rfl

/-- Writing out a copy and the run of `lastSym` behind it. -/
theorem ShCov.change {inp : Mem} {s : ShEnc} {i : Nat} {r : List ShOp × ShSt} (hn : i < 4294967296)
    (cov : ShCov inp s.ops s.lastRle s.st s.start) (hi : s.start + s.copy = i) (h10 : 10 ≤ s.change) (hch : s.change ≤ s.copy)
    (hr : ∀ j, i - s.change ≤ j → j < i → inp j = s.lastSym)
    (he : Emits r.1 s.lastRle s.st (rd inp s.start (s.copy - s.change)) s.lastRle r.2 ∧
      Hrk.cost r.1 ≤ 11 * (rd inp s.start (s.copy - s.change)).length) :
    ShCov inp (s.ops ++ r.1 ++ shChange s.lastSym s.change) s.lastSym r.2 i := by
  have h1 := cov.ext he.1 (by have := he.2; rw [rd_length] at this; exact this)
  have h2 : rd inp (s.start + (s.copy - s.change)) s.change = List.replicate s.change s.lastSym :=
    rd_replicate fun j a b => hr j (by omega) (by omega)
  have h3 := h1.ext (o := shChange s.lastSym s.change) (k := s.change) (l' := s.lastSym) (st' := r.2)
    (by rw [h2]; exact shChange_emits _ _ _ _ (by omega)) (by rw [shChange_cost]; omega)
  rw [show s.start + (s.copy - s.change) + s.change = i by omega] at h3
  exact h3

theorem shSame1_inv {inp : Mem} {i : Nat} {s : ShEnc} (hn : i < 4294967296) (H : ShInv inp i s) (hx : inp i = s.lastRle)
    (hs0 : s.same = false) : ShInv inp (i + 1) (shSame1 inp (inp i) s) := by
  unfold shSame1
  cases H with
  | run c cov hw hc hch hi hr hs =>
    have := hs hs0
    rw [if_neg (by omega)]
    refine .run c cov hw hc rfl (by show c + 1 = _; omega) ?_ (fun h => nomatch h)
    intro j h1 h2
    rw [show j = i by omega, hx]
  | copy cov hw hs hi hrl hch hr =>
    by_cases h10 : 10 ≤ s.change
    · rw [if_pos h10, subU_eq hch (by omega)]
      have hcov := ShCov.change (r := shCopy s.lastRle (rd inp s.start (s.copy - s.change)) s.st) hn cov hi h10 hch hr
        (shCopy_emits _ _ _ (by rw [rd_length]; omega))
      have hst : s.start + s.copy = i := hi
      refine .copy ?_ hw rfl (by show s.start + s.copy + 1 = _; omega) rfl (Nat.le_refl _) ?_
      · show ShCov inp _ s.lastSym _ (s.start + s.copy)
        rw [hst]
        exact hcov
      · intro j h1 h2
        have h1 : i + 1 - 1 ≤ j := h1
        rw [show j = i by omega]
    · rw [if_neg h10]
      refine .both cov hw rfl (by show s.start + s.copy + 1 = _; omega) rfl ?_
      intro j h1 h2
      have h1 : s.start + s.copy ≤ j := h1
      rw [show j = i by omega, hx]
  | both cov hw hs hi hch hr => rw [hs0] at hs; cases hs

theorem ShCov.pick {inp : Mem} {ops : List ShOp} {l : Byte} {st : ShSt} {c a k : Nat} (h : ShCov inp ops l st c) (real : Nat)
    (hk : k < 4294967296) (ha : rd inp a k = rd inp c k) :
    ShCov inp (ops ++ (shPick real l (rd inp a k) st).1) l (shPick real l (rd inp a k) st).2 (c + k) := by
  rw [ha]
  obtain ⟨h1, h2⟩ := shPick_emits real l (rd inp c k) st (by rw [rd_length]; exact hk)
  rw [rd_length] at h2
  exact h.ext h1 h2

theorem ShCov.flush {inp : Mem} {s : ShEnc} {i c : Nat} {x : Byte} {r : List ShOp × ShSt}
    (hcov : ShCov inp (s.ops ++ r.1) s.lastRle r.2 c) (hch : s.change = 0) (hi : c + s.rle + 1 = i)
    (hr : ∀ j, c ≤ j → j < i → inp j = s.lastRle) : ShInv inp i (s.flush x r) :=
  .run c hcov rfl rfl hch hi hr (fun h => nomatch h)

theorem shSame2_inv {inp : Mem} {i : Nat} {s : ShEnc} (hn : i < 4294967296) (H : ShInv inp i s) (hx : inp i = s.lastRle)
    (hs0 : s.same = true) : ShInv inp (i + 1) (shSame2 inp (inp i) s) := by
  unfold shSame2
  cases H with
  | run c cov hw hc hch hi hr hs =>
    have hr' : ∀ j, c ≤ j → j < i + 1 → inp j = s.lastRle := by
      intro j h1 h2
      by_cases hj : j = i
      · rw [hj, hx]
      · exact hr j h1 (by omega)
    by_cases h14 : 14 < s.rle + 1
    · have hcov := cov.pick (a := s.start) (k := s.copy) (subU (s.symCopy + 1) (s.rle + 1)) (by omega)
        (by rw [hc, rd_zero, rd_zero])
      rw [if_pos h14]
      exact hcov.flush hch (by omega) (fun j h1 h2 => hr' j (by omega) h2)
    · rw [if_neg h14]
      exact .run c cov hw hc hch (by show c + (s.rle + 1) = i + 1; omega) hr'
        (fun h => by have h : s.same = false := h; rw [hs0] at h; cases h)
  | copy cov hw hs hi hrl hch hr => rw [hs0] at hs; cases hs
  | both cov hw hs hi hch hr =>
    have hr' : ∀ j, s.start + s.copy ≤ j → j < i + 1 → inp j = s.lastRle := by
      intro j h1 h2
      by_cases hj : j = i
      · rw [hj, hx]
      · exact hr j h1 (by omega)
    by_cases h14 : 14 < s.rle + 1
    · have hcov := cov.pick (a := s.start) (k := s.copy) (subU (s.symCopy + 1) (s.rle + 1)) (by omega) rfl
      rw [if_pos h14]
      exact hcov.flush hch (by omega) hr'
    · rw [if_neg h14]
      refine .both cov hw hs ?_ hch hr'
      show s.start + s.copy + (s.rle + 1) = i + 1
      omega

theorem shMerge_run {s : ShEnc} (hw : s.wasCopy = false) : shMerge s = s := by
  unfold shMerge
  rw [if_neg]
  rintro ⟨_, h⟩
  rw [hw] at h
  cases h

/-- Behind the merge a copy is pending without a run behind it. -/
theorem shMerge_inv {inp : Mem} {i : Nat} {s : ShEnc} (H : ShInv inp i s) (hw : s.wasCopy = true) :
    ShCov inp (shMerge s).ops (shMerge s).lastRle (shMerge s).st (shMerge s).start ∧ (shMerge s).wasCopy = true ∧
      (shMerge s).same = false ∧ (shMerge s).start + (shMerge s).copy = i ∧ (shMerge s).rle = 0 ∧
      (shMerge s).change ≤ (shMerge s).copy ∧ (∀ j, i - (shMerge s).change ≤ j → j < i → inp j = (shMerge s).lastSym) ∧
      (shMerge s).lastRle = s.lastRle ∧ (shMerge s).ops = s.ops := by
  unfold shMerge
  cases H with
  | run c cov hw' hc hch hi hr hs => rw [hw] at hw'; cases hw'
  | copy cov hw' hs hi hrl hch hr =>
    rw [if_neg (by rw [hs]; simp)]
    exact ⟨cov, hw, hs, hi, hrl, hch, hr, rfl, rfl⟩
  | both cov hw' hs hi hch hr =>
    rw [if_pos ⟨hs, hw⟩]
    exact ⟨cov, hw, rfl, by show s.start + (s.copy + s.rle) = i; omega, rfl, by show s.change ≤ s.copy + s.rle; omega,
      fun j h1 h2 => by have h1 : i - s.change ≤ j := h1; omega, rfl, rfl⟩

theorem ShCov.turn {inp : Mem} {s : ShEnc} {i : Nat} {r : List ShOp × ShSt}
    (hcov : ShCov inp (s.ops ++ r.1 ++ shChange s.lastSym s.change) s.lastSym r.2 i) (hw : s.wasCopy = true)
    (hs : s.same = false) (hi : s.start + s.copy = i) (hrl : s.rle = 0) :
    ShInv inp (i + 1) (shCount i (s.turn (inp i) r)) := by
  have hu : shCount i (s.turn (inp i) r) = { s.turn (inp i) r with copy := (s.turn (inp i) r).copy + 1 } :=
    if_neg (by show s.wasCopy ≠ false; rw [hw]; exact Bool.noConfusion)
  rw [hu]
  refine .copy ?_ hw hs (by show s.start + s.copy + (0 + 1) = i + 1; omega) hrl (by show 1 ≤ 0 + 1; omega) ?_
  · show ShCov inp _ s.lastSym _ (s.start + s.copy)
    rw [hi]
    exact hcov
  · intro j h1 h2
    have h1 : i + 1 - 1 ≤ j := h1
    rw [show j = i by omega]
    rfl

theorem shOther_inv {inp : Mem} {i : Nat} {s : ShEnc} (hn : i < 4294967296) (H : ShInv inp i s) :
    ShInv inp (i + 1) (shCount i (shTrack inp (inp i) (shMerge s))) := by
  by_cases hw : s.wasCopy = true
  · obtain ⟨cov, hw1, hs1, hi1, hrl, hch, hr, _, _⟩ := shMerge_inv H hw
    generalize shMerge s = t at *
    unfold shTrack
    by_cases hx : inp i = t.lastSym
    · rw [if_pos hx]
      unfold shCount
      rw [if_neg (by show t.wasCopy ≠ false; rw [hw1]; exact Bool.noConfusion)]
      refine .copy cov hw1 hs1 (by show t.start + (t.copy + 1) = _; omega) hrl (by show t.change + 1 ≤ t.copy + 1; omega) ?_
      intro j h1 h2
      have h1 : i + 1 - (t.change + 1) ≤ j := h1
      by_cases hj : j = i
      · rw [hj]; exact hx
      · exact hr j (by omega) (by omega)
    · rw [if_neg hx]
      by_cases h10 : 10 ≤ t.change
      · rw [if_pos h10, subU_eq hch (by omega)]
        have hcov := ShCov.change (r := shPick t.symCopy t.lastRle (rd inp t.start (t.copy - t.change)) t.st) hn cov hi1 h10 hch hr
          (shPick_emits _ _ _ _ (by rw [rd_length]; omega))
        exact hcov.turn hw1 hs1 hi1 hrl
      · rw [if_neg h10]
        unfold shCount
        rw [if_neg (by show t.wasCopy ≠ false; rw [hw1]; exact Bool.noConfusion)]
        refine .copy cov hw1 hs1 (by show t.start + (t.copy + 1) = _; omega) hrl (by show 1 ≤ t.copy + 1; omega) ?_
        intro j h1 h2
        have h1 : i + 1 - 1 ≤ j := h1
        rw [show j = i by omega]
  · have hw : s.wasCopy = false := by simpa using hw
    rw [shMerge_run hw]
    cases H with
    | copy cov hw' => rw [hw] at hw'; cases hw'
    | both cov hw' => rw [hw] at hw'; cases hw'
    | run c cov hw' hc hch hi hr hs =>
      have he := shRun_emits s.lastRle s.st s.rle (by omega)
      have hrep : rd inp c s.rle = List.replicate s.rle s.lastRle := rd_replicate fun j a b => hr j a (by omega)
      have hcov := cov.ext (k := s.rle) (by rw [hrep]; exact he.1) he.2
      rw [hi] at hcov
      unfold shTrack
      by_cases hx : inp i = s.lastSym
      · rw [if_pos hx]
        unfold shCount
        rw [if_pos hw]
        refine .copy hcov rfl rfl rfl rfl (by show s.change + 1 ≤ 1; omega) ?_
        intro j h1 h2
        have h1 : i + 1 - (s.change + 1) ≤ j := h1
        rw [show j = i by omega]
        exact hx
      · rw [if_neg hx, if_neg (by omega)]
        unfold shCount
        rw [if_pos hw]
        refine .copy hcov rfl rfl rfl rfl (by show 1 ≤ 1; omega) ?_
        intro j h1 h2
        have h1 : i + 1 - 1 ≤ j := h1
        rw [show j = i by omega]

theorem shLoopE_inv (inp : Mem) : ∀ n, n ≤ 4294967296 → ShInv inp n (shLoopE inp n) := by
  intro n
  induction n with
  | zero => intro _; exact ShInv.init inp
  | succ n ih =>
    intro hn
    have H := ih (by omega)
    rw [shLoopE]
    unfold shStepE
    by_cases hx : inp n = (shLoopE inp n).lastRle
    · rw [if_pos hx]
      by_cases hs : (shLoopE inp n).same = false
      · rw [if_pos hs]
        exact shSame1_inv (by omega) H hx hs
      · rw [if_neg hs]
        exact shSame2_inv (by omega) H hx (by simpa using hs)
    · rw [if_neg hx]
      exact shOther_inv (by omega) H

/-- The stream without its end stands for the input. -/
theorem shBody_cov (inp : Mem) {n : Nat} (hn : n < 4294967296) : ∃ last st, ShCov inp (shBody inp n) last st n := by
  have H := shLoopE_inv inp n (by omega)
  unfold shBody
  by_cases hw : (shLoopE inp n).wasCopy = true
  · simp only [hw, if_true]
    obtain ⟨cov, _, _, hi, _, _, _, _, ho⟩ := shMerge_inv H hw
    rw [← ho]
    have he := shCopy_emits (shMerge (shLoopE inp n)).lastRle (rd inp (shMerge (shLoopE inp n)).start (shMerge (shLoopE inp n)).copy)
      (shMerge (shLoopE inp n)).st (by rw [rd_length]; omega)
    have := cov.ext he.1 (by have := he.2; rw [rd_length] at this; exact this)
    rw [hi] at this
    exact ⟨_, _, this⟩
  · have hw : (shLoopE inp n).wasCopy = false := by simpa using hw
    simp only [hw, Bool.false_eq_true, if_false]
    cases H with
    | copy cov hw' => rw [hw] at hw'; cases hw'
    | both cov hw' => rw [hw] at hw'; cases hw'
    | run c cov hw' hc hch hi hr hs =>
      have he := shRun_emits (shLoopE inp n).lastRle (shLoopE inp n).st (shLoopE inp n).rle (by omega)
      have hrep : rd inp c (shLoopE inp n).rle = List.replicate (shLoopE inp n).rle (shLoopE inp n).lastRle :=
        rd_replicate fun j a b => hr j a (by omega)
      have hcov := cov.ext (k := (shLoopE inp n).rle) (by rw [hrep]; exact he.1) he.2
      rw [hi] at hcov
      exact ⟨_, _, hcov⟩

/-- Size of the stream: eleven bits for a byte of input, and the headers. -/
theorem shSize_le (inp : Mem) {n : Nat} (hn : n < 4294967296) : shSize inp n ≤ (11 * n + 110) / 8 := by
  obtain ⟨_, _, h⟩ := shBody_cov inp hn
  have := h.cost
  unfold cost at this
  unfold shSize shData shBitsE
  rw [List.length_append, List.length_append, le32_length, patBits_length]
  omega

/-! ### Termination of the decoder -/

theorem consume_measure {full : List Byte} {h h' : ShHdr} {k : Nat} (hk : 1 ≤ k) (hk7 : k ≤ 7) (hr : 8 ≤ h.rem)
    (e : h.consume full k = some h') : 8 ≤ h'.rem ∧ h'.rem + 8 * h'.ph < h.rem + 8 * h.ph := by
  unfold ShHdr.consume at e
  split at e
  · split at e
    · cases e
    · split at e
      · cases e
      · cases e
        show 8 ≤ h.rem - k + 8 ∧ h.rem - k + 8 + 8 * (h.ph - 1) < _
        omega
  · cases e
    show 8 ≤ h.rem - k ∧ h.rem - k + 8 * h.ph < _
    omega

def shMeas (s : ShDec) : Nat := s.h.rem + 8 * s.h.ph

theorem emit_measure {full : List Byte} {cap k : Nat} {l : List Byte} {s s' : ShDec}
    (e : s.emit full cap k l = some s') (hr : 8 ≤ s.h.rem) (hk : 1 ≤ k) (hk7 : k ≤ 7) : 8 ≤ s'.h.rem ∧ shMeas s' < shMeas s := by
  unfold ShDec.emit at e
  split at e
  · cases e
  · next h hc =>
    split at e
    · cases e
      exact consume_measure hk hk7 hr hc
    · cases e

theorem lit_measure {full : List Byte} {cap : Nat} {s s' : ShDec} (hr : 8 ≤ s.h.rem) (e : s.lit full cap = some s') :
    8 ≤ s'.h.rem ∧ shMeas s' < shMeas s := by
  unfold ShDec.lit at e
  split at e
  · cases e
  · exact (emit_measure e hr (by decide) (by decide) :)

theorem one_measure {full : List Byte} {cap : Nat} {s s' : ShDec} (hr : 8 ≤ s.h.rem) (e : s.one full cap = some s') :
    8 ≤ s'.h.rem ∧ shMeas s' < shMeas s := by
  unfold ShDec.one at e
  split at e
  · exact (emit_measure e hr (by decide) (by decide) :)
  · split at e
    · exact lit_measure hr e
    · split at e
      · exact (emit_measure e hr (by decide) (by decide) :)
      · exact (emit_measure e hr (by decide) (by decide) :)

theorem many_measure {full : List Byte} {cap : Nat} : ∀ (c : Nat) {s s' : ShDec}, 8 ≤ s.h.rem → ShDec.many full cap c s = some s' →
    8 ≤ s'.h.rem ∧ shMeas s' ≤ shMeas s := by
  intro c
  induction c with
  | zero => intro s s' hr e; cases e; exact ⟨hr, Nat.le_refl _⟩
  | succ c ih =>
    intro s s' hr e
    rw [ShDec.many] at e
    cases h1 : s.one full cap with
    | none => rw [h1] at e; cases e
    | some t =>
      rw [h1] at e
      have a := one_measure hr h1
      have b := ih a.1 e
      exact ⟨b.1, by omega⟩

theorem shGo_post {s : ShDec} {x : Option ShDec} (h : ∀ t, x = some t → 8 ≤ t.h.rem ∧ shMeas t < shMeas s) :
    Post (shGo x) (fun t => 8 ≤ t.h.rem ∧ shMeas t < shMeas s) (fun _ => True) := by
  cases x with
  | none => trivial
  | some t => exact h t rfl

theorem shStep_post (full : List Byte) (cap : Nat) (s : ShDec) (hr : 8 ≤ s.h.rem) :
    Post (shStep full cap s) (fun t => 8 ≤ t.h.rem ∧ shMeas t < shMeas s) (fun _ => True) := by
  unfold shStep
  split
  · exact shGo_post fun t e => (emit_measure e hr (by decide) (by decide) :)
  split
  · exact shGo_post fun t e => lit_measure hr e
  split
  · exact shGo_post fun t e => (emit_measure e hr (by decide) (by decide) :)
  split
  · exact shGo_post fun t e => (emit_measure e hr (by decide) (by decide) :)
  split
  · refine shGo_post fun t e => ?_
    unfold ShDec.runSmall at e
    split at e
    · cases e
    · exact (emit_measure e hr (by decide) (by decide) :)
  split
  · split
    · refine shGo_post fun t e => ?_
      unfold ShDec.copySmall at e
      split at e
      · cases e
      · split at e
        · cases e
        · exact (emit_measure e hr (by decide) (by decide) :)
    · refine shGo_post fun t e => ?_
      unfold ShDec.runLarge at e
      split at e
      · cases e
      · split at e
        · cases e
        · exact (emit_measure e hr (by decide) (by decide) :)
  split
  · split
    · trivial
    · split
      · trivial
      · split
        · trivial
        · refine shGo_post fun t e => ?_
          unfold ShDec.copyLarge at e
          split at e
          · cases e
          · exact (emit_measure e hr (by decide) (by decide) :)
  · refine shGo_post fun t e => ?_
    unfold ShDec.encoded at e
    split at e
    · cases e
    · split at e
      · cases e
      · next s' h1 =>
        have a := (emit_measure h1 hr (by decide) (by decide) :)
        have b := many_measure _ a.1 e
        exact ⟨b.1, Nat.lt_of_le_of_lt b.2 a.2⟩

theorem shLoop_some (full : List Byte) (cap : Nat) (s : ShDec) (hr : 8 ≤ s.h.rem) (fuel : Nat) (hf : shMeas s < fuel) :
    ∃ r, loop (shStep full cap) fuel s = some r := by
  obtain ⟨r, h, _⟩ := loop_rule (body := shStep full cap) (fun s => 8 ≤ s.h.rem) (fun _ => True) shMeas
    (fun s h => shStep_post full cap s h) fuel s hr hf
  exact ⟨r, h⟩

/-! ### Round trip -/

/-- C15: whatever `rle8_sh_compress` returns without leaving its buffer is decompressed to the input,
and nothing else is written. (A buffer with room for `(11 * n + 110) / 8` bytes is always enough,
`C20_sh_partial`.) -/
theorem C15_roundtrip (m0 : Mem) : RoundTripExact 4294967295 (shCompress m0) shDecompress := by
  intro inp n outSize ret out h0 hn ho hc tail m a hpi hin hpo hout hcap
  have hb : mmBounds n ≤ outSize := by
    apply Decidable.byContradiction
    intro h
    simp only [shCompress] at hc
    rw [if_pos (.inr (.inr (by omega)))] at hc
    cases hc
  rw [shCompress_eq m0 inp h0 hb ho] at hc
  by_cases hf : shSize inp n ≤ outSize
  · rw [if_pos hf] at hc
    cases hc
    obtain ⟨last, st, cov⟩ := shBody_cov inp (show n < 4294967296 by omega)
    rw [shStream_length] at hin
    obtain ⟨T, hT⟩ : ∃ T, T = shSize inp n := ⟨_, rfl⟩
    have hTlen := shStream_length inp n
    have hB7 : 7 ≤ (shBitsE inp n).length := by rw [shBitsE, List.length_append, patBits_length]; omega
    have hT12 : 13 ≤ T := by
      rw [hT, shSize, shData, List.length_append, le32_length]
      omega
    -- the buffer the decoder sees
    obtain ⟨F, hF⟩ : ∃ F, F = shStream inp n ++ tail := ⟨_, rfl⟩
    have hFlen : T ≤ F.length := by rw [hF, List.length_append, hTlen, hT]; omega
    have hlow : ∃ z, lowBits F T = shBitsE inp n ++ z ∧ 96 ≤ z.length := by
      obtain ⟨z, hz⟩ := packs_bits _ (shBitsE inp n) (Nat.le_refl _)
      have : lowBits F T = ((packs (shBitsE inp n)).flatMap byteBits) ++
          (((le32 n ++ le32 (shSize inp n) ++ shData inp n).reverse).flatMap byteBits) := by
        rw [hF, hT]
        conv => lhs; rw [← hTlen]
        rw [lowBits_append, shStream, List.reverse_append, List.reverse_reverse, List.flatMap_append]
      rw [hz, List.append_assoc] at this
      refine ⟨_, this, ?_⟩
      have hl : ∀ l : List Byte, (l.flatMap byteBits).length = 8 * l.length := by
        intro l
        induction l with
        | nil => rfl
        | cons a r ih => rw [List.flatMap_cons, List.length_append, ih, byteBits, patBits_length, List.length_cons]; omega
      rw [List.length_append, hl, List.length_reverse, List.length_append, List.length_append, le32_length, le32_length,
        shData, List.length_append, le32_length]
      omega
    obtain ⟨z, hz, hzl⟩ := hlow
    have hbyte : F[T - 1]? = some (F.getD (T - 1) 0) := by
      rw [List.getElem?_eq_getElem (by omega), getD_of_lt _ _ (by omega)]
    obtain ⟨b, hbv⟩ : ∃ b, b = F.getD (T - 1) 0 := ⟨_, rfl⟩
    rw [← hbv] at hbyte
    have hstart : hbits F ⟨b.toNat, 8, T - 1⟩ = bitsOf (shBody inp n) ++ (patBits 63 7 ++ z) := by
      rw [← List.append_assoc]
      show patBits b.toNat 8 ++ lowBits F (T - 1) = _
      have : lowBits F (T - 1 + 1) = byteBits b ++ lowBits F (T - 1) := by rw [lowBits, hbv]
      rw [Nat.sub_add_cancel (by omega), hz] at this
      exact this.symm
    have hok : HOk F ⟨b.toNat, 8, T - 1⟩ := ⟨UInt8.toNat_lt b, Nat.le_refl _, by show 8 ≤ 16; omega, by show T - 1 ≤ _; omega⟩
    obtain ⟨R, hR⟩ : ∃ R, R = dataOf (shBody inp n) ++ (le32 0 ++ ((packs (shBitsE inp n)).reverse ++ tail)) := ⟨_, rfl⟩
    have hFs : F = le32 n ++ (le32 T ++ R) := by
      rw [hF, hR, shStream, shData, hT]
      simp only [List.append_assoc]
    obtain ⟨k, h', e1, e2, e3⟩ := cov.emits F a.cap ⟨⟨b.toNat, 8, T - 1⟩, 0x7F, shSt0, R, 0, m⟩ (patBits 63 7 ++ z)
      (le32 0 ++ ((packs (shBitsE inp n)).reverse ++ tail)) hok hstart hR rfl rfl
      (by rw [List.length_append, patBits_length]; omega) (by rw [rd_length]; show 0 + n ≤ _; omega)
    -- the end
    have e2 : hbits F h' = [true, true, true, true, true, true, false] ++ z := e2
    have b0 := bitAt e1 e2 0 (by omega) rfl
    have b1 := bitAt e1 e2 1 (by omega) rfl
    have b2 := bitAt e1 e2 2 (by omega) rfl
    have b3 := bitAt e1 e2 3 (by omega) rfl
    have b4 := bitAt e1 e2 4 (by omega) rfl
    have b5 := bitAt e1 e2 5 (by omega) rfl
    have b6 := bitAt e1 e2 6 (by omega) rfl
    obtain ⟨h2, d1, _, _⟩ := consume_spec e1 (k := 7) (by omega) e2 rfl (by omega)
    have hend : loop (shStep F a.cap) (k + 1) ⟨⟨b.toNat, 8, T - 1⟩, 0x7F, shSt0, R, 0, m⟩ = some (some (wrL m 0 (rd inp 0 n))) := by
      rw [e3, loop]
      unfold shStep
      rw [if_neg (by rw [b0]; exact Bool.noConfusion), if_neg (by rw [b1]; exact Bool.noConfusion),
        if_neg (by rw [b2]; exact Bool.noConfusion), if_neg (by rw [b3]; exact Bool.noConfusion),
        if_neg (by rw [b4]; exact Bool.noConfusion), if_neg (by rw [b5]; exact Bool.noConfusion), if_pos b6, d1]
      simp only [rdU32_le32]
      rfl
    obtain ⟨r, hr⟩ := shLoop_some F a.cap ⟨⟨b.toNat, 8, T - 1⟩, 0x7F, shSt0, R, 0, m⟩ (Nat.le_refl _) (8 * T + 1)
      (by show 8 + 8 * (T - 1) < _; omega)
    have hboth : r = some (wrL m 0 (rd inp 0 n)) := by
      have g1 := loop_mono _ (max (8 * T + 1) (k + 1)) _ _ hr (by omega)
      have g2 := loop_mono _ (max (8 * T + 1) (k + 1)) _ _ hend (by omega)
      rw [g1] at g2
      exact Option.some.inj g2
    rw [hboth] at hr
    refine ⟨wrL m 0 (rd inp 0 n), ?_, ?_, ?_⟩
    · unfold shDecompress
      rw [hpi, hpo, ← hF, hFs]
      simp only
      rw [if_neg (by omega)]
      simp only [rdU32_le32]
      rw [Nat.mod_eq_of_lt (by omega), Nat.mod_eq_of_lt (by omega), if_neg (by omega), if_neg (by omega), ← hFs, hbyte]
      simp only
      rw [hr]
    · intro j hj
      have := wrL_in (m := m) (a := 0) (l := rd inp 0 n) (k := j) (by rw [rd_length]; exact hj)
      rw [Nat.zero_add] at this
      rw [this, rd_getD _ _ _ _ _ hj, Nat.zero_add]
    · intro j hj
      exact wrL_out (by rw [rd_length]; omega)
  · rw [if_neg hf] at hc
    cases hc

end Hrk
