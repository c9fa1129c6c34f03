import Verif.Rle8mApi

/-
How large a low entropy stream gets when several symbols are run symbols: a symbol is only made one
if its runs pay on average, so the stream grows by no more than a byte for every block length.
-/

namespace Hrk

/-! ### Sums over the symbols -/

/-- `f 0 + … + f (k - 1)` -/
def sumTo (f : Nat → Nat) : Nat → Nat
  | 0 => 0
  | k + 1 => sumTo f k + f k

theorem sumTo_le {f g : Nat → Nat} : ∀ k, (∀ s, s < k → f s ≤ g s) → sumTo f k ≤ sumTo g k
  | 0, _ => Nat.le_refl _
  | k + 1, h => by
    have h1 := sumTo_le k (fun s hs => h s (by omega))
    have h2 := h k (by omega)
    simp only [sumTo]; omega

theorem sumTo_congr {f g : Nat → Nat} : ∀ k, (∀ s, s < k → f s = g s) → sumTo f k = sumTo g k
  | 0, _ => rfl
  | k + 1, h => by
    simp only [sumTo]
    rw [sumTo_congr k (fun s hs => h s (by omega)), h k (by omega)]

theorem sumTo_zero : ∀ k, sumTo (fun _ => 0) k = 0
  | 0 => rfl
  | k + 1 => by simp only [sumTo]; rw [sumTo_zero k]

theorem sumTo_add (f g : Nat → Nat) : ∀ k, sumTo (fun s => f s + g s) k = sumTo f k + sumTo g k
  | 0 => rfl
  | k + 1 => by simp only [sumTo]; rw [sumTo_add f g k]; omega

theorem sumTo_upd (f : Nat → Nat) (t d : Nat) : ∀ k, sumTo (upd f t (f t + d)) k = sumTo f k + if t < k then d else 0
  | 0 => by simp [sumTo]
  | k + 1 => by
    simp only [sumTo]
    rw [sumTo_upd f t d k]
    by_cases h : t = k
    · subst h
      rw [show upd f t (f t + d) t = f t + d from if_pos rfl, if_neg (by omega), if_pos (by omega)]; omega
    · rw [show upd f t (f t + d) k = f k from if_neg (fun e => h e.symm)]
      by_cases h2 : t < k
      · rw [if_pos h2, if_pos (by omega)]; omega
      · rw [if_neg h2, if_neg (by omega)]; omega

/-- One term may exceed its bound by `e`. -/
theorem sumTo_le_one {f g : Nat → Nat} {t e : Nat} (k : Nat) (h : ∀ s, s < k → s ≠ t → f s ≤ g s) (ht : f t ≤ g t + e) :
    sumTo f k ≤ sumTo g k + e := by
  have h1 : sumTo f k ≤ sumTo (upd g t (g t + e)) k := by
    refine sumTo_le k ?_
    intro s hs
    unfold upd
    by_cases he : s = t
    · rw [if_pos he, he]; exact ht
    · rw [if_neg he]; exact h s hs he
  rw [sumTo_upd] at h1
  split at h1 <;> omega

attribute [irreducible] sumTo

/-- Every byte is an occurrence of one of the 256 symbols. -/
theorem sumTo_occs (inp : Mem) : ∀ i, sumTo (fun s => occs inp s i) 256 = i
  | 0 => by
    exact (sumTo_congr 256 (fun s _ => rfl)).trans (sumTo_zero 256)
  | i + 1 => by
    have e : sumTo (fun s => occs inp s (i + 1)) 256 =
        sumTo (upd (fun s => occs inp s i) (inp i).toNat (occs inp (inp i).toNat i + 1)) 256 := by
      refine sumTo_congr 256 ?_
      intro s _
      simp only [occs_succ, upd]
      by_cases h : s = (inp i).toNat
      · rw [if_pos h.symm, if_pos h, h]
      · rw [if_neg (fun e => h e.symm), if_neg h]
    have hlt := UInt8.toNat_lt (inp i)
    rw [e, sumTo_upd (fun s => occs inp s i) (inp i).toNat 1 256, sumTo_occs inp i, if_pos (by omega)]

/-! ### The encoder -/

/-- Bytes written for the symbol `s` so far, `v` of them, when `R` are the run symbols. -/
def SymInv (blk : Nat) (inp : Mem) (n : Nat) (R : Nat → Bool) (s i v : Nat) : Prop :=
  if R s = true then
    (i < n ∧ v ≤ 2 * (runCost blk inp s i + (curRun inp s i + blk - 1) / blk) ∧
      (curRun inp s i % blk = 0 ∨ (inp i).toNat ≠ s ∨ i = n - 1)) ∨
    (i = n ∧ v ≤ 2 * (runCost blk inp s n + if curRun inp s n = 0 then 0 else (curRun inp s n - 1 + blk - 1) / blk + 1))
  else v ≤ occs inp s i

/-- `k` bytes other than `s`. -/
theorem other_chunk {blk : Nat} (hb : blk = 32 ∨ blk = 255) {inp : Mem} {s i : Nat} : ∀ k, (∀ j, j < k + 1 → (inp (i + j)).toNat ≠ s) →
    curRun inp s (i + k + 1) = 0 ∧ occs inp s (i + k + 1) = occs inp s i ∧
      runCost blk inp s i + (curRun inp s i + blk - 1) / blk ≤ runCost blk inp s (i + k + 1) := by
  intro k
  induction k with
  | zero =>
    intro h
    have hs := h 0 (by omega)
    rw [Nat.add_zero] at hs ⊢
    rw [curRun_succ, occs_succ, runCost_succ, if_neg hs, if_neg hs]
    refine ⟨rfl, rfl, ?_⟩
    by_cases hc : 0 < curRun inp s i
    · rw [if_pos ⟨hs, hc⟩]
      rcases hb with rfl | rfl <;> omega
    · rw [if_neg (by omega)]
      rcases hb with rfl | rfl <;> omega
  | succ k ih =>
    intro h
    obtain ⟨h1, h2, h3⟩ := ih (fun j hj => h j (by omega))
    have hs := h (k + 1) (by omega)
    rw [show i + (k + 1) = i + k + 1 by omega] at hs ⊢
    rw [curRun_succ, occs_succ, runCost_succ, if_neg hs, if_neg hs, if_neg (by omega)]
    exact ⟨rfl, h2, h3⟩

/-- The symbols other than the current one. -/
theorem SymInv.other {blk : Nat} {inp : Mem} {n : Nat} {R : Nat → Bool} {s i v k : Nat} (hb : blk = 32 ∨ blk = 255)
    (hk : ∀ j, j < k + 1 → (inp (i + j)).toNat ≠ s) (hi : i + k + 1 ≤ n) (h : SymInv blk inp n R s i v) :
    SymInv blk inp n R s (i + k + 1) v := by
  obtain ⟨g1, g2, g3⟩ := other_chunk hb k hk
  unfold SymInv at h ⊢
  by_cases hR : R s = true
  · rw [if_pos hR] at h ⊢
    rcases h with ⟨_, h1, _⟩ | ⟨h0, _⟩
    · by_cases he : i + k + 1 < n
      · refine Or.inl ⟨he, ?_, Or.inl (by rw [g1]; exact Nat.zero_mod _)⟩
        have := Nat.zero_le ((curRun inp s (i + k + 1) + blk - 1) / blk)
        omega
      · refine Or.inr ⟨by omega, ?_⟩
        have hn : i + k + 1 = n := by omega
        rw [hn] at g1 g3
        rw [if_pos g1]; omega
    · omega
  · rw [if_neg hR] at h ⊢
    rw [g2]; exact h

theorem leStep_sym {blk : Nat} {x : LeInfo} {inp : Mem} {n i range : Nat} {R : Nat → Bool} {w : Nat → Nat} (hb : blk = 32 ∨ blk = 255)
    (hr : ∀ b, x.rle b = R b.toNat) (hi : i < n) (hrange : range = blk ∧ i + blk < n ∨ range = min (n - i - 1) blk)
    (h : ∀ s, SymInv blk inp n R s i (w s)) :
    ∀ s, SymInv blk inp n R s (leStep x inp range i).2
      (upd w (inp i).toNat (w (inp i).toNat + (leStep x inp range i).1.length) s) := by
  intro s
  have h0 := h s
  have ht := h (inp i).toNat
  unfold leStep
  by_cases hf : x.rle (inp i) = true
  · simp only [hf, if_true]
    have hR : R (inp i).toNat = true := by rw [← hr]; exact hf
    have hle := leMatch_le inp (inp i) (range - 1) (i + 1)
    have hstop := leMatch_stop inp (inp i) (range - 1) (i + 1)
    have heq : ∀ j, j < 1 + leMatch inp (inp i) (i + 1) (range - 1) → (inp (i + j)).toNat = (inp i).toNat := by
      intro j hj
      cases j with
      | zero => rfl
      | succ j =>
        have := leMatch_eq inp (inp i) (range - 1) (i + 1) j (by omega)
        rw [show i + (j + 1) = i + 1 + j by omega, this]
    generalize leMatch inp (inp i) (i + 1) (range - 1) = c at *
    by_cases hs : s = (inp i).toNat
    · rw [show upd w (inp i).toNat (w (inp i).toNat + _) s = _ from if_pos hs]
      rw [← hs] at ht heq hR
      unfold SymInv at ht ⊢
      rw [if_pos hR] at ht ⊢
      rw [← hs]
      obtain ⟨g1, g2, g3⟩ := run_chunk (blk := blk) (1 + c) heq
      rw [show i + (1 + c) = i + 1 + c by omega] at g1 g2 g3
      rcases ht with ⟨_, h1, h2⟩ | ⟨h1, _⟩
      · by_cases hend : i = n - 1
        · refine Or.inr ⟨by omega, ?_⟩
          have hc0 : c = 0 := by omega
          subst hc0
          rw [show i + 1 + 0 = n by omega] at g1 g2 g3
          simp only [List.length_cons, List.length_nil]
          rw [g1, g3, if_neg (by omega), show curRun inp s i + (1 + 0) - 1 = curRun inp s i by omega]
          omega
        · refine Or.inl ⟨by omega, ?_, ?_⟩
          · simp only [List.length_cons, List.length_nil]
            rw [g1, g3]
            have h2' : curRun inp s i % blk = 0 := by
              rcases h2 with h2 | h2 | h2
              · exact h2
              · exact absurd hs.symm h2
              · exact absurd h2 hend
            rcases hb with rfl | rfl <;> omega
          · rw [g1]
            by_cases hc : c < range - 1
            · refine Or.inr (Or.inl ?_)
              intro hh
              exact hstop hc (UInt8.toNat_inj.mp (by rw [hh, hs]))
            · have h2' : curRun inp s i % blk = 0 := by
                rcases h2 with h2 | h2 | h2
                · exact h2
                · exact absurd hs.symm h2
                · exact absurd h2 hend
              rcases hb with rfl | rfl <;> omega
      · omega
    · rw [show upd w (inp i).toNat (w (inp i).toNat + _) s = w s from if_neg hs]
      rw [show i + 1 + c = i + c + 1 by omega]
      refine SymInv.other hb ?_ (by omega) h0
      intro j hj
      rw [heq j (by omega)]
      exact fun e => hs e.symm
  · have hf' : x.rle (inp i) = false := by simpa using hf
    simp only [hf', Bool.false_eq_true, if_false]
    by_cases hs : s = (inp i).toNat
    · rw [show upd w (inp i).toNat (w (inp i).toNat + _) s = _ from if_pos hs]
      have hR : ¬ R s = true := by rw [hs, ← hr, hf']; decide
      rw [← hs] at ht ⊢
      unfold SymInv at ht ⊢
      rw [if_neg hR] at ht ⊢
      rw [occs_succ, if_pos hs.symm]
      simp only [List.length_cons, List.length_nil]
      omega
    · rw [show upd w (inp i).toNat (w (inp i).toNat + _) s = w s from if_neg hs]
      refine SymInv.other (k := 0) hb ?_ (by omega) h0
      intro j hj
      rw [show j = 0 by omega]
      exact fun e => hs e.symm

/-- What is written, symbol by symbol. -/
theorem leEncode_sym {blk : Nat} {x : LeInfo} {inp : Mem} {n : Nat} {R : Nat → Bool} {d : List Byte} (hb : blk = 32 ∨ blk = 255) (hn : 0 < n)
    (hr : ∀ b, x.rle b = R b.toNat) (h : leEncode blk x inp n = some d) :
    ∃ w, d.length = sumTo w 256 ∧ ∀ s, SymInv blk inp n R s n (w s) := by
  refine loop_rule_partial (fun st => ∃ w, st.2.length = sumTo w 256 ∧ st.1 ≤ n ∧ ∀ s, SymInv blk inp n R s st.1 (w s))
    (fun d => ∃ w, d.length = sumTo w 256 ∧ ∀ s, SymInv blk inp n R s n (w s)) ?_ _ _ _ ?_ h
  · intro st hst
    obtain ⟨i, out⟩ := st
    unfold leLoopStep
    generalize hT : n - 256 = T
    obtain ⟨w, hw⟩ := hst
    have h1 : out.length = sumTo w 256 := hw.1
    have h2 : i ≤ n := hw.2.1
    have h3 : ∀ s, SymInv blk inp n R s i (w s) := hw.2.2
    have hlt := UInt8.toNat_lt (inp i)
    have hadv : ∀ range, i < n → (range = blk ∧ i + blk < n ∨ range = min (n - i - 1) blk) → (leStep x inp range i).2 ≤ n := by
      intro range hi hrange
      unfold leStep
      have hle := leMatch_le inp (inp i) (range - 1) (i + 1)
      by_cases hf : x.rle (inp i) = true
      · simp only [hf, if_true]; omega
      · have hf' : x.rle (inp i) = false := by simpa using hf
        simp only [hf', Bool.false_eq_true, if_false]; omega
    have key : ∀ range, i < n → (range = blk ∧ i + blk < n ∨ range = min (n - i - 1) blk) →
        ∃ w, (out ++ (leStep x inp range i).1).length = sumTo w 256 ∧ (leStep x inp range i).2 ≤ n ∧
          ∀ s, SymInv blk inp n R s (leStep x inp range i).2 (w s) := by
      intro range hi hrange
      refine ⟨_, ?_, hadv range hi hrange, leStep_sym hb hr hi hrange h3⟩
      rw [sumTo_upd, if_pos (by omega), List.length_append]
      omega
    by_cases h4 : i < T
    · simp only [if_pos h4, Post_inl]
      exact key blk (by omega) (Or.inl ⟨rfl, by omega⟩)
    · simp only [if_neg h4]
      by_cases h5 : i < n
      · simp only [if_pos h5, Post_inl]
        exact key _ h5 (Or.inr rfl)
      · simp only [if_neg h5, Post_inr]
        have : i = n := by omega
        subst this
        exact ⟨w, h1, h3⟩
  · refine ⟨fun _ => 0, ?_, by omega, ?_⟩
    · rw [sumTo_zero]; rfl
    · intro s
      unfold SymInv
      split
      · exact Or.inl ⟨hn, by simp, Or.inl (by simp [curRun])⟩
      · simp

/-! ### Sections -/

/-- Blocks the runs of `s` before `i` take when they are cut into blocks from their beginning. -/
def blocks (blk : Nat) (inp : Mem) (s i : Nat) : Nat := runCost blk inp s i + (curRun inp s i + blk - 1) / blk

/-- The statistics of the bytes from `a` on, and of all bytes. -/
theorem section_runs {blk : Nat} (hb : blk = 32 ∨ blk = 255) (inp : Mem) (s a : Nat) : ∀ j,
    occs inp s (a + j) = occs inp s a + occs (fun k => inp (a + k)) s j ∧
    ((curRun inp s (a + j) = curRun inp s a + j ∧ curRun (fun k => inp (a + k)) s j = j ∧
      runCost blk inp s (a + j) = runCost blk inp s a ∧ runCost blk (fun k => inp (a + k)) s j = 0) ∨
     (curRun (fun k => inp (a + k)) s j = curRun inp s (a + j) ∧
      blocks blk inp s a + runCost blk (fun k => inp (a + k)) s j ≤
        runCost blk inp s (a + j) + if curRun inp s a = 0 then 0 else 1)) := by
  intro j
  induction j with
  | zero => exact ⟨rfl, Or.inl ⟨rfl, rfl, rfl, rfl⟩⟩
  | succ j ih =>
    obtain ⟨h1, h2⟩ := ih
    rw [show a + (j + 1) = a + j + 1 by omega]
    simp only [occs_succ, curRun_succ, runCost_succ]
    by_cases hs : (inp (a + j)).toNat = s
    · simp only [if_pos hs]
      rw [if_neg (by omega), if_neg (by omega)]
      refine ⟨by omega, ?_⟩
      rcases h2 with ⟨g1, g2, g3, g4⟩ | ⟨g1, g2⟩
      · exact Or.inl ⟨by omega, by omega, g3, g4⟩
      · exact Or.inr ⟨by omega, g2⟩
    · simp only [if_neg hs]
      refine ⟨h1, Or.inr ⟨trivial, ?_⟩⟩
      unfold blocks at *
      rcases h2 with ⟨g1, g2, g3, g4⟩ | ⟨g1, g2⟩
      · rw [g1, g2, g3, g4]
        by_cases hc : curRun inp s a = 0
        · rw [if_pos hc, hc]
          by_cases hj : 0 < j
          · rw [if_pos ⟨hs, hj⟩, if_pos ⟨hs, by omega⟩]
            rcases hb with rfl | rfl <;> omega
          · rw [if_neg (by omega), if_neg (by omega)]
            rcases hb with rfl | rfl <;> omega
        · have hp : (inp (a + j)).toNat ≠ s ∧ 0 < curRun inp s a + j := ⟨hs, by omega⟩
          rw [if_neg hc, if_pos hp]
          by_cases hj : 0 < j
          · rw [if_pos ⟨hs, hj⟩]
            rcases hb with rfl | rfl <;> omega
          · rw [if_neg (by omega)]
            rcases hb with rfl | rfl <;> omega
      · rw [g1]
        by_cases hc : 0 < curRun inp s (a + j)
        · rw [if_pos ⟨hs, hc⟩, if_pos ⟨hs, hc⟩]; omega
        · rw [if_neg (by omega), if_neg (by omega)]; exact g2

/-- What the symbol `s` takes before `i` when the runs are not cut. -/
def share (blk : Nat) (R : Nat → Bool) (inp : Mem) (i s : Nat) : Nat :=
  if R s = true then 2 * blocks blk inp s i else occs inp s i

/-- Cutting the input at `a` and `a + m` costs a symbol one block where it is cut. -/
theorem section_share {blk : Nat} (hb : blk = 32 ∨ blk = 255) (inp : Mem) {R : Nat → Bool} {s a m v : Nat}
    (h : SymInv blk (fun k => inp (a + k)) m R s m v) :
    share blk R inp a s + v ≤ share blk R inp (a + m) s + (if curRun inp s a = 0 then 0 else 2) +
      if curRun inp s (a + m) = 0 then 0 else 2 := by
  obtain ⟨h1, h2⟩ := section_runs hb inp s a m
  unfold SymInv at h
  unfold share
  by_cases hR : R s = true
  · rw [if_pos hR] at h
    rw [if_pos hR, if_pos hR]
    rcases h with ⟨h0, _⟩ | ⟨_, h0⟩
    · omega
    · unfold blocks at *
      rcases h2 with ⟨g1, g2, g3, g4⟩ | ⟨g1, g2⟩
      · rw [g2, g4] at h0
        rw [g1, g3]
        by_cases hm : m = 0
        · rw [if_pos hm] at h0
          subst hm
          have : (if curRun inp s a = 0 then 0 else 2) ≥ 0 := Nat.zero_le _
          rw [Nat.add_zero]
          omega
        · rw [if_neg hm] at h0
          rw [if_neg (show ¬ curRun inp s a + m = 0 by omega)]
          by_cases hc : curRun inp s a = 0
          · rw [if_pos hc, hc]
            rcases hb with rfl | rfl <;> omega
          · rw [if_neg hc]
            rcases hb with rfl | rfl <;> omega
      · rw [g1] at h0
        by_cases hc : curRun inp s (a + m) = 0
        · rw [if_pos hc] at h0
          rw [if_pos hc, hc]
          by_cases hc2 : curRun inp s a = 0
          · rw [if_pos hc2] at g2 ⊢
            rcases hb with rfl | rfl <;> omega
          · rw [if_neg hc2] at g2 ⊢
            rcases hb with rfl | rfl <;> omega
        · rw [if_neg hc] at h0
          rw [if_neg hc]
          by_cases hc2 : curRun inp s a = 0
          · rw [if_pos hc2] at g2 ⊢
            rcases hb with rfl | rfl <;> omega
          · rw [if_neg hc2] at g2 ⊢
            rcases hb with rfl | rfl <;> omega
  · rw [if_neg hR] at h
    rw [if_neg hR, if_neg hR]
    omega

/-- Only one symbol has a run that reaches up to `i`. -/
theorem sumTo_cut (inp : Mem) (i : Nat) : sumTo (fun s => if curRun inp s i = 0 then 0 else 2) 256 ≤ if i = 0 then 0 else 2 := by
  cases i with
  | zero => rw [if_pos rfl]; exact Nat.le_of_eq ((sumTo_congr 256 (fun s _ => rfl)).trans (sumTo_zero 256))
  | succ i =>
    rw [if_neg (by omega)]
    have h := sumTo_le_one (f := fun s => if curRun inp s (i + 1) = 0 then 0 else 2) (g := fun _ => 0) (t := (inp i).toNat) (e := 2) 256
      (by
        intro s _ hs
        have h0 : curRun inp s (i + 1) = 0 := by
          rw [curRun_succ, if_neg]
          exact fun e => hs e.symm
        change (if curRun inp s (i + 1) = 0 then 0 else 2) ≤ 0
        rw [if_pos h0])
      (by split <;> omega)
    rw [sumTo_zero] at h
    omega

theorem leEncode_zero {blk : Nat} {x : LeInfo} {inp : Mem} {d : List Byte} (h : leEncode blk x inp 0 = some d) : d = [] := by
  unfold leEncode loop leLoopStep at h
  simp at h
  exact h

/-- The streams of the sections up to `a + m`, one after the other. -/
theorem section_total {blk : Nat} {x : LeInfo} {inp : Mem} {R : Nat → Bool} {a m : Nat} {d : List Byte} (hb : blk = 32 ∨ blk = 255)
    (hr : ∀ b, x.rle b = R b.toNat) (h : leEncode blk x (fun k => inp (a + k)) m = some d) :
    sumTo (share blk R inp a) 256 + d.length ≤ sumTo (share blk R inp (a + m)) 256 + (if a = 0 then 0 else 2) + 2 := by
  by_cases hm : m = 0
  · subst hm
    rw [leEncode_zero h]
    simp only [List.length_nil, Nat.add_zero]
    omega
  · obtain ⟨w, h1, h2⟩ := leEncode_sym hb (Nat.pos_of_ne_zero hm) hr h
    have h3 := sumTo_le 256 (fun s _ => section_share hb inp (h2 s))
    rw [sumTo_add, sumTo_add, sumTo_add] at h3
    have h4 := sumTo_cut inp a
    have h5 := sumTo_cut inp (a + m)
    rw [if_neg (show ¬ a + m = 0 by omega)] at h5
    rw [h1]
    omega

/-- A symbol only becomes a run symbol if its runs pay, not counting how long the last one is. -/
theorem share_total {blk : Nat} (hb : blk = 32 ∨ blk = 255) (inp : Mem) {n : Nat} (hn : 0 < n) (hn2 : n < 4294967295) :
    sumTo (share blk (flagAll (tally blk inp n)) inp n) 256 ≤ n + n / blk := by
  have h := sumTo_le_one (f := share blk (flagAll (tally blk inp n)) inp n) (g := fun s => occs inp s n)
    (t := (inp (n - 1)).toNat) (e := n / blk) 256 ?_ ?_
  · rw [sumTo_occs] at h; exact h
  all_goals
    have hflag : ∀ s, flagAll (tally blk inp n) s = true → 2 * (runCost blk inp s n + if 0 < curRun inp s n then 1 else 0) ≤ occs inp s n := by
      intro s hs
      obtain ⟨g1, g2⟩ := tally_spec (blk := blk) (by omega) inp hn hn2 s
      unfold flagAll at hs
      rw [g1, g2] at hs
      generalize (runCost blk inp s n + if 0 < curRun inp s n then 1 else 0) = p at *
      by_cases hp : p > 0
      · rw [if_pos hp] at hs
        have hs := of_decide_eq_true hs
        have h1 := Nat.div_mul_le_self (occs inp s n) p
        have h2 : 2 * p ≤ occs inp s n / p * p := Nat.mul_le_mul_right _ hs
        omega
      · omega
  · intro s _ hs
    unfold share
    by_cases hR : flagAll (tally blk inp n) s = true
    · rw [if_pos hR]
      have hc : curRun inp s n = 0 := by
        obtain ⟨k, rfl⟩ : ∃ k, n = k + 1 := ⟨n - 1, by omega⟩
        rw [curRun_succ, if_neg]
        exact fun e => hs e.symm
      have := hflag s hR
      rw [if_neg (by omega)] at this
      unfold blocks
      rw [hc]
      rcases hb with rfl | rfl <;> omega
    · rw [if_neg hR]
  · unfold share
    by_cases hR : flagAll (tally blk inp n) (inp (n - 1)).toNat = true
    · rw [if_pos hR]
      have h1 := hflag _ hR
      have h2 := runCost_le (blk := blk) (by omega) inp (inp (n - 1)).toNat n
      have h3 := occs_le inp (inp (n - 1)).toNat n
      have hc : 0 < curRun inp (inp (n - 1)).toNat n := by
        obtain ⟨k, rfl⟩ : ∃ k, n = k + 1 := ⟨n - 1, by omega⟩
        rw [curRun_succ, Nat.add_sub_cancel, if_pos rfl]
        omega
      rw [if_pos hc] at h1
      unfold blocks
      generalize runCost blk inp (inp (n - 1)).toNat n = p at *
      generalize curRun inp (inp (n - 1)).toNat n = c at *
      generalize occs inp (inp (n - 1)).toNat n = oc at *
      rcases hb with rfl | rfl <;> omega
    · rw [if_neg hR]; exact Nat.le_add_right _ _

/-- The stream of the plain codecs. -/
theorem leEncode_tight {blk : Nat} {inp : Mem} {n : Nat} {x : LeInfo} {d : List Byte} (hb : blk = 32 ∨ blk = 255) (hn : 0 < n)
    (hn2 : n < 4294967295) (hr : ∀ b, x.rle b = flagAll (tally blk inp n) b.toNat) (h : leEncode blk x inp n = some d) :
    d.length ≤ n + n / blk + 2 := by
  have h1 := section_total (a := 0) (m := n) (inp := inp) hb hr (by simpa only [Nat.zero_add] using h)
  have h2 := share_total hb inp hn hn2
  rw [if_pos rfl, Nat.zero_add n] at h1
  omega

/-! ### C20 -/

/-- C20 for `rle8_low_entropy_compress` and `rle8_low_entropy_short_compress`: with room for one byte more in 255 (or in 32) and the
header compression succeeds, the output is that small, and nothing is written out of bounds. Missing: the advertised bound, which is
too small (`C20_low_entropy_violated`). -/
theorem C20_low_entropy_partial (short : Bool) (inp : Mem) (n outSize : Nat) (hn : 0 < n)
    (h1 : n + n / (if short then 32 else 255) + 298 ≤ outSize) (h2 : outSize < 4294967296) :
    ∃ out, LeCfg.compress ⟨short, false⟩ (some inp) n true outSize = .ok out.length out ∧
      out.length ≤ n + n / (if short then 32 else 255) + 298 := by
  have hb := LeCfg.blk_cases ⟨short, false⟩
  have hb' : LeCfg.blk ⟨short, false⟩ = 32 ∨ LeCfg.blk ⟨short, false⟩ = 255 := by omega
  have hbe : (if short then 32 else 255) = LeCfg.blk ⟨short, false⟩ := rfl
  rw [hbe] at h1 ⊢
  have hbd : leBounds n ≤ n + 297 := Nat.mod_le _ _
  obtain ⟨y, _, _, hy3⟩ := C34_info_roundtrip ⟨short, false⟩ inp n []
  obtain ⟨d, hd, _⟩ := leEncode_spec (cnt := y.toCount) (mx := LeCfg.blk ⟨short, false⟩ - 1) (x := LeCfg.info ⟨short, false⟩ inp n)
    (inp := inp) (n := n) (blk := LeCfg.blk ⟨short, false⟩) (by omega) (by omega) (by omega) hy3
  have hw : (writeInfo (LeCfg.info ⟨short, false⟩ inp n)).length ≤ 288 := by
    rw [LeCfg.info_eq, writeInfo_length]
    have := written_lt (tally (LeCfg.blk ⟨short, false⟩) inp n).pcount
      (if LeCfg.onlyMax ⟨short, false⟩ then flagMax (tally (LeCfg.blk ⟨short, false⟩) inp n)
        else flagAll (tally (LeCfg.blk ⟨short, false⟩) inp n))
    omega
  have hsize : d.length ≤ n + n / LeCfg.blk ⟨short, false⟩ + 2 :=
    leEncode_tight hb' hn (by have := Nat.zero_le (n / LeCfg.blk ⟨short, false⟩); omega) (fun _ => rfl) hd
  clear hy3
  simp only [LeCfg.compress]
  generalize LeCfg.info ⟨short, false⟩ inp n = x at *
  generalize LeCfg.blk ⟨short, false⟩ = blk at *
  generalize n / blk = q at *
  obtain ⟨out, hout⟩ : ∃ out, out = le32 (8 + (writeInfo x).length + d.length) ++ le32 n ++ writeInfo x ++ d := ⟨_, rfl⟩
  have hl : out.length = 8 + (writeInfo x).length + d.length := by rw [hout]; simp; omega
  refine ⟨out, ?_, by omega⟩
  rw [if_neg (by simp; omega), if_neg (by omega), if_neg (by omega), if_neg (by omega), if_neg (by rw [Nat.mod_eq_of_lt (by omega)]; omega), hd]
  simp only
  rw [if_pos (by omega), Nat.mod_eq_of_lt (by omega), ← hout, ← hl]

/-- A million bytes fit into 1 004 219 bytes, whatever they are. -/
example (inp : Mem) : ∃ out, LeCfg.compress ⟨false, false⟩ (some inp) 1000000 true 1004219 = .ok out.length out ∧ out.length ≤ 1004219 :=
  C20_low_entropy_partial false inp 1000000 1004219 (by decide) (by decide) (by decide)

/-- The streams of all sections. -/
theorem MSec.total {x : LeInfo} {inp : Mem} {R : Nat → Bool} {sz last : Nat} (hr : ∀ b, x.rle b = R b.toNat) : ∀ cnt start ds,
    MSec x inp sz last cnt start ds →
    sumTo (share 255 R inp start) 256 + ds.flatten.length ≤ sumTo (share 255 R inp (start + sz * cnt + last)) 256 + 4 * (cnt + 1) := by
  intro cnt
  induction cnt with
  | zero =>
    intro start ds h
    obtain ⟨d, rfl, h⟩ := h
    have h1 := section_total (Or.inr rfl) hr h
    simp only [List.flatten_cons, List.flatten_nil, List.append_nil, Nat.mul_zero, Nat.add_zero]
    have : (if start = 0 then 0 else 2) ≤ 2 := by split <;> omega
    omega
  | succ cnt ih =>
    intro start ds h
    obtain ⟨d, ds', rfl, h, hs⟩ := h
    have h1 := section_total (Or.inr rfl) hr h
    have h2 := ih _ _ hs
    rw [List.flatten_cons, List.length_append]
    have : (if start = 0 then 0 else 2) ≤ 2 := by split <;> omega
    rw [show start + sz * (cnt + 1) + last = start + sz + sz * cnt + last by rw [Nat.mul_succ]; omega]
    omega

/-- C20 for `rle8m_compress`: whenever it succeeds, the output is at most one byte in 255, eight bytes for each sub-section and the header
larger than the input. Missing: it writes more than the advertised bound, and may need more room than the output takes
(`C20_rle8m_partial`, `C20_rle8m_violated`). -/
theorem C20_rle8m_size_partial (k : Nat) (inp : Mem) (n outSize ret : Nat) (out : List Byte) (hn : 0 < n) (hn2 : n < 4294967295)
    (h : mCompress k (some inp) n true outSize = .ok ret out) : out.length ≤ n + n / 255 + 8 * k + 296 := by
  obtain ⟨hk0, x, w, ds, hx, hw, hs, hle, hret, hout⟩ := mCompress_ok h
  have hlen := hs.length
  have hl : out.length = 12 + 4 * (k - 1) + w.length + ds.flatten.length := by
    rw [hout]
    simp only [List.length_append, le32_length, mOffsets_length, hlen]
    omega
  have hwl : w.length ≤ 288 := by
    rw [hw, hx, LeCfg.info_eq, writeInfo_length]
    have := written_lt (tally (LeCfg.blk ⟨false, false⟩) inp n).pcount
      (if LeCfg.onlyMax ⟨false, false⟩ then flagMax (tally (LeCfg.blk ⟨false, false⟩) inp n)
        else flagAll (tally (LeCfg.blk ⟨false, false⟩) inp n))
    omega
  have h1 := MSec.total (R := flagAll (tally 255 inp n)) (by rw [hx]; exact fun _ => rfl) _ _ _ hs
  have h2 := share_total (Or.inr rfl) inp hn hn2
  have hdiv : n / k * (k - 1) ≤ n := Nat.le_trans (Nat.mul_le_mul_left _ (by omega)) (Nat.div_mul_le_self n k)
  rw [show 0 + n / k * (k - 1) + (n - n / k * (k - 1)) = n by omega] at h1
  omega

/-- The hypotheses can be met: three sub-sections of `sampleInp`. -/
example : ∃ ret out, mCompress 3 (some sampleInp) 60 true 500 = .ok ret out ∧ out.length ≤ 380 := by
  obtain ⟨out, h, _⟩ := C20_rle8m_partial 3 sampleInp 60 500 (by omega) (by omega) (by omega) (by omega)
  exact ⟨_, out, h, C20_rle8m_size_partial 3 sampleInp 60 500 _ out (by omega) (by omega) h⟩

end Hrk
