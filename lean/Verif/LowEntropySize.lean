import Verif.LowEntropyApi

/-
How large a low entropy stream gets.
-/

namespace Hrk

/-! ### Runs of one symbol -/

/-- Length of the run of `s` that ends just before position `i`. -/
def curRun (inp : Mem) (s : Nat) : Nat → Nat
  | 0 => 0
  | i + 1 => if (inp i).toNat = s then curRun inp s i + 1 else 0

/-- Occurrences of `s` before `i`. -/
def occs (inp : Mem) (s : Nat) : Nat → Nat
  | 0 => 0
  | i + 1 => if (inp i).toNat = s then occs inp s i + 1 else occs inp s i

/-- `length / blk + 1`, summed over the runs of `s` that end before `i` and have been followed by another byte. -/
def runCost (blk : Nat) (inp : Mem) (s : Nat) : Nat → Nat
  | 0 => 0
  | i + 1 => if (inp i).toNat ≠ s ∧ 0 < curRun inp s i then runCost blk inp s i + (curRun inp s i / blk + 1)
    else runCost blk inp s i

theorem curRun_succ (inp : Mem) (s i : Nat) : curRun inp s (i + 1) = if (inp i).toNat = s then curRun inp s i + 1 else 0 := rfl

theorem occs_succ (inp : Mem) (s i : Nat) : occs inp s (i + 1) = if (inp i).toNat = s then occs inp s i + 1 else occs inp s i := rfl

theorem runCost_succ (blk : Nat) (inp : Mem) (s i : Nat) : runCost blk inp s (i + 1) =
    if (inp i).toNat ≠ s ∧ 0 < curRun inp s i then runCost blk inp s i + (curRun inp s i / blk + 1)
    else runCost blk inp s i := rfl

theorem curRun_le (inp : Mem) (s : Nat) : ∀ i, curRun inp s i ≤ occs inp s i := by
  intro i
  induction i with
  | zero => exact Nat.le_refl _
  | succ i ih =>
    unfold curRun occs
    by_cases h : (inp i).toNat = s
    · rw [if_pos h, if_pos h]; omega
    · rw [if_neg h, if_neg h]; omega

theorem occs_le (inp : Mem) (s : Nat) : ∀ i, occs inp s i ≤ i := by
  intro i
  induction i with
  | zero => exact Nat.le_refl _
  | succ i ih =>
    unfold occs
    by_cases h : (inp i).toNat = s
    · rw [if_pos h]; omega
    · rw [if_neg h]; omega

theorem runCost_le {blk : Nat} (hb : 2 ≤ blk) (inp : Mem) (s : Nat) :
    ∀ i, runCost blk inp s i + curRun inp s i ≤ occs inp s i := by
  intro i
  induction i with
  | zero => exact Nat.le_refl _
  | succ i ih =>
    rw [runCost_succ, curRun_succ, occs_succ]
    have hle : curRun inp s i / blk ≤ curRun inp s i / 2 := Nat.div_le_div_left hb (by omega)
    by_cases h : (inp i).toNat = s
    · rw [if_pos h, if_pos h, if_neg (by omega)]; omega
    · rw [if_neg h, if_neg h]
      by_cases h2 : 0 < curRun inp s i
      · rw [if_pos ⟨h, h2⟩]; omega
      · rw [if_neg (by omega)]; omega

/-- What the statistics pass holds after `i + 1` bytes. -/
theorem tallyLoop_spec {blk : Nat} (hb : 2 ≤ blk) (inp : Mem) : ∀ i, i + 1 < 4294967296 →
    (tallyLoop blk inp (i + 1)).last = (inp i).toNat ∧
    (tallyLoop blk inp (i + 1)).count = curRun inp (inp i).toNat (i + 1) ∧
    ∀ s, (tallyLoop blk inp (i + 1)).pcount s = runCost blk inp s (i + 1) ∧
      (tallyLoop blk inp (i + 1)).prob s + curRun inp s (i + 1) = occs inp s (i + 1) := by
  intro i
  induction i with
  | zero =>
    intro _
    rw [tallyLoop_succ, show tallyLoop blk inp 0 = tallyInit inp from rfl]
    unfold tallyStep tallyInit
    by_cases hz : (inp 0).toNat = 0
    · simp only [hz, if_true, ne_eq, not_true_eq_false, if_false]
      refine ⟨trivial, by simp [curRun, hz], ?_⟩
      intro s
      simp [runCost, curRun, occs]
    · simp only [hz, if_false, ne_eq, not_false_eq_true, if_true]
      refine ⟨trivial, by simp [curRun], ?_⟩
      intro s
      refine ⟨?_, ?_⟩
      · simp only [upd, runCost, curRun]
        by_cases hs : s = 0
        · simp [hs]
        · simp [hs]
      · simp [upd, curRun, occs]
  | succ i ih =>
    intro hi
    obtain ⟨h1, h2, h3⟩ := ih (by omega)
    rw [tallyLoop_succ]
    generalize tallyLoop blk inp (i + 1) = t at *
    unfold tallyStep
    have hcpos : 0 < t.count := by rw [h2]; simp [curRun]
    have hcle := curRun_le inp (inp i).toNat (i + 1)
    by_cases he : (inp (i + 1)).toNat = t.last
    · rw [if_pos he]
      have hoc := occs_le inp (inp i).toNat (i + 1)
      refine ⟨by simp only; omega, ?_, ?_⟩
      · simp only
        rw [h2, he, h1, Nat.mod_eq_of_lt (by omega)]
        conv => rhs; unfold curRun
        rw [if_pos (by omega)]
      · intro s
        have hs := h3 s
        simp only [runCost.eq_2 blk inp s (i + 1), curRun.eq_2 inp s (i + 1), occs.eq_2 inp s (i + 1)]
        by_cases hss : (inp (i + 1)).toNat = s
        · rw [if_neg (by omega), if_pos hss, if_pos hss]; omega
        · rw [if_neg hss, if_neg hss]
          have hc0 : curRun inp s (i + 1) = 0 := by
            unfold curRun; rw [if_neg (by omega)]
          rw [if_neg (by omega)]; omega
    · rw [if_neg he]
      refine ⟨rfl, ?_, ?_⟩
      · simp only
        conv => rhs; unfold curRun
        rw [if_pos rfl]
        unfold curRun
        rw [if_neg (by omega)]
      · intro s
        have hs := h3 s
        have hrc := runCost_le hb inp s (i + 1)
        have hoc := occs_le inp s (i + 1)
        simp only [runCost.eq_2 blk inp s (i + 1), curRun.eq_2 inp s (i + 1), occs.eq_2 inp s (i + 1), upd]
        by_cases hss : s = t.last
        · rw [if_pos hss, if_pos hss]
          have hcs : t.count = curRun inp s (i + 1) := by rw [h2, hss, h1]
          have hle : curRun inp s (i + 1) / blk ≤ curRun inp s (i + 1) / 2 := Nat.div_le_div_left hb (by omega)
          rw [if_pos (by omega), if_neg (by omega), if_neg (by omega), ← hss, hcs, Nat.mod_eq_of_lt (by omega),
            Nat.mod_eq_of_lt (by omega)]
          omega
        · rw [if_neg hss, if_neg hss]
          have hc0 : curRun inp s (i + 1) = 0 := by
            unfold curRun; rw [if_neg (by omega)]
          by_cases hsn : (inp (i + 1)).toNat = s
          · rw [if_neg (by omega), if_pos hsn, if_pos hsn]; omega
          · rw [if_neg (by omega), if_neg hsn, if_neg hsn]; omega

/-- The statistics: `prob` counts occurrences, `pcount` is the cost of the runs, one for the last one. -/
theorem tally_spec {blk : Nat} (hb : 2 ≤ blk) (inp : Mem) {n : Nat} (hn : 0 < n) (hn2 : n < 4294967295) (s : Nat) :
    (tally blk inp n).prob s = occs inp s n ∧
    (tally blk inp n).pcount s = runCost blk inp s n + if 0 < curRun inp s n then 1 else 0 := by
  obtain ⟨h1, h2, h3⟩ := tallyLoop_spec hb inp (n - 1) (by omega)
  rw [show n - 1 + 1 = n by omega] at h1 h2 h3
  have hs := h3 s
  have hrc := runCost_le hb inp s n
  have hoc := occs_le inp s n
  simp only [tally, upd]
  by_cases hss : s = (tallyLoop blk inp n).last
  · have hcs : (tallyLoop blk inp n).count = curRun inp s n := by rw [h2, hss, h1]
    have hpos : 0 < curRun inp s n := by
      obtain ⟨k, rfl⟩ : ∃ k, n = k + 1 := ⟨n - 1, by omega⟩
      unfold curRun
      rw [if_pos]
      · omega
      · rw [hss, h1, Nat.add_sub_cancel]
    rw [if_pos hss, if_pos hss, if_pos hpos, ← hss, hcs, Nat.mod_eq_of_lt (by omega), Nat.mod_eq_of_lt (by omega)]
    omega
  · rw [if_neg hss, if_neg hss]
    have hc0 : curRun inp s n = 0 := by
      obtain ⟨k, rfl⟩ : ∃ k, n = k + 1 := ⟨n - 1, by omega⟩
      unfold curRun
      rw [if_neg]
      rw [Nat.add_sub_cancel] at h1
      omega
    rw [if_neg (by omega)]
    omega

/-! ### The encoder with one run symbol -/

theorem leMatch_stop (inp : Mem) (b : Byte) : ∀ k a, leMatch inp b a k < k → inp (a + leMatch inp b a k) ≠ b := by
  intro k
  induction k with
  | zero => intro a h; omega
  | succ k ih =>
    intro a h
    unfold leMatch at h ⊢
    by_cases hb : inp a = b
    · rw [if_pos hb] at h ⊢
      have := ih (a + 1) (by omega)
      rw [show a + (leMatch inp b (a + 1) k + 1) = a + 1 + leMatch inp b (a + 1) k by omega]
      exact this
    · rw [if_neg hb] at h ⊢
      exact hb

/-- `k` more bytes `s`. -/
theorem run_chunk {blk : Nat} {inp : Mem} {s i : Nat} : ∀ k, (∀ j, j < k → (inp (i + j)).toNat = s) →
    curRun inp s (i + k) = curRun inp s i + k ∧ occs inp s (i + k) = occs inp s i + k ∧
      runCost blk inp s (i + k) = runCost blk inp s i := by
  intro k
  induction k with
  | zero => intro _; exact ⟨rfl, rfl, rfl⟩
  | succ k ih =>
    intro h
    obtain ⟨h1, h2, h3⟩ := ih (fun j hj => h j (by omega))
    have hk := h k (by omega)
    rw [show i + (k + 1) = i + k + 1 by omega]
    rw [curRun_succ, occs_succ, runCost_succ]
    rw [if_pos hk, if_pos hk, if_neg (by omega)]
    omega

/-- Bytes written so far, when `s` is the only run symbol. -/
def LeSizeInv (blk : Nat) (inp : Mem) (n s : Nat) (st : Nat × List Byte) : Prop :=
  (st.1 < n ∧ st.2.length + occs inp s st.1 ≤ st.1 + 2 * (runCost blk inp s st.1 + (curRun inp s st.1 + blk - 1) / blk) ∧
    (curRun inp s st.1 % blk = 0 ∨ (inp st.1).toNat ≠ s ∨ st.1 = n - 1)) ∨
  (st.1 = n ∧ st.2.length + occs inp s n ≤ n + 2 * (runCost blk inp s n +
    if curRun inp s n = 0 then 0 else (curRun inp s n - 1 + blk - 1) / blk + 1))

theorem leStep_size {blk : Nat} {x : LeInfo} {inp : Mem} {n s i range : Nat} {out : List Byte} (hb : blk = 32 ∨ blk = 255)
    (hr : ∀ b, x.rle b = true ↔ b.toNat = s) (hi : i < n) (hrange : range = blk ∧ i + blk < n ∨ range = min (n - i - 1) blk)
    (h : LeSizeInv blk inp n s (i, out)) :
    LeSizeInv blk inp n s ((leStep x inp range i).2, out ++ (leStep x inp range i).1) := by
  rcases h with ⟨_, h1, h2⟩ | ⟨h0, _⟩
  · simp only at h1 h2
    unfold leStep
    by_cases hs : (inp i).toNat = s
    · simp only [(hr (inp i)).mpr hs, if_true]
      have hle := leMatch_le inp (inp i) (range - 1) (i + 1)
      have hstop := leMatch_stop inp (inp i) (range - 1) (i + 1)
      have heq : ∀ j, j < 1 + leMatch inp (inp i) (i + 1) (range - 1) → (inp (i + j)).toNat = s := by
        intro j hj
        cases j with
        | zero => exact hs
        | succ j =>
          have := leMatch_eq inp (inp i) (range - 1) (i + 1) j (by omega)
          rw [show i + (j + 1) = i + 1 + j by omega, this, hs]
      generalize leMatch inp (inp i) (i + 1) (range - 1) = c at *
      obtain ⟨g1, g2, g3⟩ := run_chunk (blk := blk) (1 + c) heq
      rw [show i + (1 + c) = i + 1 + c by omega] at g1 g2 g3
      by_cases hend : i = n - 1
      · refine Or.inr ⟨by simp only; omega, ?_⟩
        have hc0 : c = 0 := by omega
        subst hc0
        rw [show i + 1 + 0 = n by omega] at g1 g2 g3
        simp only [List.length_append, List.length_cons, List.length_nil]
        rw [g1, g2, g3, if_neg (by omega), show curRun inp s i + (1 + 0) - 1 = curRun inp s i by omega]
        omega
      · refine Or.inl ⟨by simp only; omega, ?_, ?_⟩
        · simp only [List.length_append, List.length_cons, List.length_nil]
          rw [g1, g2, g3]
          rcases hb with rfl | rfl <;> omega
        · simp only
          rw [g1]
          by_cases hc : c < range - 1
          · refine Or.inr (Or.inl ?_)
            intro hh
            exact hstop hc (UInt8.toNat_inj.mp (by rw [hh, hs]))
          · rcases hb with rfl | rfl <;> omega
    · have hf : x.rle (inp i) = false := by
        cases hx : x.rle (inp i) with
        | false => rfl
        | true => exact absurd ((hr _).mp hx) hs
      simp only [hf, Bool.false_eq_true, if_false]
      have g1 : curRun inp s (i + 1) = 0 := by rw [curRun_succ, if_neg hs]
      have g2 : occs inp s (i + 1) = occs inp s i := by rw [occs_succ, if_neg hs]
      have g3 : runCost blk inp s i + (curRun inp s i + blk - 1) / blk ≤ runCost blk inp s (i + 1) := by
        rw [runCost_succ]
        by_cases hc : 0 < curRun inp s i
        · rw [if_pos ⟨hs, hc⟩]
          rcases hb with rfl | rfl <;> omega
        · rw [if_neg (by omega)]
          rcases hb with rfl | rfl <;> omega
      by_cases hend : i + 1 < n
      · refine Or.inl ⟨hend, ?_, Or.inl (by simp only; rw [g1]; exact Nat.zero_mod _)⟩
        have h5 := Nat.zero_le ((curRun inp s (i + 1) + blk - 1) / blk)
        simp only [List.length_append, List.length_cons, List.length_nil]
        omega
      · refine Or.inr ⟨by simp only; omega, ?_⟩
        have hn : i + 1 = n := by omega
        rw [hn] at g1 g2 g3
        simp only [List.length_append, List.length_cons, List.length_nil]
        omega
  · simp only at h0
    omega

theorem leEncode_size {blk : Nat} {x : LeInfo} {inp : Mem} {n s : Nat} {d : List Byte} (hb : blk = 32 ∨ blk = 255) (hn : 0 < n)
    (hr : ∀ b, x.rle b = true ↔ b.toNat = s) (h : leEncode blk x inp n = some d) :
    d.length + occs inp s n ≤ n + 2 * (runCost blk inp s n +
      if curRun inp s n = 0 then 0 else (curRun inp s n - 1 + blk - 1) / blk + 1) := by
  refine loop_rule_partial (LeSizeInv blk inp n s) (fun d => d.length + occs inp s n ≤ n + 2 * (runCost blk inp s n +
      if curRun inp s n = 0 then 0 else (curRun inp s n - 1 + blk - 1) / blk + 1)) ?_ _ _ _ ?_ h
  · intro st hst
    obtain ⟨i, out⟩ := st
    have hle : i ≤ n := by rcases hst with ⟨h, _⟩ | ⟨h, _⟩ <;> simp only at h <;> omega
    unfold leLoopStep
    generalize hT : n - 256 = T
    by_cases h3 : i < T
    · simp only [if_pos h3, Post_inl]
      exact leStep_size hb hr (by omega) (Or.inl ⟨rfl, by omega⟩) hst
    · simp only [if_neg h3]
      by_cases h4 : i < n
      · simp only [if_pos h4, Post_inl]
        exact leStep_size hb hr h4 (Or.inr rfl) hst
      · simp only [if_neg h4, Post_inr]
        rcases hst with ⟨h, _⟩ | ⟨_, h⟩
        · simp only at h; omega
        · exact h
  · refine Or.inl ⟨hn, ?_, Or.inl ?_⟩
    · simp [occs]
    · simp [curRun]

/-- Without run symbols the input is copied. -/
theorem leEncode_size0 {blk : Nat} {x : LeInfo} {inp : Mem} {n : Nat} {d : List Byte} (hr : ∀ b, x.rle b = false)
    (h : leEncode blk x inp n = some d) : d.length ≤ n := by
  refine loop_rule_partial (fun s => s.2.length ≤ s.1 ∧ s.1 ≤ n) (fun d => d.length ≤ n) ?_ _ _ _ ?_ h
  · intro st hst
    obtain ⟨i, out⟩ := st
    simp only at hst
    unfold leLoopStep leStep
    generalize hT : n - 256 = T
    simp only [hr, Bool.false_eq_true, if_false]
    by_cases h3 : i < T
    · simp only [if_pos h3, Post_inl, List.length_append, List.length_cons, List.length_nil]; omega
    · simp only [if_neg h3]
      by_cases h4 : i < n
      · simp only [if_pos h4, Post_inl, List.length_append, List.length_cons, List.length_nil]; omega
      · simp only [if_neg h4, Post_inr]; omega
  · simp

/-- The symbol chosen by `only_max_frequency` occurs three times as often as it starts a block. -/
theorem bestSaved_spec (t : Tally) (h : (bestSaved t).1 > 0) :
    t.prob (bestSaved t).2 / t.pcount (bestSaved t).2 > 2 := by
  have key : ∀ (l : List Nat) (b : Nat × Nat), (b.1 > 0 → t.prob b.2 / t.pcount b.2 > 2) →
      let r := l.foldl (fun b i =>
        if t.pcount i > 0 ∧ t.prob i / t.pcount i > 2 then
          (if t.prob i - t.pcount i * 2 > b.1 then (t.prob i - t.pcount i * 2, i) else b)
        else b) b
      r.1 > 0 → t.prob r.2 / t.pcount r.2 > 2 := by
    intro l
    induction l with
    | nil => intro b hb; exact hb
    | cons i l ih =>
      intro b hb
      rw [List.foldl_cons]
      apply ih
      by_cases h1 : t.pcount i > 0 ∧ t.prob i / t.pcount i > 2
      · rw [if_pos h1]
        by_cases h2 : t.prob i - t.pcount i * 2 > b.1
        · rw [if_pos h2]; exact fun _ => h1.2
        · rw [if_neg h2]; exact hb
      · rw [if_neg h1]; exact hb
  exact key _ (0, 0) (fun h => absurd h (by decide)) h

/-- What follows the symbol table is at most one byte longer than the input. -/
theorem onlyMax_size {short : Bool} {inp : Mem} {n : Nat} {d : List Byte} (hn : 0 < n) (hn2 : n < 4294967295)
    (hd : leEncode (LeCfg.blk ⟨short, true⟩) (LeCfg.info ⟨short, true⟩ inp n) inp n = some d) : d.length ≤ n + 1 := by
  have hb := LeCfg.blk_cases ⟨short, true⟩
  have hb' : LeCfg.blk ⟨short, true⟩ = 32 ∨ LeCfg.blk ⟨short, true⟩ = 255 := by omega
  have hrle : ∀ b, (LeCfg.info ⟨short, true⟩ inp n).rle b = flagMax (tally (LeCfg.blk ⟨short, true⟩) inp n) b.toNat := fun _ => rfl
  generalize LeCfg.blk ⟨short, true⟩ = blk at *
  by_cases hf : (bestSaved (tally blk inp n)).1 > 0
  · have h3 := bestSaved_spec _ hf
    have hsz := leEncode_size (s := (bestSaved (tally blk inp n)).2) hb' hn (by
      intro b
      rw [hrle]
      simp only [flagMax, hf, decide_true, Bool.true_and, beq_iff_eq]) hd
    obtain ⟨g1, g2⟩ := tally_spec (blk := blk) (by omega) inp hn (by omega) (bestSaved (tally blk inp n)).2
    rw [g1, g2] at h3
    generalize (bestSaved (tally blk inp n)).2 = s at *
    have hrc := runCost_le (blk := blk) (by omega) inp s n
    generalize runCost blk inp s n = p at *
    generalize curRun inp s n = c at *
    generalize occs inp s n = oc at *
    by_cases hc : c = 0
    · subst hc
      rw [if_neg (by omega)] at h3
      rw [if_pos rfl] at hsz
      have h4 : 3 * p ≤ oc := by
        have := Nat.div_mul_le_self oc (p + 0)
        have h5 : 3 * (p + 0) ≤ oc / (p + 0) * (p + 0) := Nat.mul_le_mul_right _ (by omega)
        omega
      omega
    · rw [if_pos (by omega)] at h3
      rw [if_neg hc] at hsz
      have h4 : 3 * (p + 1) ≤ oc := by
        have := Nat.div_mul_le_self oc (p + 1)
        have h5 : 3 * (p + 1) ≤ oc / (p + 1) * (p + 1) := Nat.mul_le_mul_right _ (by omega)
        omega
      rcases hb' with h | h <;> subst h <;> omega
  · have := leEncode_size0 (fun b => by rw [hrle]; simp only [flagMax]; simp only [hf, decide_false, Bool.false_and]) hd
    omega

/-- C20: `rle8_low_entropy_compress_only_max_frequency` and the short version never write more than
`rle8_low_entropy_compress_bounds` bytes. -/
theorem C20_low_entropy_only_max_fits (short : Bool) : FitsBounds leBounds (LeCfg.compress ⟨short, true⟩) := by
  intro inp n outSize hn hn2 ho ho2
  unfold maxInput at hn2
  have hbd : leBounds n = n + 297 := Nat.mod_eq_of_lt (by omega)
  have hb := LeCfg.blk_cases ⟨short, true⟩
  have hb' : LeCfg.blk ⟨short, true⟩ = 32 ∨ LeCfg.blk ⟨short, true⟩ = 255 := by omega
  obtain ⟨y, _, _, hy3⟩ := C34_info_roundtrip ⟨short, true⟩ inp n []
  obtain ⟨d, hd, _⟩ := leEncode_spec (cnt := y.toCount) (mx := LeCfg.blk ⟨short, true⟩ - 1) (x := LeCfg.info ⟨short, true⟩ inp n)
    (inp := inp) (n := n) (blk := LeCfg.blk ⟨short, true⟩) (by omega) (by omega) (by omega) hy3
  have hw : (writeInfo (LeCfg.info ⟨short, true⟩ inp n)).length ≤ 288 := by
    rw [LeCfg.info_eq, writeInfo_length]
    have := written_lt (tally (LeCfg.blk ⟨short, true⟩) inp n).pcount
      (if LeCfg.onlyMax ⟨short, true⟩ then flagMax (tally (LeCfg.blk ⟨short, true⟩) inp n)
        else flagAll (tally (LeCfg.blk ⟨short, true⟩) inp n))
    omega
  have hsize : d.length ≤ n + 1 := onlyMax_size hn (by omega) hd
  clear hy3
  simp only [LeCfg.compress]
  generalize LeCfg.info ⟨short, true⟩ inp n = x at *
  obtain ⟨out, hout⟩ : ∃ out, out = le32 (8 + (writeInfo x).length + d.length) ++ le32 n ++ writeInfo x ++ d := ⟨_, rfl⟩
  have hl : out.length = 8 + (writeInfo x).length + d.length := by rw [hout]; simp; omega
  refine ⟨out, ?_, by omega⟩
  rw [if_neg (by simp; omega), if_neg (by omega), if_neg (by omega), if_neg (by omega), if_neg (by rw [Nat.mod_eq_of_lt (by omega)]; omega), hd]
  simp only
  rw [if_pos (by omega), Nat.mod_eq_of_lt (by omega), ← hout, ← hl]

/-! ### C20: the violation -/

/-- Every byte value once, and the last one a second time: `0 1 2 ... 254 255 255`. -/
def ascInp : Mem := fun k => if k < 256 then b8 k else 255

theorem asc_runs (blk : Nat) (hb : 2 ≤ blk) (s : Nat) : ∀ i, i ≤ 256 →
    curRun ascInp s i = (if s + 1 = i then 1 else 0) ∧ occs ascInp s i = (if s < i then 1 else 0) ∧
      runCost blk ascInp s i = if s + 1 < i then 1 else 0 := by
  intro i
  induction i with
  | zero => intro _; simp [curRun, occs, runCost]
  | succ i ih =>
    intro hi
    obtain ⟨h1, h2, h3⟩ := ih (by omega)
    have hv : (ascInp i).toNat = i := by
      unfold ascInp
      rw [if_pos (by omega), b8_toNat]
      omega
    have e1 : curRun ascInp s i / blk = 0 := Nat.div_eq_of_lt (by rw [h1]; split <;> omega)
    rw [curRun_succ, occs_succ, runCost_succ, hv, e1, h1, h2, h3]
    clear h1 h2 h3 e1 ih hv hb
    grind

theorem asc_tally (blk : Nat) (hb : 2 ≤ blk) (s : Nat) (hs : s < 256) :
    (tally blk ascInp 257).prob s = (if s = 255 then 2 else 1) ∧ (tally blk ascInp 257).pcount s = 1 := by
  obtain ⟨h1, h2⟩ := tally_spec hb ascInp (n := 257) (by omega) (by omega) s
  obtain ⟨g1, g2, g3⟩ := asc_runs blk hb s 256 (by omega)
  have hv : (ascInp 256).toNat = 255 := by decide
  have e1 : curRun ascInp s 256 / blk = 0 := Nat.div_eq_of_lt (by rw [g1]; split <;> omega)
  rw [h1, h2, show 257 = 256 + 1 from rfl, curRun_succ, occs_succ, runCost_succ, hv, e1, g1, g2, g3]
  clear h1 h2 g1 g2 g3 e1 hb hv
  grind

theorem asc_flags (short : Bool) : (LeCfg.info ⟨short, false⟩ ascInp 257).rle = fun b => b == 255 := by
  funext b
  show flagAll (tally (LeCfg.blk ⟨short, false⟩) ascInp 257) b.toNat = (b == 255)
  obtain ⟨h1, h2⟩ := asc_tally (LeCfg.blk ⟨short, false⟩) (by cases short <;> decide) b.toNat b.toNat_lt
  simp only [flagAll, h1, h2]
  by_cases hb : b.toNat = 255
  · have hb' : b = 255 := UInt8.toNat_inj.mp hb
    subst hb'
    decide
  · have hb' : b ≠ 255 := fun h => hb (by rw [h]; decide)
    rw [if_neg hb]
    simp [hb']

theorem asc_len : ∀ short, loop (leLenStep (LeCfg.blk ⟨short, false⟩) (fun b => b == 255) ascInp 257) (257 + 1) (0, 0) = some 259 := by
  decide +kernel

theorem asc_info (short : Bool) : (writeInfo (LeCfg.info ⟨short, false⟩ ascInp 257)).length = 288 := by
  have hpc : absent (tally (LeCfg.blk ⟨short, false⟩) ascInp 257).pcount 256 [] = [] := by
    rw [absent_eq]
    rw [List.filter_eq_nil_iff.mpr]
    · rfl
    · intro i hi
      have hi' : i < 256 := by simpa using hi
      have := (asc_tally (LeCfg.blk ⟨short, false⟩) (by cases short <;> decide) i hi').2
      simp [this]
  rw [LeCfg.info_eq, writeInfo_length]
  have : (infoOf (tally (LeCfg.blk ⟨short, false⟩) ascInp 257).pcount
      (if LeCfg.onlyMax ⟨short, false⟩ then flagMax (tally (LeCfg.blk ⟨short, false⟩) ascInp 257)
        else flagAll (tally (LeCfg.blk ⟨short, false⟩) ascInp 257))).symbolCount = 0 := by
    simp only [infoOf, hpc]
    rfl
  simp only [LeInfo.written, this]
  rfl

/-- C20 is false for `rle8_low_entropy_compress` and `rle8_low_entropy_short_compress`: given a buffer of exactly
`rle8_low_entropy_compress_bounds(257)` = 554 bytes they write 555. -/
theorem C20_low_entropy_violated (short : Bool) :
    leBounds 257 = 554 ∧ LeCfg.compress ⟨short, false⟩ (some ascInp) 257 true 554 = .ub ∧
    ∃ ret out, LeCfg.compress ⟨short, false⟩ (some ascInp) 257 true 1000 = .ok ret out ∧ out.length = 555 := by
  have hb := LeCfg.blk_cases ⟨short, false⟩
  obtain ⟨y, _, _, hy3⟩ := C34_info_roundtrip ⟨short, false⟩ ascInp 257 []
  obtain ⟨d, hd, _⟩ := leEncode_spec (cnt := y.toCount) (mx := LeCfg.blk ⟨short, false⟩ - 1) (x := LeCfg.info ⟨short, false⟩ ascInp 257)
    (inp := ascInp) (n := 257) (blk := LeCfg.blk ⟨short, false⟩) (by omega) (by omega) (by omega) hy3
  have hdl := leEncode_len hd (asc_flags short) (asc_len short)
  have hw := asc_info short
  refine ⟨rfl, ?_, ?_⟩
  · simp only [LeCfg.compress]
    rw [if_neg (by decide), if_neg (by decide), if_neg (by decide), if_neg (by omega), if_neg (by omega), hd]
    simp only
    rw [if_neg (by omega)]
  · simp only [LeCfg.compress]
    rw [if_neg (by decide), if_neg (by decide), if_neg (by decide), if_neg (by omega), if_neg (by omega), hd]
    simp only
    rw [if_pos (by omega)]
    refine ⟨_, _, rfl, ?_⟩
    simp only [List.length_append, le32_length, hw, hdl]

end Hrk
