import Verif.Runs
import Verif.PropsToolAll
import Verif.OthersLow

/-
C73: the table at the front of a low entropy stream describes the input it was made from.
-/

namespace Hrk

/-- The byte values a table lists in front: all of them if `symbolCount`, a byte, is 0. -/
def LeInfo.listed (x : LeInfo) : List Byte := x.byProb.take (if x.symbolCount = 0 then 256 else x.symbolCount)

/-- The byte values behind them. -/
def LeInfo.unlisted (x : LeInfo) : List Byte := x.byProb.drop (if x.symbolCount = 0 then 256 else x.symbolCount)

theorem split_aux (pc : Nat → Nat) (hlt : (absent pc 256 []).length < 256) :
    ((chosen pc (256 - (absent pc 256 []).length) (fun i => pc i == 0) ++ absent pc 256 []).map b8).take
      (if (256 - (absent pc 256 []).length) % 256 = 0 then 256 else (256 - (absent pc 256 []).length) % 256) =
        (chosen pc (256 - (absent pc 256 []).length) (fun i => pc i == 0)).map b8 ∧
    ((chosen pc (256 - (absent pc 256 []).length) (fun i => pc i == 0) ++ absent pc 256 []).map b8).drop
      (if (256 - (absent pc 256 []).length) % 256 = 0 then 256 else (256 - (absent pc 256 []).length) % 256) =
        ((List.range 256).filter fun j => pc j == 0).map b8 := by
  have hlen := (chosen_all pc).2.2
  have ha := absent_eq pc 256 []
  rw [List.append_nil] at ha
  have hk : (if (256 - (absent pc 256 []).length) % 256 = 0 then 256 else (256 - (absent pc 256 []).length) % 256) =
      256 - (absent pc 256 []).length := by
    by_cases h0 : (absent pc 256 []).length = 0
    · rw [h0]; rfl
    · rw [Nat.mod_eq_of_lt (by omega), if_neg (by omega)]
  rw [hk, List.map_append]
  constructor
  · rw [List.take_append_of_le_length (by simp [hlen]), List.take_of_length_le (by simp [hlen])]
  · rw [List.drop_append_of_le_length (by simp [hlen]), List.drop_eq_nil_of_le (by simp [hlen]), List.nil_append, ← ha]

theorem info_split (c : LeCfg) (inp : Mem) {n : Nat} (hn : 0 < n) (hn2 : n < 4294967295) :
    (c.info inp n).listed = (chosen (tally c.blk inp n).pcount (256 - (absent (tally c.blk inp n).pcount 256 []).length)
      (fun i => (tally c.blk inp n).pcount i == 0)).map b8 ∧
    (c.info inp n).unlisted = ((List.range 256).filter fun j => (tally c.blk inp n).pcount j == 0).map b8 := by
  have hb : c.blk = 32 ∨ c.blk = 255 := by unfold LeCfg.blk; cases c.short <;> simp
  exact split_aux (tally c.blk inp n).pcount (Cli.absent_lt hb (inp := inp) hn hn2)

/-- C73: a table lists exactly the byte values that occur. -/
theorem C73_listed (tbl : LeCfg) (inp : Mem) (n : Nat) (hn2 : n < 4294967295) (x : LeInfo)
    (hx : getInfoApi tbl (some inp) n true = some x) (v : Byte) : v ∈ x.listed ↔ v ∈ rd inp 0 n := by
  have hn : 0 < n := by
    rcases Nat.eq_zero_or_pos n with h0 | h0
    · subst h0; simp [getInfoApi] at hx
    · exact h0
  have hb : 2 ≤ tbl.blk := by unfold LeCfg.blk; cases tbl.short <;> simp
  have hx := getInfoApi_eq hx
  subst hx
  rw [(info_split tbl inp hn hn2).1, List.mem_map, ← pieces_pos_iff hb inp hn v, ← (tally_runs hb inp hn hn2 v).2]
  constructor
  · rintro ⟨i, hi, rfl⟩
    obtain ⟨h1, h2⟩ := ((chosen_all _).2.1 i).mp hi
    rw [b8_toNat, Nat.mod_eq_of_lt h1]
    omega
  · intro h
    exact ⟨v.toNat, ((chosen_all _).2.1 _).mpr ⟨v.toNat_lt, by omega⟩, b8_of_toNat v⟩

/-- C73: those with more pieces of runs come first, of those with equally many the smaller value. -/
theorem C73_order (tbl : LeCfg) (inp : Mem) (n : Nat) (hn2 : n < 4294967295) (x : LeInfo)
    (hx : getInfoApi tbl (some inp) n true = some x) :
    x.listed.Pairwise fun u v =>
      pieces tbl.blk v (runsOf (rd inp 0 n)) < pieces tbl.blk u (runsOf (rd inp 0 n)) ∨
        pieces tbl.blk v (runsOf (rd inp 0 n)) = pieces tbl.blk u (runsOf (rd inp 0 n)) ∧ u < v := by
  have hn : 0 < n := by
    rcases Nat.eq_zero_or_pos n with h0 | h0
    · subst h0; simp [getInfoApi] at hx
    · exact h0
  have hb : 2 ≤ tbl.blk := by unfold LeCfg.blk; cases tbl.short <;> simp
  have hx := getInfoApi_eq hx
  subst hx
  rw [(info_split tbl inp hn hn2).1, List.pairwise_map]
  have hm := (chosen_all (tally tbl.blk inp n).pcount).2.1
  refine List.Pairwise.imp_of_mem ?_ (chosen_all_sorted (tally tbl.blk inp n).pcount)
  intro i j hi hj h
  have hi := ((hm i).mp hi).1
  have hj := ((hm j).mp hj).1
  rw [← (tally_runs hb inp hn hn2 _).2, ← (tally_runs hb inp hn hn2 _).2, UInt8.lt_iff_toNat_lt]
  simp only [b8_toNat, Nat.mod_eq_of_lt hi, Nat.mod_eq_of_lt hj]
  exact h

/-- C73: the values that do not occur follow, the smaller ones first. -/
theorem C73_rest (tbl : LeCfg) (inp : Mem) (n : Nat) (hn2 : n < 4294967295) (x : LeInfo)
    (hx : getInfoApi tbl (some inp) n true = some x) : x.unlisted.Pairwise (· < ·) := by
  have hn : 0 < n := by
    rcases Nat.eq_zero_or_pos n with h0 | h0
    · subst h0; simp [getInfoApi] at hx
    · exact h0
  have hx := getInfoApi_eq hx
  subst hx
  rw [(info_split tbl inp hn hn2).2, List.pairwise_map]
  refine List.Pairwise.imp_of_mem ?_ (List.pairwise_lt_range.filter _)
  intro i j hi hj h
  rw [List.mem_filter, List.mem_range] at hi hj
  rw [UInt8.lt_iff_toNat_lt]
  simp only [b8_toNat, Nat.mod_eq_of_lt hi.1, Nat.mod_eq_of_lt hj.1]
  exact h

/-- C73: `*_compress` flags a byte value exactly if it occurs and its runs are on average, by the pieces they are counted as, two bytes
long or longer. Missing: the last run counts as one piece however long it is, see `C73_last_run_violated`. -/
theorem C73_flags_partial (short : Bool) (inp : Mem) (n : Nat) (hn2 : n < 4294967295) (x : LeInfo)
    (hx : getInfoApi ⟨short, false⟩ (some inp) n true = some x) (v : Byte) :
    x.rle v = true ↔ v ∈ rd inp 0 n ∧ 2 * pieces (LeCfg.blk ⟨short, false⟩) v (runsOf (rd inp 0 n)) ≤ (rd inp 0 n).count v := by
  have hn : 0 < n := by
    rcases Nat.eq_zero_or_pos n with h0 | h0
    · subst h0; simp [getInfoApi] at hx
    · exact h0
  have hb : 2 ≤ LeCfg.blk ⟨short, false⟩ := by unfold LeCfg.blk; cases short <;> simp
  have hx := getInfoApi_eq hx
  subst hx
  show flagAll (tally (LeCfg.blk ⟨short, false⟩) inp n) v.toNat = true ↔ _
  obtain ⟨t1, t2⟩ := tally_runs hb inp hn hn2 v
  rw [← pieces_pos_iff hb inp hn v, ← t1, ← t2]
  unfold flagAll
  by_cases h : (tally (LeCfg.blk ⟨short, false⟩) inp n).pcount v.toNat > 0
  · rw [if_pos h, decide_eq_true_eq, ge_iff_le, Nat.le_div_iff_mul_le h]
    exact ⟨fun g => ⟨h, g⟩, fun g => g.2⟩
  · rw [if_neg h]
    exact ⟨fun g => (Bool.false_ne_true g).elim, fun g => absurd g.1 h⟩

/-- C73: the candidates of `*_compress_only_max_frequency` are the byte values whose runs are on average three bytes long or longer. -/
def Candidate (blk : Nat) (l : List Byte) (v : Byte) : Prop := v ∈ l ∧ 3 * pieces blk v (runsOf l) ≤ l.count v

/-- What flagging a value saves: its occurrences, minus two bytes for each piece. -/
def saving (blk : Nat) (l : List Byte) (v : Byte) : Nat := l.count v - 2 * pieces blk v (runsOf l)

/-- C73: it flags the candidate that saves most, of several the smallest, and none only if there is no candidate. Missing: values whose
runs are shorter than three bytes on average are no candidates, even if they would save more (`C73_best_violated`). -/
theorem C73_best_partial (short : Bool) (inp : Mem) (n : Nat) (hn2 : n < 4294967295) (x : LeInfo)
    (hx : getInfoApi ⟨short, true⟩ (some inp) n true = some x) :
    ((∀ v, x.rle v = false) ∧ ∀ v, ¬ Candidate (LeCfg.blk ⟨short, true⟩) (rd inp 0 n) v) ∨
      ∃ v, (∀ u, x.rle u = true ↔ u = v) ∧ Candidate (LeCfg.blk ⟨short, true⟩) (rd inp 0 n) v ∧
        ∀ u, Candidate (LeCfg.blk ⟨short, true⟩) (rd inp 0 n) u → u ≠ v →
          saving (LeCfg.blk ⟨short, true⟩) (rd inp 0 n) u < saving (LeCfg.blk ⟨short, true⟩) (rd inp 0 n) v ∨
            saving (LeCfg.blk ⟨short, true⟩) (rd inp 0 n) u = saving (LeCfg.blk ⟨short, true⟩) (rd inp 0 n) v ∧ v < u := by
  have hn : 0 < n := by
    rcases Nat.eq_zero_or_pos n with h0 | h0
    · subst h0; simp [getInfoApi] at hx
    · exact h0
  have hb : 2 ≤ LeCfg.blk ⟨short, true⟩ := by unfold LeCfg.blk; cases short <;> simp
  have hx := getInfoApi_eq hx
  subst hx
  have hr : ∀ u, (LeCfg.info ⟨short, true⟩ inp n).rle u = flagMax (tally (LeCfg.blk ⟨short, true⟩) inp n) u.toNat := fun _ => rfl
  have hc : ∀ v, Candidate (LeCfg.blk ⟨short, true⟩) (rd inp 0 n) v ↔ 0 < leScore (tally (LeCfg.blk ⟨short, true⟩) inp n) v.toNat := by
    intro v
    obtain ⟨t1, t2⟩ := tally_runs hb inp hn hn2 v
    unfold Candidate leScore
    rw [← pieces_pos_iff hb inp hn v, ← t1, ← t2]
    generalize (tally (LeCfg.blk ⟨short, true⟩) inp n).pcount v.toNat = p
    generalize (tally (LeCfg.blk ⟨short, true⟩) inp n).prob v.toNat = q
    by_cases hp : 0 < p
    · have e : q / p > 2 ↔ 3 * p ≤ q := by rw [← Nat.le_div_iff_mul_le hp]; exact Iff.rfl
      by_cases h3 : 3 * p ≤ q
      · rw [if_pos ⟨hp, e.mpr h3⟩]
        exact ⟨fun _ => by omega, fun _ => ⟨hp, h3⟩⟩
      · rw [if_neg (fun h => h3 (e.mp h.2))]
        exact ⟨fun h => absurd h.2 h3, fun h => absurd h (by omega)⟩
    · rw [if_neg (fun h => hp h.1)]
      exact ⟨fun h => absurd h.1 hp, fun h => absurd h (by omega)⟩
  have hs : ∀ v, Candidate (LeCfg.blk ⟨short, true⟩) (rd inp 0 n) v →
      leScore (tally (LeCfg.blk ⟨short, true⟩) inp n) v.toNat = saving (LeCfg.blk ⟨short, true⟩) (rd inp 0 n) v := by
    intro v hv
    have h0 := (hc v).mp hv
    obtain ⟨t1, t2⟩ := tally_runs hb inp hn hn2 v
    unfold saving
    unfold leScore at h0 ⊢
    rw [← t1, ← t2]
    split at h0
    · rename_i h; rw [if_pos h, Nat.mul_comm]
    · exact absurd h0 (by omega)
  generalize tally (LeCfg.blk ⟨short, true⟩) inp n = t at hr hc hs
  have he : bestSaved t = (List.range 256).foldl (fun (a : Nat × Nat) i => if leScore t i > a.1 then (leScore t i, i) else a) (0, 0) := by
    unfold bestSaved
    congr 1
    funext a i
    unfold leScore
    by_cases h : t.pcount i > 0 ∧ t.prob i / t.pcount i > 2
    · rw [if_pos h, if_pos h]
    · rw [if_neg h, if_neg h, if_neg (by omega)]
  have H := maxFold (leScore t) (List.range 256) (0, 0) List.pairwise_lt_range
  dsimp only at H
  rw [← he] at H
  obtain ⟨_, g2, g3⟩ := H
  rcases g3 with g3 | ⟨a1, a2, a3, a4⟩
  · refine .inl ⟨?_, ?_⟩
    · intro v
      rw [hr]
      unfold flagMax
      rw [g3]
      rfl
    · intro v hv
      have h1 := (hc v).mp hv
      have h2 := g2 v.toNat (List.mem_range.mpr v.toNat_lt)
      rw [g3] at h2
      exact absurd h1 (by omega)
  · have hlt : (bestSaved t).2 < 256 := List.mem_range.mp a1
    have htn : (b8 (bestSaved t).2).toNat = (bestSaved t).2 := by rw [b8_toNat, Nat.mod_eq_of_lt hlt]
    have hcv : Candidate (LeCfg.blk ⟨short, true⟩) (rd inp 0 n) (b8 (bestSaved t).2) := by
      rw [hc, htn, ← a2]; exact a3
    refine .inr ⟨b8 (bestSaved t).2, ?_, hcv, ?_⟩
    · intro u
      rw [hr]
      unfold flagMax
      rw [Bool.and_eq_true, decide_eq_true_eq, beq_iff_eq]
      constructor
      · rintro ⟨_, h⟩; rw [← h, b8_of_toNat]
      · rintro rfl; exact ⟨a3, htn⟩
    · intro u hu hne
      have s1 := hs u hu
      have s2 := hs _ hcv
      rw [htn, ← a2] at s2
      rw [← s1, ← s2, UInt8.lt_iff_toNat_lt, htn]
      have h2 := g2 u.toNat (List.mem_range.mpr u.toNat_lt)
      by_cases hl : u.toNat < (bestSaved t).2
      · exact .inl (a4 u.toNat (List.mem_range.mpr u.toNat_lt) hl)
      · have : u.toNat ≠ (bestSaved t).2 := by
          intro e; apply hne; rw [← e, b8_of_toNat]
        omega

/-! ### Where it fails -/

/-- Single 7s between 1s, then a run of 7s of the length of a piece: 30 and 32 of them, or 253 and 255. -/
def lastRunInp (blk : Nat) : Mem := fun k => if k < 2 * (blk - 2) ∧ k % 2 = 1 then 1 else 7

/-- C73 is false as far as runs at the end are concerned: a value is flagged although its runs, counted like all others, are shorter
than two bytes on average. -/
theorem C73_last_run_violated (short : Bool) : ∃ inp n x, getInfoApi ⟨short, false⟩ (some inp) n true = some x ∧
    x.rle 7 = true ∧ (rd inp 0 n).count 7 < 2 * allPieces (LeCfg.blk ⟨short, false⟩) 7 (runsOf (rd inp 0 n)) := by
  cases short
  · refine ⟨lastRunInp 255, 761, LeCfg.info ⟨false, false⟩ (lastRunInp 255) 761, rfl, ?_, by decide +kernel⟩
    rw [C73_flags_partial false (lastRunInp 255) 761 (by omega) _ rfl]
    exact ⟨by decide +kernel, by decide +kernel⟩
  · refine ⟨lastRunInp 32, 92, LeCfg.info ⟨true, false⟩ (lastRunInp 32) 92, rfl, ?_, by decide +kernel⟩
    rw [C73_flags_partial true (lastRunInp 32) 92 (by omega) _ rfl]
    exact ⟨by decide +kernel, by decide +kernel⟩

theorem max_rle (short : Bool) (inp : Mem) (n : Nat) (u : Byte) :
    (LeCfg.info ⟨short, true⟩ inp n).rle u = flagMax (tally (LeCfg.blk ⟨short, true⟩) inp n) u.toNat := rfl

/-- `7 7 7 1 7 7 1` eight times, then `3 3 3 1`. -/
def bestInp : Mem := fun k => if k < 56 then (if k % 7 = 3 ∨ k % 7 = 6 then 1 else 7) else if k < 59 then 3 else 1

/-- C73 is false of the choice of the one run symbol: 3 is flagged and saves one byte, while flagging 7 instead would have saved eight. -/
theorem C73_best_violated (short : Bool) : ∃ x d d', getInfoApi ⟨short, true⟩ (some bestInp) 60 true = some x ∧
    (∀ u, x.rle u = true ↔ u = 3) ∧ leEncode (LeCfg.blk ⟨short, true⟩) x bestInp 60 = some d ∧ d.length = 59 ∧
      leEncode (LeCfg.blk ⟨short, true⟩) { x with rle := fun u => u == 7 } bestInp 60 = some d' ∧ d'.length = 52 := by
  have hb := LeCfg.blk_cases ⟨short, true⟩
  obtain ⟨y, _, _, hy3⟩ := C34_info_roundtrip ⟨short, true⟩ bestInp 60 []
  obtain ⟨d, hd, _⟩ := leEncode_spec (cnt := y.toCount) (mx := LeCfg.blk ⟨short, true⟩ - 1) (x := LeCfg.info ⟨short, true⟩ bestInp 60)
    (inp := bestInp) (n := 60) (blk := LeCfg.blk ⟨short, true⟩) (by omega) (by omega) (by omega) hy3
  have hx' : ∀ x : LeInfo, (∀ k, k < 256 → y.toCount (x.byProb.getD k 0) = k) →
      ∃ d', leEncode (LeCfg.blk ⟨short, true⟩) { x with rle := fun u => u == 7 } bestInp 60 = some d' := fun x hx =>
    (leEncode_spec (cnt := y.toCount) (mx := LeCfg.blk ⟨short, true⟩ - 1) (x := { x with rle := fun u => u == 7 })
      (by omega) (by omega) (by omega) hx).imp fun _ h => h.1
  obtain ⟨d', hd'⟩ := hx' _ hy3
  have hbest : bestSaved (tally (LeCfg.blk ⟨short, true⟩) bestInp 60) = (1, 3) := by cases short <;> decide +kernel
  have hr : (LeCfg.info ⟨short, true⟩ bestInp 60).rle = fun u => u == 3 := by
    funext u
    rw [max_rle]
    unfold flagMax
    rw [hbest]
    by_cases hu : u = 3
    · subst hu; rfl
    · have : u.toNat ≠ 3 := fun e => hu (UInt8.toNat_inj.mp e)
      simp [hu, this]
  refine ⟨_, d, d', rfl, ?_, hd, ?_, hd', ?_⟩
  · intro u; rw [hr]; simp
  · exact leEncode_len hd hr (by cases short <;> decide +kernel)
  · exact leEncode_len hd' rfl (by cases short <;> decide +kernel)

/-! ### Examples -/

/-- `7 7 7 1 7 7 0`: 7 has two runs, the others one; 7 is flagged, 5 bytes in 2 pieces. -/
example : ∃ x, getInfoApi ⟨false, false⟩ (some fun k => [7, 7, 7, 1, 7, 7, 0].getD k 0) 7 true = some x ∧ x.listed = [7, 0, 1] ∧
    x.rle 7 = true ∧ x.rle 1 = false ∧ x.unlisted.head? = some 2 :=
  ⟨_, rfl, by decide +kernel, by decide +kernel, by decide +kernel, by decide +kernel⟩

/-- A candidate, and another one that saves less. -/
example : Candidate 255 [9, 9, 9, 9, 5, 5, 5] 9 ∧ Candidate 255 [9, 9, 9, 9, 5, 5, 5] 5 ∧ saving 255 [9, 9, 9, 9, 5, 5, 5] 5 = 1 ∧
    saving 255 [9, 9, 9, 9, 5, 5, 5] 9 = 2 := by unfold Candidate; decide

end Hrk
