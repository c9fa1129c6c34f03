import Verif.LowEntropyTight
import Verif.PropsChanges

/-
The size of low entropy streams in terms of the number of runs of the input.
-/

namespace Hrk

theorem no_runs {blk : Nat} {inp : Mem} {s : Nat} : ∀ i, runCost blk inp s i = 0 → curRun inp s i = 0 → occs inp s i = 0 := by
  intro i
  induction i with
  | zero => intros; rfl
  | succ i ih =>
    rw [runCost_succ, curRun_succ, occs_succ]
    intro h1 h2
    by_cases hs : (inp i).toNat = s
    · rw [if_pos hs] at h2; omega
    · rw [if_neg hs]
      by_cases hc : 0 < curRun inp s i
      · rw [if_pos ⟨hs, hc⟩] at h1
        have := Nat.zero_le (curRun inp s i / blk)
        omega
      · rw [if_neg (by omega)] at h1
        exact ih h1 (by omega)

/-- Whatever became of the symbol, it does not take more than its runs would. -/
theorem share_le_blocks {blk : Nat} (hb : blk = 32 ∨ blk = 255) (inp : Mem) {n : Nat} (hn : 0 < n) (hn2 : n < 4294967295) (s : Nat) :
    share blk (flagAll (tally blk inp n)) inp n s ≤ 2 * blocks blk inp s n := by
  unfold share
  split
  · exact Nat.le_refl _
  · rename_i hR
    obtain ⟨g1, g2⟩ := tally_spec (blk := blk) (by omega) inp hn hn2 s
    unfold flagAll at hR
    rw [g1, g2] at hR
    have h0 := no_runs (blk := blk) (inp := inp) (s := s) n
    have hp : runCost blk inp s n + (if 0 < curRun inp s n then 1 else 0) ≤ blocks blk inp s n := by
      unfold blocks
      split
      · rcases hb with rfl | rfl <;> omega
      · have := Nat.zero_le ((curRun inp s n + blk - 1) / blk)
        omega
    have hz : runCost blk inp s n + (if 0 < curRun inp s n then 1 else 0) = 0 → occs inp s n = 0 := by
      intro h
      split at h
      · omega
      · exact h0 (by omega) (by omega)
    generalize runCost blk inp s n + (if 0 < curRun inp s n then 1 else 0) = p at *
    by_cases hp0 : p > 0
    · rw [if_pos hp0] at hR
      have hlt : occs inp s n / p < 2 := by simpa using hR
      have := (Nat.div_lt_iff_lt_mul hp0).mp hlt
      omega
    · have := hz (by omega)
      omega

theorem changes_succ (inp : Mem) (i : Nat) : changes 1 inp (i + 2) = changes 1 inp (i + 1) + if inp i = inp (i + 1) then 0 else 1 := by
  show cn (fun j => inp j != inp (j + 1)) (i + 1) = cn (fun j => inp j != inp (j + 1)) i + _
  rw [cn_succ]
  by_cases h : inp i = inp (i + 1) <;> simp [h]

/-- The runs before `i + 1`: a block for every change, and one for every full block. -/
theorem blocks_total {blk : Nat} (hb : blk = 32 ∨ blk = 255) (inp : Mem) : ∀ i,
    blk * sumTo (fun s => runCost blk inp s (i + 1)) 256 + curRun inp (inp i).toNat (i + 1) ≤ i + 1 + blk * changes 1 inp (i + 1) := by
  intro i
  induction i with
  | zero =>
    have h0 : sumTo (fun s => runCost blk inp s (0 + 1)) 256 = 0 := by
      refine (sumTo_congr 256 ?_).trans (sumTo_zero 256)
      intro s _
      rw [runCost_succ, if_neg (by simp [curRun])]; rfl
    rw [h0, curRun_succ, if_pos rfl]
    simp [curRun]
  | succ i ih =>
    rw [changes_succ]
    by_cases he : inp i = inp (i + 1)
    · have h0 : sumTo (fun s => runCost blk inp s (i + 1 + 1)) 256 = sumTo (fun s => runCost blk inp s (i + 1)) 256 := by
        refine sumTo_congr 256 ?_
        intro s _
        rw [runCost_succ blk inp s (i + 1)]
        by_cases hs : (inp (i + 1)).toNat = s
        · rw [if_neg (fun h => h.1 hs)]
        · rw [curRun_succ, he, if_neg hs, if_neg (by omega)]
      rw [h0, if_pos he, curRun_succ inp _ (i + 1), if_pos rfl, ← he, Nat.add_zero (changes 1 inp (i + 1))]
      omega
    · have hne : (inp (i + 1)).toNat ≠ (inp i).toNat := fun h => he (UInt8.toNat_inj.mp h.symm)
      have hc : 0 < curRun inp (inp i).toNat (i + 1) := by rw [curRun_succ, if_pos rfl]; omega
      have h0 : sumTo (fun s => runCost blk inp s (i + 1 + 1)) 256 =
          sumTo (upd (fun s => runCost blk inp s (i + 1)) (inp i).toNat
            (runCost blk inp (inp i).toNat (i + 1) + (curRun inp (inp i).toNat (i + 1) / blk + 1))) 256 := by
        refine sumTo_congr 256 ?_
        intro s _
        simp only [upd]
        rw [runCost_succ blk inp s (i + 1)]
        by_cases hs : s = (inp i).toNat
        · rw [if_pos hs, hs, if_pos ⟨hne, hc⟩]
        · have hc0 : curRun inp s (i + 1) = 0 := by rw [curRun_succ inp s i, if_neg (fun e => hs e.symm)]
          rw [if_neg hs, if_neg (by omega)]
      have hlt := UInt8.toNat_lt (inp i)
      rw [h0, sumTo_upd (fun s => runCost blk inp s (i + 1)), if_pos (by omega), if_neg he, curRun_succ inp _ (i + 1), if_pos rfl]
      have hc1 : curRun inp (inp (i + 1)).toNat (i + 1) = 0 := by rw [curRun_succ, if_neg (fun e => hne e.symm)]
      rw [hc1]
      generalize sumTo (fun s => runCost blk inp s (i + 1)) 256 = T at *
      generalize changes 1 inp (i + 1) = k at *
      rcases hb with rfl | rfl <;> omega

theorem blocks_sum {blk : Nat} (hb : blk = 32 ∨ blk = 255) (inp : Mem) {n : Nat} (hn : 0 < n) :
    sumTo (fun s => blocks blk inp s n) 256 ≤ changes 1 inp n + n / blk + 1 := by
  obtain ⟨i, rfl⟩ : ∃ i, n = i + 1 := ⟨n - 1, by omega⟩
  have h := blocks_total hb inp i
  have h1 := sumTo_le_one (f := fun s => blocks blk inp s (i + 1)) (g := fun s => runCost blk inp s (i + 1)) (t := (inp i).toNat)
    (e := (curRun inp (inp i).toNat (i + 1) + blk - 1) / blk) 256 (by
      intro s _ hs
      unfold blocks
      rw [curRun_succ, if_neg (fun e => hs e.symm)]
      rcases hb with rfl | rfl <;> simp) (Nat.le_refl _)
  generalize sumTo (fun s => runCost blk inp s (i + 1)) 256 = T at *
  generalize sumTo (fun s => blocks blk inp s (i + 1)) 256 = U at *
  generalize changes 1 inp (i + 1) = k at *
  generalize curRun inp (inp i).toNat (i + 1) = c at *
  rcases hb with rfl | rfl <;> omega

theorem share_sum {blk : Nat} (hb : blk = 32 ∨ blk = 255) (inp : Mem) {n : Nat} (hn : 0 < n) (hn2 : n < 4294967295) :
    sumTo (share blk (flagAll (tally blk inp n)) inp n) 256 ≤ 2 * (changes 1 inp n + n / blk + 1) := by
  have h1 := sumTo_le (g := fun s => blocks blk inp s n + blocks blk inp s n) 256
    (fun s _ => Nat.le_trans (share_le_blocks hb inp hn hn2 s) (Nat.le_of_eq (Nat.two_mul _)))
  rw [sumTo_add] at h1
  have := blocks_sum hb inp hn
  omega

/-! ### C48 -/

/-- C48 for `rle8_low_entropy_compress` and `rle8_low_entropy_short_compress`: two bytes for every change, and two for every 255 (32)
bytes of the input. -/
theorem C48_low_entropy_changes (short : Bool) (inp : Mem) (n outSize ret : Nat) (out : List Byte) (hn2 : n < 4294967295)
    (h : LeCfg.compress ⟨short, false⟩ (some inp) n true outSize = .ok ret out) :
    out.length ≤ 2 * changes 1 inp n + 2 * (n / if short then 32 else 255) + 300 := by
  have hn : 0 < n := by
    apply Nat.pos_of_ne_zero
    rintro rfl
    simp [LeCfg.compress] at h
  obtain ⟨d, hd, hout, _, _⟩ := LeCfg.compress_ok h
  have hb := LeCfg.blk_cases ⟨short, false⟩
  have hb' : LeCfg.blk ⟨short, false⟩ = 32 ∨ LeCfg.blk ⟨short, false⟩ = 255 := by omega
  have hbe : (if short then 32 else 255) = LeCfg.blk ⟨short, false⟩ := rfl
  rw [hbe]
  have hw : (writeInfo (LeCfg.info ⟨short, false⟩ inp n)).length ≤ 288 := by
    rw [LeCfg.info_eq, writeInfo_length]
    have := written_lt (tally (LeCfg.blk ⟨short, false⟩) inp n).pcount
      (if LeCfg.onlyMax ⟨short, false⟩ then flagMax (tally (LeCfg.blk ⟨short, false⟩) inp n)
        else flagAll (tally (LeCfg.blk ⟨short, false⟩) inp n))
    omega
  have h1 := section_total (a := 0) (m := n) (inp := inp) (R := flagAll (tally (LeCfg.blk ⟨short, false⟩) inp n)) hb' (fun _ => rfl)
    (by simpa only [Nat.zero_add] using hd)
  have h2 := share_sum hb' inp hn hn2
  rw [if_pos rfl, Nat.zero_add n] at h1
  have hl : out.length = 8 + (writeInfo (LeCfg.info ⟨short, false⟩ inp n)).length + d.length := by rw [hout]; simp; omega
  clear hout hd h
  omega

/-- C48 for `rle8m_compress`: eight more bytes for every sub-section. -/
theorem C48_rle8m_changes (k : Nat) (inp : Mem) (n outSize ret : Nat) (out : List Byte) (hn2 : n < 4294967295)
    (h : mCompress k (some inp) n true outSize = .ok ret out) :
    out.length ≤ 2 * changes 1 inp n + 2 * (n / 255) + 8 * k + 298 := by
  have hn : 0 < n := by
    apply Nat.pos_of_ne_zero
    rintro rfl
    simp [mCompress] at h
  obtain ⟨hk0, x, w, ds, hx, hw, hs, hle, hret, hout⟩ := mCompress_ok h
  have hlen := hs.length
  have hl : out.length = 12 + 4 * (k - 1) + w.length + ds.flatten.length := by
    rw [hout]
    simp only [List.length_append, le32_length, mOffsets_length, hlen]
    omega
  have hwl : w.length ≤ 288 := by
    rw [hw, hx, LeCfg.info_eq, writeInfo_length]
    have := written_lt (tally (LeCfg.blk ⟨false, false⟩) inp n).pcount
      (if LeCfg.onlyMax ⟨false, false⟩ then flagMax (tally (LeCfg.blk ⟨false, false⟩) inp n)
        else flagAll (tally (LeCfg.blk ⟨false, false⟩) inp n))
    omega
  have h1 := MSec.total (R := flagAll (tally 255 inp n)) (by rw [hx]; exact fun _ => rfl) _ _ _ hs
  have h2 := share_sum (Or.inr rfl) inp hn hn2
  have hdiv : n / k * (k - 1) ≤ n := Nat.le_trans (Nat.mul_le_mul_left _ (by omega)) (Nat.div_mul_le_self n k)
  rw [show 0 + n / k * (k - 1) + (n - n / k * (k - 1)) = n by omega] at h1
  omega

/-- A constant input of 255 000 bytes, with room for twice as many: at most 2300 bytes, header included. -/
example : ∃ out, LeCfg.compress ⟨false, false⟩ (some fun _ => 7) 255000 true 600000 = .ok out.length out ∧ out.length ≤ 2300 := by
  obtain ⟨out, h, _⟩ := C20_low_entropy_partial false (fun _ => 7) 255000 600000 (by decide) (by decide) (by decide)
  refine ⟨out, h, ?_⟩
  have h1 := C48_low_entropy_changes false _ 255000 _ _ out (by decide) h
  have h2 : changes 1 (fun _ => 7) 255000 = 0 := by
    unfold changes
    rw [List.countP_eq_zero]
    intro _ _; simp
  simpa [h2] using h1

/-- And in three sub-sections. -/
example : ∃ out, mCompress 3 (some fun _ => 7) 255000 true 600000 = .ok out.length out ∧ out.length ≤ 2322 := by
  obtain ⟨out, h, _⟩ := C20_rle8m_partial 3 (fun _ => 7) 255000 600000 (by decide) (by decide) (by decide) (by decide)
  refine ⟨out, h, ?_⟩
  have h1 := C48_rle8m_changes 3 _ 255000 _ _ out (by decide) h
  have h2 : changes 1 (fun _ => 7) 255000 = 0 := by
    unfold changes
    rw [List.countP_eq_zero]
    intro _ _; simp
  simpa [h2] using h1

end Hrk
