import Verif.ChangesLow
import Verif.PickBest

/-
C52 for the low entropy compressors with a single run symbol.
-/

namespace Hrk

theorem occs_others (v : Byte) (inp : Mem) : ∀ n, occs inp v.toNat n + others v inp n = n := by
  intro n
  induction n with
  | zero => rfl
  | succ n ih =>
    have h : others v inp (n + 1) = others v inp n + if inp n = v then 0 else 1 := by
      unfold others
      rw [List.range_succ, List.countP_append, List.countP_singleton]
      by_cases hv : inp n = v <;> simp [hv]
    rw [h, occs_succ]
    by_cases hv : inp n = v
    · rw [if_pos hv, if_pos (by rw [hv])]; omega
    · rw [if_neg hv, if_neg (fun e => hv (UInt8.toNat_inj.mp e))]; omega

theorem occs_other {s : Nat} {v : Byte} (hs : s ≠ v.toNat) (inp : Mem) : ∀ n, occs inp s n ≤ others v inp n := by
  intro n
  induction n with
  | zero => exact Nat.le_refl _
  | succ n ih =>
    have h : others v inp (n + 1) = others v inp n + if inp n = v then 0 else 1 := by
      unfold others
      rw [List.range_succ, List.countP_append, List.countP_singleton]
      by_cases hv : inp n = v <;> simp [hv]
    rw [h, occs_succ]
    by_cases hv : inp n = v
    · rw [if_neg (by rw [hv]; exact fun e => hs e.symm)]; omega
    · rw [if_neg hv]; split <;> omega

/-- The runs of `v` end where there is another byte. -/
theorem runCost_others {blk : Nat} (hb : blk = 32 ∨ blk = 255) (v : Byte) (inp : Mem) : ∀ n,
    blk * runCost blk inp v.toNat n + curRun inp v.toNat n ≤ n + blk * others v inp n := by
  intro n
  induction n with
  | zero => simp [runCost, curRun]
  | succ n ih =>
    have h1 := occs_others v inp n
    have h2 := occs_others v inp (n + 1)
    rw [runCost_succ, curRun_succ]
    rw [occs_succ] at h2
    by_cases hv : (inp n).toNat = v.toNat
    · rw [if_neg (fun h => h.1 hv), if_pos hv]
      rw [if_pos hv] at h2
      rw [show others v inp (n + 1) = others v inp n by omega]
      omega
    · rw [if_neg hv]
      rw [if_neg hv] at h2
      rw [show others v inp (n + 1) = others v inp n + 1 by omega]
      generalize others v inp n = k at *
      generalize runCost blk inp v.toNat n = p at *
      generalize curRun inp v.toNat n = c at *
      by_cases hc : 0 < c
      · rw [if_pos ⟨hv, hc⟩]
        rcases hb with rfl | rfl <;> omega
      · rw [if_neg (fun h => hc h.2)]
        rcases hb with rfl | rfl <;> omega

/-- What symbol `i` counts for (src/rle8_low_entropy_cpu.c:388-391). -/
def leScore (t : Tally) (i : Nat) : Nat :=
  if t.pcount i > 0 ∧ t.prob i / t.pcount i > 2 then t.prob i - t.pcount i * 2 else 0

/-- A symbol that counts for more than every other one is picked. -/
theorem bestSaved_best {t : Tally} {c K : Nat} (hc : c < 256) (hK : K < leScore t c)
    (h : ∀ i, i < 256 → i ≠ c → leScore t i ≤ K) : bestSaved t = (leScore t c, c) := by
  have he : bestSaved t = (List.range 256).foldl (fun (a : Nat × Nat) i => if leScore t i > a.1 then (leScore t i, i) else a) (0, 0) := by
    unfold bestSaved
    congr 1
    funext a i
    unfold leScore
    by_cases h : t.pcount i > 0 ∧ t.prob i / t.pcount i > 2
    · rw [if_pos h, if_pos h]
    · rw [if_neg h, if_neg h, if_neg (by omega)]
  rw [he]
  have key : ∀ (l : List Nat) (a : Nat × Nat), (∀ i ∈ l, i < 256) →
      (a.1 ≤ K ∧ c ∈ l) ∨ a = (leScore t c, c) →
      (l.foldl (fun (a : Nat × Nat) i => if leScore t i > a.1 then (leScore t i, i) else a) a) = (leScore t c, c) := by
    intro l
    induction l with
    | nil =>
      intro a _ ha
      rcases ha with ⟨_, ha⟩ | ha
      · cases ha
      · exact ha
    | cons i l ih =>
      intro a hl ha
      rw [List.foldl_cons]
      apply ih _ fun j hj => hl j (List.mem_cons_of_mem _ hj)
      have hi := hl i (by simp)
      by_cases hic : i = c
      · subst hic
        right
        rcases ha with ⟨ha, _⟩ | ha
        · rw [if_pos (by omega)]
        · rw [ha, if_neg (by simp)]
      · have := h i hi hic
        rcases ha with ⟨ha, hm⟩ | ha
        · left
          refine ⟨?_, ?_⟩
          · split
            · exact this
            · exact ha
          · rcases List.mem_cons.mp hm with hm | hm
            · exact absurd hm.symm hic
            · exact hm
        · right
          rw [if_neg (by rw [ha]; simp only; omega)]
          exact ha
  exact key _ _ (fun i hi => List.mem_range.mp hi) (.inl ⟨by simp, List.mem_range.mpr hc⟩)

/-- The symbol that all but few bytes of the input are is picked. -/
theorem flagMax_best {blk : Nat} (hb : blk = 32 ∨ blk = 255) {inp : Mem} {n : Nat} {v : Byte} (hn2 : n < 4294967295)
    (hk : 5 * others v inp n + 10 ≤ n) : ∀ i, flagMax (tally blk inp n) i = true ↔ i = v.toNat := by
  have ht := fun s => tally_spec (blk := blk) (by omega) inp (n := n) (by omega) hn2 s
  have h1 := occs_others v inp n
  have h2 := runCost_others hb v inp n
  have h3 := no_runs (blk := blk) (inp := inp) (s := v.toNat) n
  have key : others v inp n < leScore (tally blk inp n) v.toNat := by
    unfold leScore
    rw [(ht _).1, (ht _).2]
    generalize others v inp n = k at *
    generalize runCost blk inp v.toNat n = p at *
    generalize curRun inp v.toNat n = c at *
    generalize occs inp v.toNat n = o at *
    obtain ⟨q, hq⟩ : ∃ q, q = p + if 0 < c then 1 else 0 := ⟨_, rfl⟩
    rw [← hq]
    have hq1 : q ≤ k + n / 32 + 1 := by
      rw [hq]
      split <;> rcases hb with rfl | rfl <;> omega
    have hq0 : 0 < q := by
      rw [hq]
      split
      · omega
      · apply Nat.pos_of_ne_zero
        intro e
        have := h3 (by omega) (by omega)
        omega
    have h4 : 3 ≤ o / q := (Nat.le_div_iff_mul_le hq0).mpr (by omega)
    rw [if_pos ⟨hq0, by omega⟩]
    omega
  have hbest := bestSaved_best v.toNat_lt key fun i _ hi => by
    have := occs_other hi inp n
    unfold leScore
    rw [(ht _).1]
    generalize (tally blk inp n).pcount i = q
    split <;> omega
  intro i
  unfold flagMax
  rw [hbest]
  simp only [Bool.and_eq_true, decide_eq_true_eq, beq_iff_eq]
  omega

/-- C52 for `rle8_low_entropy_compress_only_max_frequency` and `rle8_low_entropy_short_compress_only_max_frequency`: an input of which
all but `k` bytes are `v` takes at most `5 * k + 306` bytes, and two for every 255 (32) bytes of the input. -/
theorem C52_low_entropy_only_max (short : Bool) (inp : Mem) (n outSize ret : Nat) (out : List Byte) (v : Byte) (hn2 : n < 4294967295)
    (h : LeCfg.compress ⟨short, true⟩ (some inp) n true outSize = .ok ret out) :
    out.length ≤ 5 * others v inp n + 2 * (n / if short then 32 else 255) + 306 := by
  have hn : 0 < n := by
    apply Nat.pos_of_ne_zero
    rintro rfl
    simp [LeCfg.compress] at h
  obtain ⟨d, hd, hout, _, _⟩ := LeCfg.compress_ok h
  have hb := LeCfg.blk_cases ⟨short, true⟩
  have hb' : LeCfg.blk ⟨short, true⟩ = 32 ∨ LeCfg.blk ⟨short, true⟩ = 255 := by omega
  have hbe : (if short then 32 else 255) = LeCfg.blk ⟨short, true⟩ := rfl
  rw [hbe]
  have hw : (writeInfo (LeCfg.info ⟨short, true⟩ inp n)).length ≤ 288 := by
    rw [LeCfg.info_eq, writeInfo_length]
    have := written_lt (tally (LeCfg.blk ⟨short, true⟩) inp n).pcount
      (if LeCfg.onlyMax ⟨short, true⟩ then flagMax (tally (LeCfg.blk ⟨short, true⟩) inp n)
        else flagAll (tally (LeCfg.blk ⟨short, true⟩) inp n))
    omega
  have hl : out.length = 8 + (writeInfo (LeCfg.info ⟨short, true⟩ inp n)).length + d.length := by rw [hout]; simp; omega
  by_cases hk : 5 * others v inp n + 10 ≤ n
  · have hsz := leEncode_size (s := v.toNat) hb' hn (fun b => flagMax_best hb' hn2 hk b.toNat) hd
    have h1 := occs_others v inp n
    have h2 := runCost_others hb' v inp n
    clear hout hd h
    generalize LeCfg.blk ⟨short, true⟩ = blk at *
    generalize others v inp n = k at *
    generalize runCost blk inp v.toNat n = p at *
    generalize curRun inp v.toNat n = c at *
    generalize occs inp v.toNat n = o at *
    have : d.length + o ≤ n + 2 * (p + ((c + blk) / blk + 1)) := by
      refine Nat.le_trans hsz ?_
      rcases hb' with rfl | rfl <;> split <;> omega
    rcases hb' with rfl | rfl <;> omega
  · have := onlyMax_size hn hn2 hd
    clear hout hd h
    omega

/-- All but the last of 300 bytes are 2. -/
example : others 2 (fun i => if i < 299 then 2 else 3) 300 = 1 ∧
    (LeCfg.compress ⟨false, true⟩ (some fun i => if i < 299 then 2 else 3) 300 true 1000).size ≤ 313 := by decide +kernel

end Hrk
