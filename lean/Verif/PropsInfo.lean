import Verif.Info

/-
C54: the column `R*H/log2(|S|)` of the benchmark. `entropy` is Shannon's formula over the bytes that occur,
`toFinset.card` the number of different bytes (Info.lean, section Specification).
-/

namespace Hrk.Info

/-- Missing: equal bytes (`C54_constant_violated`). The function returns the entropy of the bytes, divided by the largest entropy that many different bytes can have. -/
theorem C54_value_partial (l : List Byte) (hl : l.length < 2 ^ 64) (h2 : ∃ a ∈ l, ∃ b ∈ l, a ≠ b) :
    infoRatio l = some (entropy l / Real.logb 2 l.toFinset.card) := by
  have hc : 2 ≤ l.toFinset.card := by
    obtain ⟨a, ha, b, hb, hab⟩ := h2
    exact Finset.one_lt_card.mpr ⟨a, List.mem_toFinset.mpr ha, b, List.mem_toFinset.mpr hb, hab⟩
  unfold infoRatio
  rw [info_loops l hl]
  exact if_neg (logb_card_pos hc).ne'

private theorem two {l : List Byte} (h2 : ∃ a ∈ l, ∃ b ∈ l, a ≠ b) : 2 ≤ l.toFinset.card := by
  obtain ⟨a, ha, b, hb, hab⟩ := h2
  exact Finset.one_lt_card.mpr ⟨a, List.mem_toFinset.mpr ha, b, List.mem_toFinset.mpr hb, hab⟩

private theorem ne_nil {l : List Byte} (h2 : ∃ a ∈ l, ∃ b ∈ l, a ≠ b) : l ≠ [] := by
  obtain ⟨a, ha, _⟩ := h2
  exact List.ne_nil_of_mem ha

/-- Missing: equal bytes. With at least two different bytes it is a number greater than 0 and at most 1. -/
theorem C54_range_partial (l : List Byte) (hl : l.length < 2 ^ 64) (h2 : ∃ a ∈ l, ∃ b ∈ l, a ≠ b) :
    ∃ r, infoRatio l = some r ∧ 0 < r ∧ r ≤ 1 := by
  refine ⟨_, C54_value_partial l hl h2, div_pos (entropy_pos (two h2)) (logb_card_pos (two h2)), ?_⟩
  rw [div_le_one (logb_card_pos (two h2))]
  exact entropy_le (ne_nil h2)

/-- It is 1 exactly when all bytes that occur occur equally often. -/
theorem C54_full (l : List Byte) (hl : l.length < 2 ^ 64) (h2 : ∃ a ∈ l, ∃ b ∈ l, a ≠ b) :
    infoRatio l = some 1 ↔ ∀ a ∈ l, ∀ b ∈ l, l.count a = l.count b := by
  have hn := ne_nil h2
  have hlen : (l.length : ℝ) ≠ 0 := by
    have := List.length_pos_iff.mpr hn
    exact_mod_cast this.ne'
  rw [C54_value_partial l hl h2, Option.some_inj, div_eq_one_iff_eq (logb_card_pos (two h2)).ne']
  constructor
  · intro h
    have key : ∀ a ∈ l, share l a = 1 / (l.toFinset.card : ℝ) := fun a ha => by
      by_contra hne
      exact absurd h (entropy_lt hn ha hne).ne
    intro a ha b hb
    have h3 := (key a ha).trans (key b hb).symm
    unfold share at h3
    rw [div_left_inj' hlen] at h3
    exact_mod_cast h3
  · intro h
    refine entropy_eq hn fun a ha => ?_
    have h3 := share_sum hn
    rw [Finset.sum_congr rfl fun b hb => show share l b = share l a by
        unfold share; rw [h b (List.mem_toFinset.mp hb) a ha], Finset.sum_const, nsmul_eq_mul] at h3
    rw [eq_div_iff (card_pos hn).ne', mul_comm]; exact h3

/-- The order of the bytes and their names play no role. -/
theorem C54_symmetric (l l' : List Byte) (hl : l.length < 2 ^ 64) (f : Byte → Byte) (hf : Function.Injective f)
    (hp : (l.map f).Perm l') : infoRatio l' = infoRatio l := by
  have hl' : l'.length < 2 ^ 64 := by rw [← hp.length_eq, List.length_map]; exact hl
  have hfin : l'.toFinset = l.toFinset.image f := by
    ext b
    simp only [List.mem_toFinset, Finset.mem_image, ← hp.mem_iff, List.mem_map]
  have hcard : l'.toFinset.card = l.toFinset.card := by rw [hfin, Finset.card_image_of_injective _ hf]
  have hsh : ∀ b, share l' (f b) = share l b := fun b => by
    unfold share
    rw [← hp.count_eq, ← hp.length_eq, List.length_map, List.count_map_of_injective _ _ hf]
  have hent : entropy l' = entropy l := by
    unfold entropy
    rw [hfin, Finset.sum_image fun a _ b _ h => hf h]
    exact Finset.sum_congr rfl fun b _ => by rw [hsh]
  unfold infoRatio
  rw [info_loops l hl, info_loops l' hl', hent, hcard]

/-- Missing: equal bytes. The column is never more than the compression ratio. -/
theorem C54_column_partial (stream : List Byte) (hl : stream.length < 2 ^ 64) (n : Nat) (x : ℝ)
    (h2 : ∃ a ∈ stream, ∃ b ∈ stream, a ≠ b) (hx : infoColumn stream n = some x) :
    0 ≤ x ∧ x ≤ (stream.length : ℝ) / n * 100 := by
  obtain ⟨r, hr, h0, h1⟩ := C54_range_partial stream hl h2
  unfold infoColumn at hx
  rw [hr, Option.map_some, Option.some_inj] at hx
  subst hx
  have h3 : (0 : ℝ) ≤ (stream.length : ℝ) / n := by positivity
  exact ⟨by positivity, by nlinarith⟩

/-- A defect: if all bytes are equal the function divides 0 by 0, and the tool prints a `NaN`. This happens in
every benchmark of a file of equal bytes, since the last codec of the table (`MemCopy`) copies the file. -/
theorem C54_constant_violated (l : List Byte) (hl : l.length < 2 ^ 64) (hn : l ≠ []) :
    infoRatio l = none ↔ ∃ b, l = List.replicate l.length b := by
  constructor
  · intro h
    by_contra hc
    have h2 : ∃ a ∈ l, ∃ b ∈ l, a ≠ b := by
      by_contra h2
      refine hc ⟨l.head hn, ?_⟩
      refine List.eq_replicate_iff.mpr ⟨rfl, fun b hb => ?_⟩
      by_contra hne
      exact h2 ⟨b, hb, l.head hn, List.head_mem hn, hne⟩
    rw [C54_value_partial l hl h2] at h
    exact Option.some_ne_none _ h
  · rintro ⟨b, hb⟩
    have hc : l.toFinset = {b} := by
      rw [hb, List.toFinset_replicate_of_ne_zero (by simpa using hn)]
    unfold infoRatio
    rw [info_loops l hl, hc]
    exact if_pos (by simp)

/-! The hypotheses are met: two bytes that occur twice and once. -/

example : ∃ r, infoRatio [1, 2, 1] = some r ∧ 0 < r ∧ r < 1 := by
  have h2 : ∃ a ∈ ([1, 2, 1] : List Byte), ∃ b ∈ ([1, 2, 1] : List Byte), a ≠ b := ⟨1, by simp, 2, by simp, by decide⟩
  obtain ⟨r, hr, h0, h1⟩ := C54_range_partial [1, 2, 1] (by decide) h2
  refine ⟨r, hr, h0, lt_of_le_of_ne h1 fun h => ?_⟩
  subst h
  have := (C54_full [1, 2, 1] (by decide) h2).mp hr 1 (by simp) 2 (by simp)
  exact absurd this (by decide)

example : infoRatio [7, 7, 7] = none := (C54_constant_violated [7, 7, 7] (by decide) (by simp)).mpr ⟨7, rfl⟩

example : infoRatio [3, 4, 4, 3] = some 1 :=
  (C54_full [3, 4, 4, 3] (by decide) ⟨3, by simp, 4, by simp, by decide⟩).mpr (by decide)

end Hrk.Info
