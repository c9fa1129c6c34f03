import Verif.Rand
import Mathlib.Data.Finset.Card
import Mathlib.Data.Finset.Prod

/-!
C49: the random numbers of the fuzzer (src/rle_fuzz.c:76-121).

The iterative mode draws from `fuzz_read_rand_predictable`, whose numbers depend on nothing but how
often it was called. The random mode draws from `fuzz_read_rand`, which is meant to be seeded from the
clocks at the first call and to go on by an AES round from then on.
-/

namespace Hrk.Fuzz

/-- What a generator that is seeded by two registers `x`, `y` and goes on by `r = aes x y` draws. -/
def seeded (aes : Nat × Nat → Nat × Nat → Nat × Nat) : Nat × Nat → Nat × Nat → Nat → List (Nat × Nat)
  | _, _, 0 => []
  | x, y, n + 1 => y :: seeded aes y (aes x y) n

theorem pcgState_inj {i j : Nat} (hi : i < 2 ^ 64) (hj : j < 2 ^ 64) (h : pcgState i = pcgState j) : i = j := by
  rcases Nat.le_total i j with hl | hl
  · obtain ⟨d, rfl⟩ := Nat.exists_eq_add_of_le hl
    have := (pcgState_eq i d).1 h.symm
    have := Nat.eq_zero_of_dvd_of_lt this (by omega)
    omega
  · obtain ⟨d, rfl⟩ := Nat.exists_eq_add_of_le hl
    have := (pcgState_eq j d).1 h
    have := Nat.eq_zero_of_dvd_of_lt this (by omega)
    omega

theorem pcgState_image : (Finset.range (2 ^ 64)).image pcgState = Finset.range (2 ^ 64) := by
  apply Finset.eq_of_subset_of_card_le
  · intro s hs
    obtain ⟨k, _, rfl⟩ := Finset.mem_image.1 hs
    exact Finset.mem_range.2 (pcgState_lt k)
  · rw [Finset.card_image_of_injOn]
    intro i hi j hj h
    exact pcgState_inj (Finset.mem_range.1 hi) (Finset.mem_range.1 hj) h

theorem pcg_fibre {v : Nat} (hv : v < 2 ^ 32) :
    ((Finset.range (2 ^ 64)).filter (fun s => pcgOut s = v)).card = 2 ^ 32 := by
  have e : (2 : Nat) ^ 32 = (Finset.range 32 ×ˢ Finset.range (2 ^ 27)).card := by
    rw [Finset.card_product, Finset.card_range, Finset.card_range]; rfl
  rw [e]
  symm
  refine Finset.card_bij (fun p _ => stateOf v p.1 p.2) ?_ ?_ ?_
  · rintro ⟨r, l⟩ h
    obtain ⟨hr, hl⟩ := Finset.mem_product.1 h
    have := stateOf_out hv (Finset.mem_range.1 hr) (Finset.mem_range.1 hl)
    exact Finset.mem_filter.2 ⟨Finset.mem_range.2 this.1, this.2.2.2⟩
  · rintro ⟨r, l⟩ h ⟨r', l'⟩ h' he
    obtain ⟨hr, hl⟩ := Finset.mem_product.1 h
    obtain ⟨hr', hl'⟩ := Finset.mem_product.1 h'
    have a := stateOf_out hv (Finset.mem_range.1 hr) (Finset.mem_range.1 hl)
    have b := stateOf_out hv (Finset.mem_range.1 hr') (Finset.mem_range.1 hl')
    have he : stateOf v r l = stateOf v r' l' := he
    rw [he] at a
    have h1 : r = r' := a.2.1.symm.trans b.2.1
    have h2 : l = l' := a.2.2.1.symm.trans b.2.2.1
    rw [h1, h2]
  · intro s hs
    obtain ⟨hs, ho⟩ := Finset.mem_filter.1 hs
    have hs := Finset.mem_range.1 hs
    refine ⟨(s >>> 59, s % 2 ^ 27), Finset.mem_product.2 ⟨Finset.mem_range.2 ?_, Finset.mem_range.2 (Nat.mod_lt _ (by decide))⟩, ?_⟩
    · show s >>> 59 < 32
      rw [Nat.shiftRight_eq_div_pow]; omega
    · rw [← ho]; exact (stateOf_eq hs).1.symm

/-- Every 32 bit number is drawn exactly 2^32 times in the first 2^64 calls (and in every further
2^64 calls, see `C49_predictable_period`). -/
theorem C49_predictable_uniform (v : Nat) (hv : v < 2 ^ 32) :
    ((Finset.range (2 ^ 64)).filter (fun k => predictable k = v)).card = 2 ^ 32 := by
  rw [← pcg_fibre hv]
  refine Finset.card_bij (fun k _ => pcgState k) ?_ ?_ ?_
  · intro k hk
    exact Finset.mem_filter.2 ⟨Finset.mem_range.2 (pcgState_lt k), (Finset.mem_filter.1 hk).2⟩
  · intro i hi j hj h
    exact pcgState_inj (Finset.mem_range.1 (Finset.mem_filter.1 hi).1) (Finset.mem_range.1 (Finset.mem_filter.1 hj).1) h
  · intro s hs
    obtain ⟨hs, ho⟩ := Finset.mem_filter.1 hs
    rw [← pcgState_image] at hs
    obtain ⟨k, hk, rfl⟩ := Finset.mem_image.1 hs
    exact ⟨k, Finset.mem_filter.2 ⟨hk, ho⟩, rfl⟩

/-- The numbers fit 32 bits, repeat after 2^64 calls, and the generator is in the same state twice
only after a multiple of 2^64 calls. -/
theorem C49_predictable_period (k : Nat) :
    predictable k < 2 ^ 32 ∧ predictable (k + 2 ^ 64) = predictable k ∧
      ∀ d, pcgState (k + d) = pcgState k ↔ 2 ^ 64 ∣ d := by
  refine ⟨(stateOf_eq (pcgState_lt k)).2, ?_, pcgState_eq k⟩
  unfold predictable
  rw [(pcgState_eq k (2 ^ 64)).2 (Nat.dvd_refl _)]

/-- The first three numbers. -/
example : [predictable 0, predictable 1, predictable 2] = [152756900, 1669069146, 1704162418] := by decide

theorem readRands_eq (aes : Nat × Nat → Nat × Nat → Nat × Nat) : ∀ (cs : List Clock) (s : AesSt), s.initialized = false →
    readRands aes s cs = cs.map (fun c => (not64 c.tsc1, not64 c.ticks1))
  | [], _, _ => rfl
  | c :: cs, s, h => by
    have h1 : readRand aes c s = (s.seed c).step aes := by unfold readRand; rw [h]; rfl
    rw [readRands, h1, readRands_eq aes cs ((s.seed c).step aes).2 h]
    rfl

/-- `fuzz_read_rand` is not the generator it is meant to be: it notes nowhere that it was seeded, so
every call seeds it again and stores the complement of the clocks as they are at that call, whatever the
AES instruction computes. While the clocks stand still every call gives the same number, where the
generator that is seeded once goes on. -/
theorem C49_random_violated :
    (∀ aes (cs : List Clock), readRands aes .start cs = cs.map (fun c => (not64 c.tsc1, not64 c.ticks1))) ∧
    (∃ aes, ∃ c : Clock, readRands aes .start [c, c, c] ≠ seeded aes (c.ticks0, c.tsc0) (not64 c.tsc1, not64 c.ticks1) 3) := by
  refine ⟨fun aes cs => readRands_eq aes cs _ rfl, fun x y => (x.1 + y.1, x.2), ⟨1, 1, 1, 1⟩, ?_⟩
  rw [readRands_eq _ _ _ rfl]
  decide

/-- What does hold: the first number is the one of the generator that is seeded once. -/
theorem C49_random_partial (aes : Nat × Nat → Nat × Nat → Nat × Nat) (c : Clock) :
    readRands aes .start [c] = seeded aes (c.ticks0, c.tsc0) (not64 c.tsc1, not64 c.ticks1) 1 := rfl

end Hrk.Fuzz
