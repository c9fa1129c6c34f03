import Verif.Vec
import Verif.Scan

/-
Masks: what the comparison masks of the vector code look like as numbers, and what counting their zeros
and ones gives.
-/

namespace Hrk

/-- First set bit of `m` among the bits `off .. off + k - 1`. -/
def bitFrom (m : Nat) : Nat → Nat → Option Nat
  | 0, _ => none
  | k + 1, off => if m.testBit off then some off else bitFrom m k (off + 1)

/-- `__builtin_ctzl`: the number of the lowest set bit of a 64 bit number; undefined (`none`) for 0
(src/rleX_extreme_cpu_encode.h:77, 357). -/
def ctz (m : Nat) : Option Nat := bitFrom m 64 0

/-- `__builtin_popcount`: the number of set bits of a 64 bit number (src/rleX_Xsl_short.h:1100). -/
def popcount (m : Nat) : Nat := (List.range 64).countP m.testBit

/-- `~m` of a `uint32_t` (src/rleX_extreme_cpu_encode.h:77). -/
def not32 (m : Nat) : Nat := 4294967295 - m

theorem movemask_testBit (v : Vec) : ∀ w j, (movemask w v).testBit j = (decide (j < w) && decide (v j ≥ 128))
  | 0, j => by simp [movemask]
  | w + 1, j => by
    have ih := movemask_testBit v w j
    have hlt := movemask_lt w v
    unfold movemask
    by_cases hv : v w ≥ 128
    · rw [if_pos hv, Nat.add_comm]
      by_cases hj : j = w
      · subst hj
        rw [Nat.testBit_two_pow_add_eq, ih]
        simp [hv]
      · by_cases hj2 : j < w
        · rw [Nat.testBit_two_pow_add_gt hj2, ih]
          simp [hj2, Nat.lt_succ_of_lt hj2]
        · have : ¬ j < w + 1 := by omega
          simp only [this, decide_false, Bool.false_and]
          refine Nat.testBit_lt_two_pow (Nat.lt_of_lt_of_le ?_ (Nat.pow_le_pow_right (by decide) (show w + 1 ≤ j by omega)))
          rw [Nat.pow_succ]; omega
    · rw [if_neg hv, Nat.add_zero, ih]
      by_cases hj : j = w
      · subst hj; simp [hv]
      · by_cases hj2 : j < w
        · simp [hj2, Nat.lt_succ_of_lt hj2]
        · have : ¬ j < w + 1 := by omega
          simp [hj2, this]

theorem veq_ge (a b : Vec) (j : Nat) : (veq a b j ≥ 128) ↔ a j = b j := by
  unfold veq
  by_cases h : a j = b j <;> simp [h]

/-- Bit `j` of a comparison mask. -/
theorem mask_testBit (a b : Vec) (w j : Nat) :
    (movemask w (veq a b)).testBit j = (decide (j < w) && decide (a j = b j)) := by
  rw [movemask_testBit]
  congr 1
  exact decide_eq_decide.mpr (veq_ge a b j)

theorem not32_testBit {m : Nat} (h : m < 4294967296) (j : Nat) : (not32 m).testBit j = (decide (j < 32) && !m.testBit j) := by
  unfold not32
  rw [show 4294967295 - m = 2 ^ 32 - (m + 1) by omega, Nat.testBit_two_pow_sub_succ h]

/-- The lowest set bit, found from any starting point. -/
theorem bitFrom_eq (m : Nat) : ∀ k off, bitFrom m k off = ((List.range k).map (· + off)).find? m.testBit
  | 0, _ => rfl
  | k + 1, off => by
    rw [bitFrom, List.range_succ_eq_map, List.map_cons, List.find?_cons, Nat.zero_add, bitFrom_eq m k (off + 1)]
    by_cases h : m.testBit off = true
    · rw [if_pos h]; simp [h]
    · rw [if_neg h]
      simp only [h]
      congr 1
      simp [List.map_map, Function.comp_def, Nat.add_assoc, Nat.add_comm 1]

theorem bitFrom_some {m z : Nat} : ∀ {k off}, bitFrom m k off = some z →
    off ≤ z ∧ z < off + k ∧ m.testBit z = true ∧ ∀ j, off ≤ j → j < z → m.testBit j = false
  | 0, _, h => by cases h
  | k + 1, off, h => by
    rw [bitFrom] at h
    split at h
    · next h1 =>
      cases h
      exact ⟨by omega, by omega, h1, fun j a b => absurd a (by omega)⟩
    · next h1 =>
      obtain ⟨a, b, c, d⟩ := bitFrom_some h
      refine ⟨by omega, by omega, c, fun j hj hz => ?_⟩
      by_cases e : j = off
      · subst e; simpa using h1
      · exact d j (by omega) hz

theorem bitFrom_none {m : Nat} : ∀ {k off}, bitFrom m k off = none → ∀ j, off ≤ j → j < off + k → m.testBit j = false
  | 0, _, _, _, a, b => absurd b (by omega)
  | k + 1, off, h, j, a, b => by
    rw [bitFrom] at h
    split at h
    · cases h
    · next h1 =>
      by_cases e : j = off
      · subst e; simpa using h1
      · exact bitFrom_none h j (by omega) (by omega)

theorem bitFrom_at {m z : Nat} : ∀ {k off}, off ≤ z → z < off + k → m.testBit z = true →
    (∀ j, off ≤ j → j < z → m.testBit j = false) → bitFrom m k off = some z
  | 0, _, a, b, _, _ => absurd b (by omega)
  | k + 1, off, a, b, c, d => by
    rw [bitFrom]
    by_cases e : off = z
    · subst e; rw [if_pos c]
    · rw [if_neg (by rw [d off (by omega) (by omega)]; decide)]
      exact bitFrom_at (by omega) (by omega) c fun j h1 h2 => d j (by omega) h2

/-- A number below `2^64` without a lowest set bit is 0. -/
theorem ctz_none {m : Nat} (hm : m < 2 ^ 64) (h : ctz m = none) : m = 0 := by
  refine Nat.eq_of_testBit_eq fun j => ?_
  rw [Nat.zero_testBit]
  by_cases hj : j < 64
  · exact bitFrom_none h j (by omega) (by omega)
  · exact Nat.testBit_lt_two_pow (Nat.lt_of_lt_of_le hm (Nat.pow_le_pow_right (by decide) (by omega)))

theorem ctz_zero : ctz 0 = none := by decide

theorem ctz_at {m z : Nat} (hz : z < 64) (h : m.testBit z = true) (h2 : ∀ j, j < z → m.testBit j = false) : ctz m = some z :=
  bitFrom_at (by omega) (by omega) h fun j _ => h2 j

/-! ### Searching two equal symbols -/

/-- Folding the mask of the equal bytes to the mask of the equal symbols (src/rleX_extreme_cpu_encode.h:321-336,
src/rle24_extreme_cpu_encode.h:327, src/rle48_extreme_cpu_encode.h:325-326,
src/rleX_Xsl_multibyte_encoder.h:272-288, src/rleX_Xsl_short_multibyte_encoder.h:278-294). -/
def foldMask (S m : Nat) : Nat :=
  match S with
  | 2 => m &&& (m >>> 1)
  | 3 => m &&& ((m >>> 1) &&& (m >>> 2))
  | 4 =>
    let m := m &&& (m >>> 2)
    m &&& (m >>> 1)
  | 6 =>
    let m := m &&& (m >>> 3)
    m &&& ((m >>> 1) &&& (m >>> 2))
  | 8 =>
    let m := m &&& (m >>> 4)
    let m := m &&& (m >>> 2)
    m &&& (m >>> 1)
  | _ => m

/-- The symbol sizes of the multi byte codecs
(src/rleX_extreme_cpu.c, src/rle24_extreme_cpu.c, src/rle48_extreme_cpu.c). -/
def symSize (S : Nat) : Prop := S = 2 ∨ S = 3 ∨ S = 4 ∨ S = 6 ∨ S = 8

theorem foldMask_testBit {S : Nat} (hS : symSize S) (m j : Nat) :
    (foldMask S m).testBit j = true ↔ ∀ k, k < S → m.testBit (j + k) = true := by
  have e2 : ∀ a b, a + (j + b) = j + (a + b) := fun a b => by omega
  have e1 : ∀ a, a + j = j + a := fun a => by omega
  rcases hS with rfl | rfl | rfl | rfl | rfl
  all_goals
    simp only [foldMask, Nat.testBit_and, Nat.testBit_shiftRight, Bool.and_eq_true]
    simp only [e2, e1 1, e1 2, e1 3, e1 4, Nat.reduceAdd]
    constructor
    · intro h k hk
      have e : k = 0 ∨ k = 1 ∨ k = 2 ∨ k = 3 ∨ k = 4 ∨ k = 5 ∨ k = 6 ∨ k = 7 := by omega
      rcases e with rfl | rfl | rfl | rfl | rfl | rfl | rfl | rfl
      all_goals first
        | omega
        | simp [h]
    · intro h
      have h0 := h 0 (by omega)
      rw [Nat.add_zero] at h0
      refine ⟨?_, ?_⟩ <;> simp [h, h0]

end Hrk
