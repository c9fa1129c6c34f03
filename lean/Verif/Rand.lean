import Verif.Fuzz
import Mathlib.Tactic.Ring

/-!
The two random number generators of the fuzzer (src/rle_fuzz.c:76-121).
-/

namespace Hrk.Fuzz

/-- `last = oldState * 6364136223846793005ULL + 0xE04B41702DB21F17ULL` (src/rle_fuzz.c:81), in 64 bits. -/
def pcgNext (s : Nat) : Nat := (s * 6364136223846793005 + 0xE04B41702DB21F17) % 2 ^ 64

/-- `xorshifted` (src/rle_fuzz.c:83), cut to 32 bits. -/
def pcgXs (s : Nat) : Nat := (((s >>> 18) ^^^ s) >>> 27) % 2 ^ 32

/-- The number drawn from the old state: `xorshifted` turned right by `rot` bits
(src/rle_fuzz.c:84-88). `(-(int32_t)rot) & 31` is `(32 - rot) % 32`. -/
def pcgOut (s : Nat) : Nat :=
  (pcgXs s >>> (s >>> 59)) ||| (pcgXs s <<< ((32 - s >>> 59) % 32)) % 2 ^ 32

/-- The static variable `last` of `fuzz_read_rand_predictable` before draw `k` of the process
(src/rle_fuzz.c:78-81). -/
def pcgState : Nat → Nat
  | 0 => 0xF824558383B00C0C
  | k + 1 => pcgNext (pcgState k)

/-- What call number `k` (from 0) of `fuzz_read_rand_predictable` returns (src/rle_fuzz.c:76-89). -/
def predictable (k : Nat) : Nat := pcgOut (pcgState k)

/-- The clocks one call of `fuzz_read_rand` looks at: `GetCurrentTimeTicks()` and `__rdtsc()`, twice
each, as 64 bit numbers (src/rle_fuzz.c:103-104). -/
structure Clock where
  ticks0 : Nat
  tsc0 : Nat
  tsc1 : Nat
  ticks1 : Nat

/-- The static variables of `fuzz_read_rand` (src/rle_fuzz.c:98-99); a register is given by its upper
and its lower 64 bits. -/
structure AesSt where
  last0 : Nat × Nat
  last1 : Nat × Nat
  initialized : Bool

/-- Static variables start as zero (src/rle_fuzz.c:98-99). -/
def AesSt.start : AesSt := ⟨(0, 0), (0, 0), false⟩

/-- `~x` of a `uint64_t` (src/rle_fuzz.c:104). -/
def not64 (x : Nat) : Nat := 2 ^ 64 - 1 - x % 2 ^ 64

/-- The seed (src/rle_fuzz.c:103-104). -/
def AesSt.seed (c : Clock) (s : AesSt) : AesSt :=
  { s with last0 := (c.ticks0, c.tsc0), last1 := (not64 c.tsc1, not64 c.ticks1) }

/-- The step behind the seed: `r = _mm_aesdec_si128(last[0], last[1])`, the registers move up, the
upper one is stored (src/rle_fuzz.c:107-112). `aes` is that instruction; nothing is assumed about it. -/
def AesSt.step (aes : Nat × Nat → Nat × Nat → Nat × Nat) (s : AesSt) : (Nat × Nat) × AesSt :=
  (s.last1, { s with last0 := s.last1, last1 := aes s.last0 s.last1 })

/-- `fuzz_read_rand` (src/rle_fuzz.c:94-113): what it stores and the new static variables. Nothing in
the function assigns to `initialized`. -/
def readRand (aes : Nat × Nat → Nat × Nat → Nat × Nat) (c : Clock) (s : AesSt) : (Nat × Nat) × AesSt :=
  (if s.initialized then s else s.seed c).step aes

/-- The numbers a process draws when the clocks show `cs`, one entry for each call
(src/rle_fuzz.c:94-113). -/
def readRands (aes : Nat × Nat → Nat × Nat → Nat × Nat) : AesSt → List Clock → List (Nat × Nat)
  | _, [] => []
  | s, c :: cs => (readRand aes c s).1 :: readRands aes (readRand aes c s).2 cs

/-! ### The linear congruence -/

/-- `1 + a + … + a ^ (k - 1)` -/
def geo (a : Nat) : Nat → Nat
  | 0 => 0
  | k + 1 => geo a k + a ^ k

theorem geo_add (a m : Nat) : ∀ k, geo a (m + k) = geo a m + a ^ m * geo a k
  | 0 => by simp [geo]
  | k + 1 => by
    rw [← Nat.add_assoc]
    simp only [geo]
    rw [geo_add a m k, Nat.mul_add, Nat.pow_add]; omega

theorem pow_mod4 {a : Nat} (ha : a % 4 = 1) (m : Nat) : a ^ m % 4 = 1 := by
  rw [Nat.pow_mod, ha, Nat.one_pow]

theorem geo_odd {a : Nat} (ha : a % 4 = 1) : ∀ k, geo a k % 2 = k % 2
  | 0 => rfl
  | k + 1 => by
    have h1 := geo_odd ha k
    have h2 := pow_mod4 ha k
    simp only [geo]; omega

/-- A power of two divides the sum exactly if it divides the number of its terms. -/
theorem geo_dvd {a : Nat} (ha : a % 4 = 1) : ∀ k d, 2 ^ k ∣ geo a d ↔ 2 ^ k ∣ d
  | 0, d => by simp
  | k + 1, d => by
    have hp := geo_odd ha d
    rcases Nat.mod_two_eq_zero_or_one d with h | h
    · obtain ⟨m, rfl⟩ : ∃ m, d = m + m := ⟨d / 2, by omega⟩
      have h4 := pow_mod4 ha m
      obtain ⟨o, ho⟩ : ∃ o, 1 + a ^ m = 2 * (2 * o + 1) := ⟨a ^ m / 4, by omega⟩
      have e : geo a (m + m) = 2 * (geo a m * (2 * o + 1)) := by
        rw [geo_add, ← Nat.mul_left_comm, ← ho]; ring
      have hc : Nat.Coprime (2 ^ k) (2 * o + 1) := by
        refine Nat.Coprime.pow_left _ ?_
        show Nat.gcd 2 (2 * o + 1) = 1
        rw [Nat.gcd_rec, show (2 * o + 1) % 2 = 1 by omega]; rfl
      rw [e, ← Nat.two_mul, Nat.pow_succ, Nat.mul_comm (2 ^ k), Nat.mul_dvd_mul_iff_left (by omega),
        Nat.mul_dvd_mul_iff_left (by omega), ← geo_dvd ha k m]
      exact ⟨fun h => hc.dvd_of_dvd_mul_right h, fun h => Nat.dvd_mul_right_of_dvd h _⟩
    · constructor
      · intro hd
        have : 2 ∣ geo a d := Nat.dvd_trans (Nat.dvd_mul_left 2 (2 ^ k)) hd
        omega
      · intro hd
        have : 2 ∣ d := Nat.dvd_trans (Nat.dvd_mul_left 2 (2 ^ k)) hd
        omega

theorem pow_geo (b : Nat) : ∀ k, (b + 1) ^ k = 1 + b * geo (b + 1) k
  | 0 => by simp [geo]
  | k + 1 => by rw [Nat.pow_succ, pow_geo b k]; simp only [geo]; rw [pow_geo b k]; ring

/-- The state without the reduction to 64 bits. -/
def lin (k : Nat) : Nat :=
  6364136223846793005 ^ k * 0xF824558383B00C0C + 0xE04B41702DB21F17 * geo 6364136223846793005 k

theorem pcgState_lin : ∀ k, pcgState k = lin k % 2 ^ 64
  | 0 => by simp [pcgState, lin, geo]
  | k + 1 => by
    have e : lin (k + 1) = lin k * 6364136223846793005 + 0xE04B41702DB21F17 := by
      have h := geo_add 6364136223846793005 1 k
      rw [Nat.add_comm 1 k] at h
      simp only [lin]
      rw [h, Nat.pow_succ]
      simp only [geo, Nat.pow_zero, Nat.pow_one]
      ring
    rw [pcgState, pcgState_lin k, pcgNext, e]
    simp only [Nat.add_mod, Nat.mul_mod, Nat.mod_mod]

theorem lin_add (i d : Nat) : lin (i + d) =
    lin i + geo 6364136223846793005 d * (6364136223846793005 ^ i * (6364136223846793004 * 0xF824558383B00C0C + 0xE04B41702DB21F17)) := by
  have h := pow_geo 6364136223846793004 d
  simp only [lin]
  rw [geo_add, Nat.pow_add, h]
  ring

/-- Two states `d` draws apart are equal exactly if `d` is a multiple of 2^64. -/
theorem pcgState_eq (i d : Nat) : pcgState (i + d) = pcgState i ↔ 2 ^ 64 ∣ d := by
  have hc : Nat.Coprime (2 ^ 64) (6364136223846793005 ^ i * (6364136223846793004 * 0xF824558383B00C0C + 0xE04B41702DB21F17)) := by
    refine Nat.Coprime.pow_left _ ?_
    refine Nat.Coprime.mul_right (Nat.Coprime.pow_right _ ?_) ?_ <;> decide
  rw [pcgState_lin, pcgState_lin, ← geo_dvd (a := 6364136223846793005) (by decide) 64 d]
  have h := lin_add i d
  generalize 6364136223846793005 ^ i * (6364136223846793004 * 0xF824558383B00C0C + 0xE04B41702DB21F17) = x at *
  have h2 : 2 ^ 64 ∣ geo 6364136223846793005 d * x ↔ 2 ^ 64 ∣ geo 6364136223846793005 d :=
    ⟨fun h => hc.dvd_of_dvd_mul_right h, fun h => Nat.dvd_mul_right_of_dvd h _⟩
  rw [← h2, h]
  generalize geo 6364136223846793005 d * x = p
  omega

theorem pcgState_lt (k : Nat) : pcgState k < 2 ^ 64 := by
  rw [pcgState_lin]; exact Nat.mod_lt _ (by decide)

/-! ### The output function -/

theorem xor_lt32 {x y : Nat} (hx : x < 2 ^ 32) (hy : y < 2 ^ 32) : x ^^^ y < 2 ^ 32 := Nat.xor_lt_two_pow hx hy

theorem add_xor {a b : Nat} (k : Nat) (hb : b < 2 ^ k) : a <<< k + b = a <<< k ^^^ b := by
  rw [Nat.shiftLeft_add_eq_or_of_lt hb]
  apply Nat.eq_of_testBit_eq
  intro j
  simp only [Nat.testBit_or, Nat.testBit_xor, Nat.testBit_shiftLeft]
  by_cases h : k ≤ j
  · have : b.testBit j = false := Nat.testBit_lt_two_pow (Nat.lt_of_lt_of_le hb (Nat.pow_le_pow_right (by omega) h))
    rw [this]; simp
  · simp [h]

theorem pcgXs_eq {r m l : Nat} (hr : r < 32) (hm : m < 2 ^ 32) (hl : l < 2 ^ 27) :
    pcgXs ((r * 2 ^ 32 + m) * 2 ^ 27 + l) = (r <<< 14) ^^^ (m >>> 18) ^^^ m := by
  have e1 : ((r * 2 ^ 32 + m) * 2 ^ 27 + l) >>> 27 = r * 2 ^ 32 + m := by
    rw [Nat.shiftRight_eq_div_pow]; omega
  have e2 : (r * 2 ^ 32 + m) >>> 18 = (r <<< 14) ^^^ (m >>> 18) := by
    rw [← add_xor 14 (by rw [Nat.shiftRight_eq_div_pow]; omega), Nat.shiftRight_eq_div_pow,
      Nat.shiftRight_eq_div_pow, Nat.shiftLeft_eq]
    omega
  have e3 : (r * 2 ^ 32 + m) % 2 ^ 32 = m := by omega
  have e4 : ((r <<< 14) ^^^ (m >>> 18)) % 2 ^ 32 = (r <<< 14) ^^^ (m >>> 18) := by
    refine Nat.mod_eq_of_lt (xor_lt32 ?_ ?_)
    · rw [Nat.shiftLeft_eq]; omega
    · rw [Nat.shiftRight_eq_div_pow]; omega
  unfold pcgXs
  rw [Nat.shiftRight_xor_distrib, ← Nat.shiftRight_add, Nat.add_comm 18 27, Nat.shiftRight_add, e1, e2,
    Nat.xor_mod_two_pow, e3, e4]

/-- `m ↦ m ^ (m >> 18)` is undone by itself on 32 bits. -/
theorem xs_inv {z : Nat} (hz : z < 2 ^ 32) : (z ^^^ (z >>> 18)) >>> 18 ^^^ (z ^^^ (z >>> 18)) = z := by
  have h : z >>> 18 >>> 18 = 0 := by
    rw [← Nat.shiftRight_add, Nat.shiftRight_eq_div_pow]; omega
  rw [Nat.shiftRight_xor_distrib, h, Nat.xor_zero, Nat.xor_comm z, ← Nat.xor_assoc, Nat.xor_self, Nat.zero_xor]

/-- The number drawn when the top five bits are `r` and `xorshifted` is `x`: a rotation. -/
def rotr (x r : Nat) : Nat := (x >>> r) ||| (x <<< ((32 - r) % 32)) % 2 ^ 32

theorem rotr_testBit {x r : Nat} (hx : x < 2 ^ 32) (hr : r < 32) (j : Nat) :
    (rotr x r).testBit j = (decide (j < 32) && x.testBit ((j + r) % 32)) := by
  have hb : ∀ k, 32 ≤ k → x.testBit k = false := fun k hk =>
    Nat.testBit_lt_two_pow (Nat.lt_of_lt_of_le hx (Nat.pow_le_pow_right (by omega) hk))
  unfold rotr
  rw [Nat.testBit_or, Nat.testBit_shiftRight, Nat.testBit_mod_two_pow, Nat.testBit_shiftLeft]
  by_cases hj : j < 32
  · by_cases h : j + r < 32
    · rw [Nat.mod_eq_of_lt h, Nat.add_comm r j]
      by_cases h0 : r = 0
      · subst h0; simp [hj]
      · rw [Nat.mod_eq_of_lt (show 32 - r < 32 by omega)]
        have : ¬ (32 - r ≤ j) := by omega
        simp [hj, this]
    · rw [show (j + r) % 32 = j + r - 32 by omega, hb (r + j) (by omega),
        Nat.mod_eq_of_lt (show 32 - r < 32 by omega), show j - (32 - r) = j + r - 32 by omega]
      have : 32 - r ≤ j := by omega
      simp [hj, this]
  · rw [hb (r + j) (by omega)]; simp [hj]

theorem rotr_lt {x r : Nat} (hx : x < 2 ^ 32) : rotr x r < 2 ^ 32 := by
  unfold rotr
  refine Nat.or_lt_two_pow ?_ (Nat.mod_lt _ (by decide))
  rw [Nat.shiftRight_eq_div_pow]
  exact Nat.lt_of_le_of_lt (Nat.div_le_self _ _) hx

theorem rotr_back {x r : Nat} (hx : x < 2 ^ 32) (hr : r < 32) : rotr (rotr x r) ((32 - r) % 32) = x := by
  apply Nat.eq_of_testBit_eq
  intro j
  rw [rotr_testBit (rotr_lt hx) (Nat.mod_lt _ (by decide)), rotr_testBit hx hr]
  by_cases hj : j < 32
  · rw [show ((j + (32 - r) % 32) % 32 + r) % 32 = j by omega]
    simp [hj, Nat.mod_lt]
  · have : x.testBit j = false :=
      Nat.testBit_lt_two_pow (Nat.lt_of_lt_of_le hx (Nat.pow_le_pow_right (by omega) (Nat.le_of_not_lt hj)))
    simp [hj, this]

theorem rotr_fwd {x r : Nat} (hx : x < 2 ^ 32) (hr : r < 32) : rotr (rotr x ((32 - r) % 32)) r = x := by
  have h := rotr_back hx (r := (32 - r) % 32) (Nat.mod_lt _ (by decide))
  rwa [show (32 - (32 - r) % 32) % 32 = r by omega] at h

theorem pcgOut_rotr (s : Nat) : pcgOut s = rotr (pcgXs s) (s >>> 59) := rfl

/-- The state from which `v` is drawn, given its top five bits `r` and its lowest 27 bits `l`. -/
def stateOf (v r l : Nat) : Nat :=
  (r * 2 ^ 32 + (rotr v ((32 - r) % 32) ^^^ (r <<< 14) ^^^ ((rotr v ((32 - r) % 32) ^^^ (r <<< 14)) >>> 18))) * 2 ^ 27 + l

theorem mid_lt {v r : Nat} (hv : v < 2 ^ 32) (hr : r < 32) : rotr v ((32 - r) % 32) ^^^ (r <<< 14) < 2 ^ 32 :=
  xor_lt32 (rotr_lt hv) (by rw [Nat.shiftLeft_eq]; omega)

theorem mid_lt' {z : Nat} (hz : z < 2 ^ 32) : z ^^^ (z >>> 18) < 2 ^ 32 :=
  xor_lt32 hz (by rw [Nat.shiftRight_eq_div_pow]; omega)

theorem top_eq {r m l : Nat} (hm : m < 2 ^ 32) (hl : l < 2 ^ 27) : ((r * 2 ^ 32 + m) * 2 ^ 27 + l) >>> 59 = r := by
  rw [Nat.shiftRight_eq_div_pow]; omega

theorem stateOf_out {v r l : Nat} (hv : v < 2 ^ 32) (hr : r < 32) (hl : l < 2 ^ 27) :
    stateOf v r l < 2 ^ 64 ∧ stateOf v r l >>> 59 = r ∧ stateOf v r l % 2 ^ 27 = l ∧ pcgOut (stateOf v r l) = v := by
  have hz := mid_lt hv hr
  have hm := mid_lt' hz
  refine ⟨by unfold stateOf; omega, top_eq hm hl, by unfold stateOf; omega, ?_⟩
  rw [pcgOut_rotr, stateOf, pcgXs_eq hr hm hl, top_eq hm hl, Nat.xor_assoc, xs_inv hz, Nat.xor_comm _ (r <<< 14),
    ← Nat.xor_assoc, Nat.xor_self, Nat.zero_xor, rotr_fwd hv hr]

/-- Every state is the one `stateOf` finds for what is drawn from it. -/
theorem stateOf_eq {s : Nat} (hs : s < 2 ^ 64) : s = stateOf (pcgOut s) (s >>> 59) (s % 2 ^ 27) ∧ pcgOut s < 2 ^ 32 := by
  obtain ⟨r, m, l, hr, hm, hl, rfl⟩ : ∃ r m l, r < 32 ∧ m < 2 ^ 32 ∧ l < 2 ^ 27 ∧ s = (r * 2 ^ 32 + m) * 2 ^ 27 + l :=
    ⟨s / 2 ^ 59, s / 2 ^ 27 % 2 ^ 32, s % 2 ^ 27, by omega, Nat.mod_lt _ (by decide), Nat.mod_lt _ (by decide), by
      have h1 := Nat.div_add_mod s (2 ^ 27)
      have h2 := Nat.div_add_mod (s / 2 ^ 27) (2 ^ 32)
      have h3 : s / 2 ^ 27 / 2 ^ 32 = s / 2 ^ 59 := by rw [Nat.div_div_eq_div_mul, ← Nat.pow_add]
      omega⟩
  clear hs
  have hx : (r <<< 14) ^^^ (m >>> 18) ^^^ m < 2 ^ 32 :=
    xor_lt32 (xor_lt32 (by rw [Nat.shiftLeft_eq]; omega) (by rw [Nat.shiftRight_eq_div_pow]; omega)) hm
  have e1 := pcgXs_eq hr hm hl
  have e2 := top_eq (r := r) hm hl
  have e3 : ((r * 2 ^ 32 + m) * 2 ^ 27 + l) % 2 ^ 27 = l := by omega
  generalize hs' : (r * 2 ^ 32 + m) * 2 ^ 27 + l = s at *
  rw [pcgOut_rotr, e1, e2, e3]
  refine ⟨?_, rotr_lt hx⟩
  unfold stateOf
  rw [rotr_back hx hr]
  have e : (r <<< 14) ^^^ (m >>> 18) ^^^ m ^^^ (r <<< 14) = m ^^^ (m >>> 18) := by
    rw [Nat.xor_comm _ (r <<< 14), Nat.xor_assoc (r <<< 14), ← Nat.xor_assoc (r <<< 14) (r <<< 14), Nat.xor_self, Nat.zero_xor,
      Nat.xor_comm]
  have h := xs_inv hm
  rw [Nat.xor_comm] at h
  rw [e, h, hs']

end Hrk.Fuzz
