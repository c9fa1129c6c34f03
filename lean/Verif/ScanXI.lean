import Verif.Bits
import Mathlib.Tactic.IntervalCases

/-
The multi byte scanner as the C code has it: vector registers, comparison masks, shifts and counted zeros.
It is the scanner of ScanX.lean (`runXI_eq`).
-/

namespace Hrk

/-- Which of the four builds of an encoder: `IMPL_SSE2`, `IMPL_SSSE3`, `IMPL_AVX2` or none of them
(src/rleX_extreme_cpu.h:18-45). -/
inductive Simd where
  | base
  | sse2
  | ssse3
  | avx2
  deriving DecidableEq, Repr

/-- `sizeof(symbolSimd)`; 0 if there is none (src/rleX_extreme_cpu_encode.h:34-40). -/
def Simd.width : Simd → Nat
  | .base => 0
  | .sse2 => 16
  | .ssse3 => 16
  | .avx2 => 32

/-- `sizeof(symbol_t)`: 24 bit symbols are kept in 32 bits, 48 bit symbols in 64 bits
(src/rleX_extreme_cpu_encode.h:29, src/rle24_extreme_cpu_encode.h:32,
src/rle48_extreme_cpu_encode.h:32). -/
def symT (S : Nat) : Nat := if S = 3 then 4 else if S = 6 then 8 else S

/-- The bytes of the variable `symbol` (src/rleX_extreme_cpu_encode.h:32). -/
def symVar (S : Nat) (sym : List Byte) : List Byte := sym ++ List.replicate (symT S - S) 0

/-- The register holding the current symbol again and again: src/rleX_extreme_cpu_encode.h:51-55 for 16, 32 and
64 bit, src/rle24_extreme_cpu_encode.h:47-84 and src/rle48_extreme_cpu_encode.h:47-82 for 24 and 48 bit; the same
in src/rleX_Xsl_multibyte_encoder.h:56-124 and src/rleX_Xsl_short_multibyte_encoder.h. -/
def symbolSimd (S : Nat) (k : Simd) (sym : List Byte) : Vec :=
  let v := vset1N (symVar S sym)
  match k, S with
  | .sse2, 3 =>
    let pattern00 := vset [0, 255, 255, 255, 0, 0, 0, 0, 0, 0, 0, 0, 0, 255, 255, 255]
    let pattern01 := vset [255, 0, 0, 0, 0, 0, 0, 0, 0, 0, 255, 255, 255, 0, 0, 0]
    let pattern02 := vset [0, 0, 0, 0, 0, 0, 0, 255, 255, 255, 0, 0, 0, 0, 0, 0]
    let pattern03 := vset [0, 0, 0, 0, 255, 255, 255, 0, 0, 0, 0, 0, 0, 0, 0, 0]
    let shift1 := vor (vsrli v 1) (vslli v 15)
    let symbol0 := vor (vand v pattern00) (vand shift1 pattern01)
    let shift2 := vor (vsrli v 2) (vslli v 14)
    let shift3 := vor (vsrli v 3) (vslli v 13)
    vor symbol0 (vor (vand shift3 pattern03) (vand shift2 pattern02))
  | .sse2, 6 =>
    let pattern00 := vset [0, 0, 0, 0, 0, 0, 0, 0, 0, 0, 255, 255, 255, 255, 255, 255]
    let pattern02 := vset [0, 0, 0, 0, 255, 255, 255, 255, 255, 255, 0, 0, 0, 0, 0, 0]
    let pattern04 := vset [255, 255, 255, 255, 0, 0, 0, 0, 0, 0, 0, 0, 0, 0, 0, 0]
    let shift2 := vor (vsrli v 2) (vslli v 14)
    let symbol0 := vor (vand v pattern00) (vand shift2 pattern02)
    let shift4 := vor (vsrli v 4) (vslli v 12)
    vor symbol0 (vand shift4 pattern04)
  | .ssse3, 3 => vshuffle v (vset [0, 2, 1, 0, 2, 1, 0, 2, 1, 0, 2, 1, 0, 2, 1, 0])
  | .ssse3, 6 => vshuffle v (vset [3, 2, 1, 0, 5, 4, 3, 2, 1, 0, 5, 4, 3, 2, 1, 0])
  | .avx2, 3 => vshuffle v (vset [1, 0, 2, 1, 0, 2, 1, 0, 2, 1, 0, 2, 1, 0, 2, 1, 0, 2, 1, 0, 2, 1, 0, 2, 1, 0, 2, 1, 0, 2, 1, 0])
  | .avx2, 6 => vshuffle v (vset [1, 0, 5, 4, 3, 2, 1, 0, 5, 4, 3, 2, 1, 0, 5, 4, 3, 2, 1, 0, 5, 4, 3, 2, 1, 0, 5, 4, 3, 2, 1, 0])
  | _, _ => v

/-- The number a little endian byte string stands for (src/rleX_extreme_cpu_encode.h:106). -/
def leN : List Byte → Nat
  | [] => 0
  | b :: r => b.toNat + 256 * leN r

/-- `*(symbol_t *)&pIn[i]`, cut to the symbol by `symbolMask` for 24 and 48 bit
(src/rle24_extreme_cpu_encode.h:33, 134, src/rle48_extreme_cpu_encode.h:33, 132). -/
def nextSym (S : Nat) (inp : Mem) (i : Nat) : Nat :=
  if symT S = S then leN (rd inp i S) else leN (rd inp i (symT S)) &&& (2 ^ (8 * S) - 1)

/-- How many bytes of the symbol follow when it does not follow completely
(src/rleX_extreme_cpu_encode.h:104-165, src/rle24_extreme_cpu_encode.h:132-158, src/rle48_extreme_cpu_encode.h:130-156):
for 16 bit the first byte is compared, for the others the equal low bits are counted. `none` if the
count of zeros is undefined. -/
def scalarPart (S : Nat) (inp : Mem) (sym : List Byte) (i : Nat) : Option Nat :=
  if S = 2 then some (if sym.getD 0 0 = inp i then 1 else 0)
  else (ctz (leN sym ^^^ leN (rd inp i (symT S)))).map (· / 8)

/-- Rounding the number of equal bytes down to whole symbols (src/rleX_extreme_cpu_encode.h:80,
src/rle24_extreme_cpu_encode.h:109, src/rleX_Xsl_multibyte_encoder.h:146-150). -/
def wholeSyms (S bit : Nat) : Nat := if symT S = S then bit &&& not32 (S - 1) else bit - bit % S

/-- One step of the encoder loop, with the instructions of src/rleX_extreme_cpu_encode.h:46-382,
src/rle24_extreme_cpu_encode.h, src/rle48_extreme_cpu_encode.h, src/rleX_Xsl_multibyte_encoder.h and
src/rleX_Xsl_short_multibyte_encoder.h. The result `.inr none` is undefined behaviour (counting the zeros of 0).
`symbolSimd` is assigned at `continue_outer_loop` in the code and `symbol` does not change until the next time;
here it is recomputed from `symbol`. -/
def stepXI {σ : Type} (emit : Emit σ) (S : Nat) (k : Simd) (unb : Bool) (inp : Mem) (n : Nat) (s : ES σ) :
    ES σ ⊕ Option (ES σ) :=
  let W := k.width
  match s.pc with
  | .top => if s.i < n then .inl { s with pc := .ext } else .inr (some s)
  | .ext =>
    if W ≠ 0 ∧ s.i + W + S < n then
      let bitMask := movemask W (veq (vmem inp s.i) (symbolSimd S k s.sym))
      if bitMask &&& 1 ≠ 0 then
        if bitMask ≠ 2 ^ W - 1 then
          match ctz (not32 bitMask) with
          | none => .inr none
          | some bit =>
            let bit := if unb then bit else wholeSyms S bit
            .inl { s with i := s.i + bit, count := s.count + bit, pc := .second }
        else .inl { s with i := s.i + (W - W % S), count := s.count + (W - W % S) }
      else .inl { s with pc := .second }
    else .inl { s with pc := .scal }
  | .scal =>
    if s.count ≠ 0 ∧ s.i + S ≤ n then
      if nextSym S inp s.i = leN s.sym then
        .inl { s with i := s.i + S, count := s.count + S, pc := .top }
      else if unb then
        match scalarPart S inp s.sym s.i with
        | none => .inr none
        | some b => .inl { s with i := s.i + b, count := s.count + b, pc := .second }
      else .inl { s with pc := .second }
    else .inl { s with pc := .second }
  | .second => .inl { doEmit emit inp s with pc := .search }
  | .search =>
    if W ≠ 0 ∧ s.i + W + S < n then
      let bitMask := foldMask S (movemask W (veq (vmem inp s.i) (vmem inp (s.i + S))))
      if bitMask = 0 then .inl { s with i := s.i + (W - S) }
      else match ctz bitMask with
        | none => .inr none
        | some bit => .inl { s with sym := rd inp (s.i + bit) S, i := s.i + (bit + 2 * S), count := 2 * S, pc := .ext }
    else .inl { s with pc := .sscan }
  | .sscan =>
    if s.i + S ≤ n ∧ nextSym S inp (s.i + S) = nextSym S inp s.i then
      .inl { s with sym := rd inp s.i S, count := 2 * S, i := s.i + 2 * S, pc := .top }
    else .inl { s with sym := rd inp s.i S, count := 0, i := s.i + 1, pc := .top }

/-- The encoder loop (src/rleX_extreme_cpu_encode.h:26-382); `none` stands for a loop that does not end and for
undefined behaviour, which are both excluded by `runXI_eq` and `runX_scan`. -/
def runXI {σ : Type} (F : Fmt σ) (S : Nat) (k : Simd) (unb : Bool) (inp : Mem) (n : Nat) : Option (ES σ) :=
  (loop (stepXI F.emit S k unb inp n) (6 * n + 6)
    ⟨.top, 0, 0, 0, (rd inp 0 S).map (fun b => ~~~ b), F.init, []⟩).join

/-! ### The symbol register -/

theorem byte_and_ff (x : Byte) : x &&& 255 = x := byte_forall (P := fun x => x &&& 255 = x) (by decide +kernel) x

theorem symbolSimd_lane {S : Nat} (hS : symSize S) (k : Simd) {sym : List Byte} (hl : sym.length = S) {j : Nat}
    (hj : j < k.width) : symbolSimd S k sym j = sym.getD (j % S) 0 := by
  have hall : S = 3 ∨ S = 6 ∨ (symT S = S ∧ S ≠ 3 ∧ S ≠ 6) := by
    rcases hS with rfl | rfl | rfl | rfl | rfl <;> simp [symT]
  rcases hall with rfl | rfl | ⟨h1, h2, h3⟩
  · obtain ⟨a, b, c, rfl⟩ : ∃ a b c, sym = [a, b, c] := by
      match sym, hl with
      | [a, b, c], _ => exact ⟨a, b, c, rfl⟩
    cases k
    · exact absurd hj (by simp [Simd.width])
    all_goals
      simp only [Simd.width] at hj
      interval_cases j <;>
        simp [symbolSimd, symVar, symT, vset1N, vset, vshuffle, vor, vand, vsrli, vslli, byte_and_ff]
  · obtain ⟨a, b, c, d, e, f, rfl⟩ : ∃ a b c d e f, sym = [a, b, c, d, e, f] := by
      match sym, hl with
      | [a, b, c, d, e, f], _ => exact ⟨a, b, c, d, e, f, rfl⟩
    cases k
    · exact absurd hj (by simp [Simd.width])
    all_goals
      simp only [Simd.width] at hj
      interval_cases j <;>
        simp [symbolSimd, symVar, symT, vset1N, vset, vshuffle, vor, vand, vsrli, vslli, byte_and_ff]
  · have : symbolSimd S k sym = vset1N (symVar S sym) := by
      unfold symbolSimd
      split <;> first | rfl | exact absurd rfl h2 | exact absurd rfl h3
    rw [this]
    simp [vset1N, symVar, h1, hl]

/-! ### Extending the run -/

/-- The mask of the bytes that continue the run (src/rleX_extreme_cpu_encode.h:59-68). -/
def extMask (S : Nat) (k : Simd) (inp : Mem) (sym : List Byte) (i : Nat) : Nat :=
  movemask k.width (veq (vmem inp i) (symbolSimd S k sym))

theorem width_le (k : Simd) : k.width ≤ 32 := by cases k <;> decide

theorem extMask_testBit {S : Nat} (hS : symSize S) (k : Simd) (inp : Mem) {sym : List Byte} (hl : sym.length = S) (i j : Nat) :
    (extMask S k inp sym i).testBit j = (decide (j < k.width) && decide (inp (i + j) = sym.getD (j % S) 0)) := by
  unfold extMask
  rw [mask_testBit]
  by_cases hj : j < k.width
  · rw [symbolSimd_lane hS k hl hj]; rfl
  · simp [hj]

theorem extMask_lt (S : Nat) (k : Simd) (inp : Mem) (sym : List Byte) (i : Nat) : extMask S k inp sym i < 4294967296 :=
  Nat.lt_of_lt_of_le (movemask_lt _ _) (Nat.pow_le_pow_right (by decide) (width_le k) : 2 ^ k.width ≤ 2 ^ 32)

section
variable {S : Nat} (hS : symSize S) (k : Simd) (inp : Mem) {sym : List Byte} (hl : sym.length = S) (i : Nat)
include hS hl

theorem extMask_lo (hk : k.width ≠ 0) : extMask S k inp sym i &&& 1 ≠ 0 ↔ matchLen inp sym i k.width 0 ≠ 0 := by
  have h1 : (extMask S k inp sym i &&& 1 ≠ 0) ↔ (extMask S k inp sym i).testBit 0 = true := by
    rw [Nat.testBit_zero, Nat.and_one_is_mod]; simp
  rw [h1, extMask_testBit hS k inp hl]
  obtain ⟨w, hw⟩ : ∃ w, k.width = w + 1 := ⟨k.width - 1, by omega⟩
  have hpos : 0 < S := by rcases hS with rfl | rfl | rfl | rfl | rfl <;> decide
  rw [hw, matchLen, hl]
  by_cases h : inp (i + 0) = sym.getD (0 % S) 0
  · rw [if_pos h, decide_eq_true h]; simp
  · rw [if_neg h, decide_eq_false h]; simp

theorem extMask_full : extMask S k inp sym i = 2 ^ k.width - 1 ↔ matchLen inp sym i k.width 0 = k.width := by
  unfold extMask
  rw [movemask_full]
  have hle := matchLen_le inp sym i k.width 0
  constructor
  · intro h
    by_cases hlt : matchLen inp sym i k.width 0 < k.width
    · have := matchLen_stop inp sym i k.width 0 hlt
      have h2 := (veq_ge _ _ _).mp (h _ hlt)
      rw [symbolSimd_lane hS k hl hlt] at h2
      rw [Nat.zero_add, hl] at this
      exact absurd h2 this
    · omega
  · intro h j hj
    have := matchLen_spec inp sym i k.width 0 j (by omega)
    rw [veq_ge, symbolSimd_lane hS k hl hj]
    rw [Nat.zero_add, hl] at this
    exact this

theorem extMask_ctz (h : matchLen inp sym i k.width 0 ≠ k.width) :
    ctz (not32 (extMask S k inp sym i)) = some (matchLen inp sym i k.width 0) := by
  have hle := matchLen_le inp sym i k.width 0
  have hw := width_le k
  have hlt : matchLen inp sym i k.width 0 < k.width := by omega
  refine ctz_at (by omega) ?_ fun j hj => ?_
  · rw [not32_testBit (extMask_lt S k inp sym i), extMask_testBit hS k inp hl]
    have := matchLen_stop inp sym i k.width 0 hlt
    rw [Nat.zero_add, hl] at this
    rw [decide_eq_false this, decide_eq_true (show matchLen inp sym i k.width 0 < 32 by omega)]
    simp
  · rw [not32_testBit (extMask_lt S k inp sym i), extMask_testBit hS k inp hl]
    have := matchLen_spec inp sym i k.width 0 j hj
    rw [Nat.zero_add, hl] at this
    rw [decide_eq_true this, decide_eq_true (show j < k.width by omega)]
    simp

end

theorem wholeSyms_eq {S bit : Nat} (hS : symSize S) (hb : bit < 32) : wholeSyms S bit = bit - bit % S := by
  unfold wholeSyms
  rcases hS with rfl | rfl | rfl | rfl | rfl
  · rw [if_pos (by decide)]
    exact (by decide +kernel : ∀ b, b < 32 → b &&& not32 (2 - 1) = b - b % 2) bit hb
  · rw [if_neg (by decide)]
  · rw [if_pos (by decide)]
    exact (by decide +kernel : ∀ b, b < 32 → b &&& not32 (4 - 1) = b - b % 4) bit hb
  · rw [if_neg (by decide)]
  · rw [if_pos (by decide)]
    exact (by decide +kernel : ∀ b, b < 32 → b &&& not32 (8 - 1) = b - b % 8) bit hb

/-! ### Searching the next run -/

theorem findPair_bitFrom {inp : Mem} {S i m : Nat} : ∀ k off, (∀ j, j < k → pairAt inp S (i + (off + j)) = m.testBit (off + j)) →
    findPair inp S i k off = bitFrom m k off
  | 0, _, _ => rfl
  | k + 1, off, h => by
    rw [findPair, bitFrom]
    have h0 := h 0 (by omega)
    rw [Nat.add_zero] at h0
    rw [h0, findPair_bitFrom k (off + 1) fun j hj => by
      have := h (j + 1) (by omega)
      rwa [show off + (j + 1) = off + 1 + j by omega] at this]

theorem bitFrom_more {m : Nat} : ∀ {k off K}, k ≤ K → (∀ j, off + k ≤ j → j < off + K → m.testBit j = false) → bitFrom m K off = bitFrom m k off
  | k, off, 0, h, _ => by rw [show k = 0 by omega]
  | 0, off, K + 1, _, h => by
    rw [show bitFrom m (K + 1) off = if m.testBit off then some off else bitFrom m K (off + 1) from rfl,
      if_neg (by rw [h off (by omega) (by omega)]; decide)]
    exact bitFrom_more (k := 0) (by omega) fun j a b => h j (by omega) (by omega)
  | k + 1, off, K + 1, hk, h => by
    rw [bitFrom, bitFrom, bitFrom_more (k := k) (by omega) fun j a b => h j (by omega) (by omega)]

theorem pairAt_iff (inp : Mem) (S p : Nat) : pairAt inp S p = true ↔ ∀ j, j < S → inp (p + j) = inp (p + S + j) := by
  unfold pairAt
  rw [beq_iff_eq]
  constructor
  · intro h j hj
    have := congrArg (fun l => l.getD j 0) h
    rwa [rd_getD _ _ _ _ _ hj, rd_getD _ _ _ _ _ hj] at this
  · intro h
    exact List.map_congr_left fun j hj => h j (List.mem_range.mp hj)

theorem search_ctz {S W : Nat} (hS : symSize S) (hW : S < W) (hW2 : W ≤ 32) (inp : Mem) (i : Nat) :
    ctz (foldMask S (movemask W (veq (vmem inp i) (vmem inp (i + S))))) = findPair inp S i (W - S + 1) 0 := by
  have hpos : 0 < S := by rcases hS with rfl | rfl | rfl | rfl | rfl <;> decide
  have hbit : ∀ j, (foldMask S (movemask W (veq (vmem inp i) (vmem inp (i + S))))).testBit j = true ↔
      ∀ k, k < S → j + k < W ∧ inp (i + (j + k)) = inp (i + S + (j + k)) := by
    intro j
    rw [foldMask_testBit hS]
    simp only [mask_testBit, Bool.and_eq_true, decide_eq_true_eq]
    exact Iff.rfl
  unfold ctz
  rw [bitFrom_more (k := W - S + 1) (by omega) fun j h1 h2 => by
    rw [← Bool.not_eq_true, hbit]
    intro h
    have := (h (S - 1) (by omega)).1
    omega]
  refine (findPair_bitFrom _ _ fun j hj => ?_).symm
  rw [Nat.zero_add, Bool.eq_iff_iff, hbit, pairAt_iff]
  constructor
  · intro h k hk
    have := h k hk
    exact ⟨by omega, by rw [show i + (j + k) = i + j + k by omega, show i + S + (j + k) = i + j + S + k by omega]; exact this⟩
  · intro h k hk
    have := (h k hk).2
    rwa [show i + (j + k) = i + j + k by omega, show i + S + (j + k) = i + j + S + k by omega] at this

theorem foldMask_lt {S m : Nat} (hS : symSize S) (hm : m < 2 ^ 32) : foldMask S m < 2 ^ 64 := by
  refine Nat.lt_of_le_of_lt ?_ (Nat.lt_trans hm (by decide) : m < 2 ^ 64)
  rcases hS with rfl | rfl | rfl | rfl | rfl
  all_goals
    simp only [foldMask]
    repeat' first
      | exact Nat.and_le_left
      | refine Nat.le_trans Nat.and_le_left ?_

/-! ### Comparing symbols as numbers -/

theorem leN_lt : ∀ l : List Byte, leN l < 256 ^ l.length
  | [] => by simp [leN]
  | b :: r => by
    have h1 := leN_lt r
    have h2 := b.toNat_lt
    simp only [leN, List.length_cons, Nat.pow_succ]
    omega

theorem leN_mod : ∀ (k : Nat) (l : List Byte), leN l % 256 ^ k = leN (l.take k)
  | 0, l => by simp [leN, Nat.mod_one]
  | k + 1, [] => by simp [leN]
  | k + 1, b :: r => by
    have ih := leN_mod k r
    have h2 := b.toNat_lt
    simp only [leN, List.take_succ_cons, ← ih, Nat.pow_succ]
    rw [Nat.mul_comm (256 ^ k) 256, Nat.mod_mul, Nat.add_mul_mod_self_left, Nat.mod_eq_of_lt (a := b.toNat) (by omega),
      Nat.add_mul_div_left _ _ (by decide), Nat.div_eq_of_lt (a := b.toNat) (by omega), Nat.zero_add]

theorem leN_inj : ∀ (a b : List Byte), a.length = b.length → leN a = leN b → a = b
  | [], [], _, _ => rfl
  | x :: a, y :: b, hl, h => by
    have h1 := x.toNat_lt
    have h2 := y.toNat_lt
    simp only [leN] at h
    have hx : x = y := UInt8.toNat_inj.mp (by omega)
    rw [hx, leN_inj a b (by simpa using hl) (by omega)]

theorem leN_testBit : ∀ (l : List Byte) (k b : Nat), b < 8 → (leN l).testBit (8 * k + b) = (l.getD k 0).toNat.testBit b
  | [], k, b, _ => by simp [leN]
  | x :: r, 0, b, hb => by
    have h := x.toNat_lt
    simp only [leN, List.getD_cons_zero, Nat.mul_zero, Nat.zero_add]
    rw [Nat.add_comm, show 256 = 2 ^ 8 by decide, Nat.testBit_two_pow_mul_add _ h, if_pos hb]
  | x :: r, k + 1, b, hb => by
    have h := x.toNat_lt
    simp only [leN, List.getD_cons_succ]
    rw [Nat.add_comm x.toNat, show 256 = 2 ^ 8 by decide, Nat.testBit_two_pow_mul_add _ h, if_neg (by omega),
      show 8 * (k + 1) + b - 8 = 8 * k + b by omega, leN_testBit r k b hb]

theorem nextSym_eq {S : Nat} (hS : symSize S) (inp : Mem) (i : Nat) : nextSym S inp i = leN (rd inp i S) := by
  unfold nextSym
  split
  · rfl
  · rw [Nat.and_two_pow_sub_one_eq_mod, show (2 : Nat) ^ (8 * S) = 256 ^ S by rw [Nat.pow_mul], leN_mod]
    congr 1
    have : S ≤ symT S := by rcases hS with rfl | rfl | rfl | rfl | rfl <;> decide
    simp only [rd, ← List.map_take, List.take_range, Nat.min_eq_left this]

theorem matchLen_eq_iff {inp : Mem} {sym : List Byte} {S i : Nat} (hl : sym.length = S) :
    matchLen inp sym i S 0 = S ↔ rd inp i S = sym := by
  have hle := matchLen_le inp sym i S 0
  constructor
  · intro h
    refine List.ext_getElem (by simp [hl]) fun j h1 h2 => ?_
    have := matchLen_spec inp sym i S 0 j (by simp at h1; omega)
    rw [Nat.zero_add, hl, Nat.mod_eq_of_lt (by simpa using h1)] at this
    rw [rd_getElem, this, List.getD_eq_getElem?_getD, List.getElem?_eq_getElem h2]; rfl
  · intro h
    by_cases hlt : matchLen inp sym i S 0 < S
    · refine absurd ?_ (matchLen_stop inp sym i S 0 hlt)
      rw [Nat.zero_add, hl, Nat.mod_eq_of_lt hlt]
      have := rd_getD inp i S _ 0 hlt
      rw [h] at this
      exact this.symm
    · omega

theorem nextSym_iff {S : Nat} (hS : symSize S) {inp : Mem} {sym : List Byte} {i : Nat} (hl : sym.length = S) :
    nextSym S inp i = leN sym ↔ matchLen inp sym i S 0 = S := by
  rw [nextSym_eq hS, matchLen_eq_iff hl]
  exact ⟨fun h => leN_inj _ _ (by simp [hl]) h, fun h => by rw [h]⟩

theorem byte_ne_bit {a b : Byte} (h : a ≠ b) : ∃ k, k < 8 ∧ (a.toNat ^^^ b.toNat).testBit k = true := by
  by_cases hx : ∃ k, k < 8 ∧ (a.toNat ^^^ b.toNat).testBit k = true
  · exact hx
  · refine absurd (UInt8.toNat_inj.mp (Nat.eq_of_testBit_eq fun k => ?_)) h
    by_cases hk : k < 8
    · have : (a.toNat ^^^ b.toNat).testBit k = false := by
        rw [← Bool.not_eq_true]; exact fun e => hx ⟨k, hk, e⟩
      rw [Nat.testBit_xor] at this
      simpa using this
    · have hp : 2 ^ 8 ≤ 2 ^ k := Nat.pow_le_pow_right (by decide) (by omega)
      rw [Nat.testBit_lt_two_pow (Nat.lt_of_lt_of_le a.toNat_lt hp), Nat.testBit_lt_two_pow (Nat.lt_of_lt_of_le b.toNat_lt hp)]

theorem scalarPart_eq {S : Nat} (hS : symSize S) {inp : Mem} {sym : List Byte} {i : Nat} (hl : sym.length = S)
    (h : matchLen inp sym i S 0 ≠ S) : scalarPart S inp sym i = some (matchLen inp sym i S 0) := by
  have hle := matchLen_le inp sym i S 0
  have hlt : matchLen inp sym i S 0 < S := by omega
  have hS8 : S ≤ 8 ∧ S ≤ symT S := by rcases hS with rfl | rfl | rfl | rfl | rfl <;> decide
  unfold scalarPart
  split
  · next h2 =>
    subst h2
    congr 1
    rw [matchLen]
    have e : (0 % sym.length) = 0 := by simp
    rw [e, Nat.add_zero]
    by_cases h0 : inp i = sym.getD 0 0
    · rw [if_pos h0.symm, if_pos h0]
      rw [matchLen, Nat.add_zero, if_pos (by rw [e]; exact h0)] at hlt
      omega
    · rw [if_neg (fun e => h0 e.symm), if_neg h0]
  · generalize hM : matchLen inp sym i S 0 = M at *
    have hb : ∀ k b, k < S → b < 8 → (leN sym ^^^ leN (rd inp i (symT S))).testBit (8 * k + b) =
        ((sym.getD k 0).toNat ^^^ (inp (i + k)).toNat).testBit b := by
      intro k b hk hb
      rw [Nat.testBit_xor, Nat.testBit_xor, leN_testBit _ _ _ hb, leN_testBit _ _ _ hb, rd_getD _ _ _ _ _ (by omega)]
    have hlow : ∀ j, j < 8 * M → (leN sym ^^^ leN (rd inp i (symT S))).testBit j = false := by
      intro j hj
      have h1 := matchLen_spec inp sym i S 0 (j / 8) (by rw [hM]; omega)
      rw [Nat.zero_add, hl, Nat.mod_eq_of_lt (by omega)] at h1
      rw [show j = 8 * (j / 8) + j % 8 by omega, hb _ _ (by omega) (by omega), h1]
      simp
    have hstop := matchLen_stop inp sym i S 0 (by omega)
    rw [hM, Nat.zero_add, hl, Nat.mod_eq_of_lt hlt] at hstop
    obtain ⟨b, hb8, hbit⟩ := byte_ne_bit (fun e => hstop e.symm)
    rw [← hb M b hlt hb8] at hbit
    cases hz : ctz (leN sym ^^^ leN (rd inp i (symT S))) with
    | none =>
      have := bitFrom_none hz (8 * M + b) (by omega) (by omega)
      rw [this] at hbit
      cases hbit
    | some z =>
      obtain ⟨_, _, z1, z2⟩ := bitFrom_some hz
      have g1 : 8 * M ≤ z := by
        by_cases hc : z < 8 * M
        · rw [hlow z hc] at z1; cases z1
        · omega
      have g2 : z ≤ 8 * M + b := by
        by_cases hc : 8 * M + b < z
        · rw [z2 _ (by omega) hc] at hbit; cases hbit
        · omega
      simp only [Option.map_some, Option.some.injEq]
      omega

/-! ### The two scanners are the same -/

theorem simd_gt {S : Nat} (hS : symSize S) (k : Simd) (h : k.width ≠ 0) : S < k.width := by
  rcases hS with rfl | rfl | rfl | rfl | rfl <;> cases k <;> simp_all [Simd.width]

theorem stepXI_eq {σ : Type} (emit : Emit σ) {S : Nat} (hS : symSize S) (k : Simd) (unb : Bool) (inp : Mem) (n : Nat)
    (s : ES σ) (hl : s.sym.length = S) :
    stepXI emit S k unb inp n s = (stepX emit S k.width unb inp n s).map id some := by
  unfold stepXI stepX
  have hw := width_le k
  cases hpc : s.pc
  all_goals dsimp only
  · split <;> rfl
  · split
    · next hc =>
      have hle := matchLen_le inp s.sym s.i k.width 0
      by_cases h0 : matchLen inp s.sym s.i k.width 0 = 0
      · rw [if_pos h0, if_neg (by rw [show movemask k.width (veq (vmem inp s.i) (symbolSimd S k s.sym)) = extMask S k inp s.sym s.i from rfl,
          extMask_lo hS k inp hl _ hc.1]; simpa using h0)]
        rfl
      · rw [if_neg h0, if_pos (by rw [show movemask k.width (veq (vmem inp s.i) (symbolSimd S k s.sym)) = extMask S k inp s.sym s.i from rfl]; exact
          (extMask_lo hS k inp hl _ hc.1).mpr h0)]
        rw [show movemask k.width (veq (vmem inp s.i) (symbolSimd S k s.sym)) = extMask S k inp s.sym s.i from rfl]
        by_cases h1 : matchLen inp s.sym s.i k.width 0 = k.width
        · rw [if_pos h1, if_neg (by rw [ne_eq, extMask_full hS k inp hl]; simpa using h1)]
          rfl
        · rw [if_neg h1, if_pos (by rw [ne_eq, extMask_full hS k inp hl]; exact h1), extMask_ctz hS k inp hl _ h1]
          dsimp only
          cases unb
          · simp only [Bool.false_eq_true, if_false]
            rw [wholeSyms_eq hS (by omega)]
            rfl
          · rfl
    · rfl
  · split
    · by_cases h1 : matchLen inp s.sym s.i S 0 = S
      · rw [if_pos h1, if_pos ((nextSym_iff hS hl).mpr h1)]
        rfl
      · rw [if_neg h1, if_neg (fun e => h1 ((nextSym_iff hS hl).mp e)), scalarPart_eq hS hl h1]
        split <;> rfl
    · rfl
  · rfl
  · split
    · next hc =>
      have hgt := simd_gt hS k hc.1
      rw [search_ctz hS hgt hw]
      by_cases h0 : foldMask S (movemask k.width (veq (vmem inp s.i) (vmem inp (s.i + S)))) = 0
      · rw [if_pos h0, ← search_ctz hS hgt hw, h0, ctz_zero]
        rfl
      · rw [if_neg h0]
        cases hf : findPair inp S s.i (k.width - S + 1) 0 with
        | none =>
          rw [← search_ctz hS hgt hw] at hf
          refine absurd (ctz_none (foldMask_lt hS ?_) hf) h0
          exact Nat.lt_of_lt_of_le (movemask_lt _ _) (Nat.pow_le_pow_right (by decide) hw)
        | some b => rfl
    · rfl
  · have : (nextSym S inp (s.i + S) = nextSym S inp s.i) ↔ (rd inp (s.i + S) S = rd inp s.i S) := by
      rw [nextSym_eq hS, nextSym_eq hS]
      exact ⟨fun h => leN_inj _ _ (by simp) h, fun h => by rw [h]⟩
    simp only [this]
    split <;> rfl

theorem stepX_symlen {σ : Type} {emit : Emit σ} {S W : Nat} {unb : Bool} {inp : Mem} {n : Nat}
    {s s' : ES σ} (hl : s.sym.length = S) (h : stepX emit S W unb inp n s = .inl s') : s'.sym.length = S := by
  unfold stepX at h
  cases hpc : s.pc <;> rw [hpc] at h <;> dsimp only at h
  case second =>
    cases h
    unfold doEmit
    split <;> exact hl
  all_goals
    repeat' split at h
    all_goals cases h
    all_goals first | exact hl | simp

theorem loop_map {σ ρ : Type} {b₁ : σ → σ ⊕ Option ρ} {b₂ : σ → σ ⊕ ρ} (I : σ → Prop)
    (h : ∀ s, I s → b₁ s = (b₂ s).map id some ∧ ∀ s', b₂ s = .inl s' → I s') :
    ∀ f s, I s → (loop b₁ f s).join = loop b₂ f s := by
  intro f
  induction f with
  | zero => intro s _; rfl
  | succ f ih =>
    intro s hI
    obtain ⟨h1, h2⟩ := h s hI
    unfold loop
    rw [h1]
    cases hb : b₂ s with
    | inl s' => exact ih s' (h2 s' hb)
    | inr r => rfl

/-- The scanner with the vector instructions is the scanner of ScanX.lean; in particular it never counts the
zeros of 0. -/
theorem runXI_eq {σ : Type} (F : Fmt σ) {S : Nat} (hS : symSize S) (k : Simd) (unb : Bool) :
    runXI F S k unb = runX F S k.width unb := by
  funext inp n
  unfold runXI runX
  exact loop_map (fun s => s.sym.length = S) (fun s hs => ⟨stepXI_eq F.emit hS k unb inp n s hs, fun s' => stepX_symlen hs⟩)
    _ _ (by simp)

end Hrk
