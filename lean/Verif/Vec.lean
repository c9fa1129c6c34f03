import Verif.Basic

/-
Vector registers, byte lane by byte lane.
-/

namespace Hrk

/-- A vector register; lane `j` is byte `j`. The number of lanes that matter is given where the
register is used (`__m128i`, `__m256i`, e.g. src/mmtf.c:129). -/
abbrev Vec := Nat → Byte

/-- `_mm_setzero_si128` (src/mmtf.c:129, 132). -/
def vzero : Vec := fun _ => 0
/-- `_mm_set1_epi8` (src/bit_mmtf.c:28). -/
def vset1 (b : Byte) : Vec := fun _ => b
/-- `_mm_cmpeq_epi8` (src/bit_mmtf.c:29). -/
def veq (a b : Vec) : Vec := fun j => if a j = b j then 255 else 0
/-- `_mm_and_si128` (src/mmtf.c:134). -/
def vand (a b : Vec) : Vec := fun j => a j &&& b j
/-- `_mm_or_si128` (src/mmtf.c:145). -/
def vor (a b : Vec) : Vec := fun j => a j ||| b j
/-- `_mm_xor_si128` (src/bit_mmtf.c:51). -/
def vxor (a b : Vec) : Vec := fun j => a j ^^^ b j
/-- `_mm_andnot_si128` (src/mmtf.c:149). -/
def vandnot (a b : Vec) : Vec := fun j => ~~~ (a j) &&& b j
/-- `_mm_add_epi8` (src/mmtf.c:144). -/
def vadd (a b : Vec) : Vec := fun j => a j + b j
/-- `_mm_loadu_si128` and its relatives; lanes behind the list do not matter (src/mmtf.c:194). -/
def vload (l : List Byte) : Vec := fun j => l.getD j 0
/-- `_mm_storeu_si128` of `w` lanes (src/mmtf.c:224). -/
def vstore (w : Nat) (v : Vec) : List Byte := (List.range w).map v

/-- `_mm_set_epi8`, `_mm256_set_epi8`: the arguments are the lanes from the last to the first (src/bit_mmtf.c:24). -/
def vset (l : List Byte) : Vec := fun j => l.reverse.getD j 0

/-- `_mm_set1_epi16`, `_mm_set1_epi32`, `_mm_set1_epi64x` and their 256 bit relatives, of the number with these bytes (src/rle8_mmtf.c:833, 975). -/
def vset1N (l : List Byte) : Vec := fun j => l.getD (j % l.length) 0

/-- `_mm_srli_si128` (src/rle24_extreme_cpu_decode.h:116). -/
def vsrli (v : Vec) (k : Nat) : Vec := fun j => if j + k < 16 then v (j + k) else 0

/-- `_mm_slli_si128` (src/rle24_extreme_cpu_decode.h:116). -/
def vslli (v : Vec) (k : Nat) : Vec := fun j => if j < k then 0 else v (j - k)

/-- `_mm_shuffle_epi8` and `_mm256_shuffle_epi8`: within each half of 16 lanes (src/rle24_extreme_cpu_decode.h:129). -/
def vshuffle (a b : Vec) : Vec := fun j => if b j ≥ 128 then 0 else a (16 * (j / 16) + (b j).toNat % 16)

/-- Unaligned load from memory (src/mmtf.c:194). -/
def vmem (inp : Mem) (i : Nat) : Vec := fun j => inp (i + j)

/-- `_mm_movemask_epi8` of `w` lanes: bit `j` is the top bit of lane `j` (src/bit_mmtf.c:33). -/
def movemask : Nat → Vec → Nat
  | 0, _ => 0
  | w + 1, v => movemask w v + (if v w ≥ 128 then 2 ^ w else 0)

theorem movemask_lt (w : Nat) (v : Vec) : movemask w v < 2 ^ w := by
  induction w with
  | zero => simp [movemask]
  | succ w ih =>
    unfold movemask
    have : 2 ^ (w + 1) = 2 ^ w + 2 ^ w := by rw [Nat.pow_succ]; omega
    split <;> omega

theorem movemask_full (w : Nat) (v : Vec) : movemask w v = 2 ^ w - 1 ↔ ∀ j, j < w → v j ≥ 128 := by
  induction w with
  | zero => simp [movemask]
  | succ w ih =>
    unfold movemask
    have h1 := movemask_lt w v
    have h2 : 2 ^ (w + 1) = 2 ^ w + 2 ^ w := by rw [Nat.pow_succ]; omega
    have h3 : 0 < 2 ^ w := Nat.two_pow_pos w
    constructor
    · intro h j hj
      by_cases hw : v w ≥ 128
      · rw [if_pos hw] at h
        by_cases hj' : j = w
        · rw [hj']; exact hw
        · exact ih.mp (by omega) j (by omega)
      · rw [if_neg hw] at h; omega
    · intro h
      rw [if_pos (h w (by omega)), ih.mpr (fun j hj => h j (by omega))]
      omega

/-- A claim about all bytes, from the 256 cases. -/
theorem byte_forall {P : Byte → Prop} (h : ∀ i : Fin 256, P (UInt8.ofNat i.val)) (x : Byte) : P x := by
  have := h ⟨x.toNat, x.toNat_lt⟩
  simpa using this

theorem byte_and_255 (x : Byte) : 255 &&& x = x := byte_forall (P := fun x => 255 &&& x = x) (by decide +kernel) x

end Hrk
