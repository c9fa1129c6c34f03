import Verif.Rle8MmtfApi
import Verif.ShWords

/-
What a byte string means to rle8_mmtf128, written down without the decompressor: sections of blocks of 16
move-to-front indices, and the sixteen columns the indices are decoded in.
-/

namespace Hrk

/-! ### The grammar -/

/-- Bits `k` to `k + w - 1` of byte `p`. -/
def bitsAt (x : List Byte) (p k w : Nat) : Nat := (x.getD p 0).toNat / 2 ^ k % 2 ^ w

/-- `q` groups of `g` blocks. A group takes `d` bytes, and `lay x i j` is index `j` of block `i` of the group
that starts at `x`. -/
def mmGroups (g d : Nat) (lay : List Byte → Nat → Nat → Nat) : Nat → List Byte → List (List Byte)
  | 0, _ => []
  | q + 1, x => ((List.range g).map fun i => (List.range 16).map fun j => b8 (lay x i j)) ++ mmGroups g d lay q (x.drop d)

/-- One byte per index. -/
def lay8 (x : List Byte) (_ j : Nat) : Nat := bitsAt x j 0 8
/-- Four bits per index, two blocks in 16 bytes: the first block has the upper halves. -/
def lay4x2 (x : List Byte) (i j : Nat) : Nat := bitsAt x j (if i = 0 then 4 else 0) 4
/-- Four bits per index, one block in 8 bytes: the lower halves come first. -/
def lay4x1 (x : List Byte) (_ j : Nat) : Nat := bitsAt x (j % 8) (4 * (j / 8)) 4
/-- Three bits per index, six blocks in 36 bytes: three blocks share 16 bytes, the upper bits of the third one
are in the last four bytes. -/
def lay3x6 (x : List Byte) (i j : Nat) : Nat :=
  if i % 3 = 2 then bitsAt x (16 * (i / 3) + j) 6 2 + 4 * bitsAt x (32 + 2 * (i / 3) + j / 8) (j % 8) 1
  else bitsAt x (16 * (i / 3) + j) (3 * (i % 3)) 3
/-- Three bits per index, one block in 6 bytes: the lowest bits, the middle ones, the upper ones. -/
def lay3x1 (x : List Byte) (_ j : Nat) : Nat :=
  bitsAt x (j / 8) (j % 8) 1 + 2 * bitsAt x (2 + j / 8) (j % 8) 1 + 4 * bitsAt x (4 + j / 8) (j % 8) 1
/-- Two bits per index, four blocks in 16 bytes. -/
def lay2x4 (x : List Byte) (i j : Nat) : Nat := bitsAt x j (2 * i) 2
/-- Two bits per index, one block in 4 bytes. -/
def lay2x1 (x : List Byte) (_ j : Nat) : Nat := bitsAt x (j % 4) (2 * (j / 4)) 2

/-- How the indices of a copy section are packed. -/
inductive MmKind
  | plain | four | three | two

/-- The number of bytes of `c` blocks. -/
def MmKind.len : MmKind → Nat → Nat
  | .plain, c => 16 * c
  | .four, c => 16 * (c / 2) + 8 * (c % 2)
  | .three, c => 36 * (c / 6) + 6 * (c % 6)
  | .two, c => 16 * (c / 4) + 4 * (c % 4)

/-- The `c` blocks packed in `x`: full groups first, then single blocks. -/
def MmKind.blocks : MmKind → Nat → List Byte → List (List Byte)
  | .plain, c, x => mmGroups 1 16 lay8 c x
  | .four, c, x => mmGroups 2 16 lay4x2 (c / 2) x ++ mmGroups 1 8 lay4x1 (c % 2) (x.drop (16 * (c / 2)))
  | .three, c, x => mmGroups 6 36 lay3x6 (c / 6) x ++ mmGroups 1 6 lay3x1 (c % 6) (x.drop (36 * (c / 6)))
  | .two, c, x => mmGroups 4 16 lay2x4 (c / 4) x ++ mmGroups 1 4 lay2x1 (c % 4) (x.drop (16 * (c / 4)))

/-- The bits of a header that tell the kind. -/
def MmKind.code : MmKind → Nat
  | .plain => 0
  | .four => 2
  | .three => 4
  | .two => 6

/-- A section: packed blocks, or `count` blocks made of one index. `wide` is a header of four bytes instead of
one. -/
inductive MmSec
  | copy (wide : Bool) (kind : MmKind) (count : Nat) (body : List Byte)
  | rep (wide : Bool) (count : Nat) (index : Byte)

/-- What fits the header. -/
def MmSec.ok : MmSec → Prop
  | .copy wide kind count body => count < (if wide then 536870912 else 32) ∧ body.length = kind.len count
  | .rep wide count _ => 0 < count ∧ count < (if wide then 2147483648 else 128)

def MmSec.bytes : MmSec → List Byte
  | .copy wide kind count body => (if wide then le32 (8 * count + kind.code + 1) else [b8 (8 * count + kind.code)]) ++ body
  | .rep wide count index => (if wide then le32 (2 * count + 1) else [b8 (2 * count)]) ++ [index]

def MmSec.blocks : MmSec → List (List Byte)
  | .copy _ kind count body => kind.blocks count body
  | .rep _ count index => List.replicate count (List.replicate 16 index)

/-- Copy sections and repeat sections alternate, the last one is a copy section. `rep` tells that a repeat
section is next. -/
def MmAlt : Bool → List MmSec → Prop
  | true, [] => True
  | false, .copy _ _ _ _ :: l => MmAlt true l
  | true, .rep _ _ _ :: l => MmAlt false l
  | _, _ => False

def secsBytes (l : List MmSec) : List Byte := (l.map MmSec.bytes).flatten
def secsBlocks (l : List MmSec) : List (List Byte) := (l.map MmSec.blocks).flatten

/-- The repeat section of no blocks that ends the stream. -/
def mmEnd (wide : Bool) : List Byte := if wide then le32 1 else [0]

/-- The table of a move to front decoder that has seen the indices. -/
def unmtfAfter : List Byte → List Byte → List Byte
  | T, [] => T
  | T, i :: is => unmtfAfter (T.getD i.toNat 0 :: T.eraseIdx i.toNat) is

/-- `t` is the text of the indices `I`, sixteen columns side by side that start with the tables `T`, followed by
that of the indices `tail`. Byte `i` of the tail comes from the table of its column as the indices `I` left it. No 17th byte is ever
written behind the blocks; where a stream has one, it comes from the next row. -/
def MmText (T : Nat → List Byte) (I tail t : List Byte) : Prop :=
  t.length = I.length + tail.length ∧
  (∀ j, j < 16 → lane 16 j (t.take I.length) = unmtf (T j) (lane 16 j I)) ∧
  ∀ i, i < tail.length → (tail.getD i 0).toNat * 16 + i < 4096 ∧
    t.getD (I.length + i) 0 = (unmtfAfter (T (i % 16)) (lane 16 (i % 16) I)).getD ((tail.getD i 0).toNat + i / 16) 0

/-- Behind its two sizes, the byte string `r` spells the `t.length` bytes `t`; what follows does not matter. -/
def MmSpells (r t : List Byte) : Prop :=
  ∃ (secs : List MmSec) (wide : Bool) (tail rest : List Byte), MmAlt false secs ∧ (∀ s ∈ secs, s.ok) ∧
    r = secsBytes secs ++ mmEnd wide ++ tail ++ rest ∧
    MmText (fun _ => mtfTable) (secsBlocks secs).flatten tail t

/-! ### Unpacking -/

/-- The unpacking step finds the indices the layout describes. -/
def LayOk (g d : Nat) (unp : List Byte → List Byte) (lay : List Byte → Nat → Nat → Nat) : Prop :=
  ∀ x r : List Byte, x.length = d → (unp x).length = 16 * g ∧
    blocks16 g (unp x) = (List.range g).map fun i => (List.range 16).map fun j => b8 (lay (x ++ r) i j)

theorem bitsAt_app {x r : List Byte} {p : Nat} (k w : Nat) (h : p < x.length) :
    bitsAt (x ++ r) p k w = (vload x p).toNat / 2 ^ k % 2 ^ w := by
  unfold bitsAt vload
  rw [getD_append_l h]

theorem vstore_cat (w v : Nat) (a b : Vec) :
    vstore w a ++ vstore v b = vstore (w + v) (fun j => if j < w then a j else b (j - w)) := by
  unfold vstore
  rw [List.range_add, List.map_append, List.map_map]
  congr 1
  · apply List.map_congr_left
    intro j hj
    rw [if_pos (List.mem_range.mp hj)]
  · apply List.map_congr_left
    intro j _
    simp only [Function.comp]
    rw [if_neg (by omega)]
    congr 1; omega

theorem and_field (x : Byte) :
    (3 &&& x = b8 (x.toNat / 2 ^ 0 % 2 ^ 2) ∧ 3 &&& (x >>> b8 2) = b8 (x.toNat / 2 ^ 2 % 2 ^ 2) ∧
      3 &&& (x >>> b8 4) = b8 (x.toNat / 2 ^ 4 % 2 ^ 2) ∧ 3 &&& (x >>> b8 6) = b8 (x.toNat / 2 ^ 6 % 2 ^ 2)) ∧
    (7 &&& x = b8 (x.toNat / 2 ^ 0 % 2 ^ 3) ∧ 7 &&& (x >>> b8 3) = b8 (x.toNat / 2 ^ 3 % 2 ^ 3)) ∧
    (15 &&& x = b8 (x.toNat / 2 ^ 0 % 2 ^ 4) ∧ 15 &&& (x >>> b8 4) = b8 (x.toNat / 2 ^ 4 % 2 ^ 4)) ∧
    x = b8 (x.toNat / 2 ^ 0 % 2 ^ 8) :=
  byte_forall (P := fun x => (3 &&& x = b8 (x.toNat / 2 ^ 0 % 2 ^ 2) ∧ 3 &&& (x >>> b8 2) = b8 (x.toNat / 2 ^ 2 % 2 ^ 2) ∧
      3 &&& (x >>> b8 4) = b8 (x.toNat / 2 ^ 4 % 2 ^ 2) ∧ 3 &&& (x >>> b8 6) = b8 (x.toNat / 2 ^ 6 % 2 ^ 2)) ∧
    (7 &&& x = b8 (x.toNat / 2 ^ 0 % 2 ^ 3) ∧ 7 &&& (x >>> b8 3) = b8 (x.toNat / 2 ^ 3 % 2 ^ 3)) ∧
    (15 &&& x = b8 (x.toNat / 2 ^ 0 % 2 ^ 4) ∧ 15 &&& (x >>> b8 4) = b8 (x.toNat / 2 ^ 4 % 2 ^ 4)) ∧
    x = b8 (x.toNat / 2 ^ 0 % 2 ^ 8)) (by decide +kernel) x

theorem bitOf_bit (v : Vec) (j : Nat) : bitOf v j = b8 ((v j).toNat / 2 ^ (j % 8) % 2 ^ 1) := by
  rw [bitOf_eq]
  rw [Nat.testBit_eq_decide_div_mod_eq, Nat.pow_one]
  by_cases h : (v j).toNat / 2 ^ (j % 8) % 2 = 1
  · rw [h]; simp; rfl
  · have h2 : (v j).toNat / 2 ^ (j % 8) % 2 = 0 := by omega
    rw [h2]; simp; rfl

theorem spread16_bit {x : List Byte} {j : Nat} (hj : j < 16) :
    spread16 x j = b8 ((vload x (j / 8)).toNat / 2 ^ (j % 8) % 2 ^ 1) := by
  unfold spread16
  rw [bitOf_bit]
  unfold unpackLo set16 vload
  rw [show j / 2 / 2 / 2 % 2 = j / 8 by omega]

theorem bit_lt (x k : Nat) : (b8 (x / 2 ^ k % 2 ^ 1)).toNat = x / 2 ^ k % 2 ^ 1 := by
  rw [b8_toNat]
  have : x / 2 ^ k % 2 ^ 1 < 2 := Nat.mod_lt _ (by decide)
  omega

theorem single_block {unp : List Byte → List Byte} {d : Nat} {lay : List Byte → Nat → Nat → Nat} {v : List Byte → Vec}
    (hu : ∀ x, unp x = vstore 16 (v x))
    (hv : ∀ x r j, x.length = d → j < 16 → v x j = b8 (lay (x ++ r) 0 j)) : LayOk 1 d unp lay := by
  intro x r hx
  rw [hu]
  refine ⟨vstore_length _ _, ?_⟩
  have := blocks16_flatten [vstore 16 (v x)] (by simp [vstore_length])
  simp only [List.length_cons, List.length_nil, Nat.zero_add, List.flatten_cons, List.flatten_nil, List.append_nil] at this
  rw [this]
  show [vstore 16 (v x)] = [(List.range 16).map fun j => b8 (lay (x ++ r) 0 j)]
  congr 1
  exact vstore_congr fun j hj => hv x r j hx hj

theorem layOk8 : LayOk 1 16 id lay8 := by
  intro x r hx
  refine ⟨hx, ?_⟩
  have := blocks16_flatten [x] (by simp [hx])
  simp only [List.length_cons, List.length_nil, Nat.zero_add, List.flatten_cons, List.flatten_nil, List.append_nil] at this
  show blocks16 1 x = [(List.range 16).map fun j => b8 (lay8 (x ++ r) 0 j)]
  rw [this]
  congr 1
  have h1 := vstore_vload (w := 16) (l := x) (by omega)
  rw [List.take_of_length_le (by omega)] at h1
  refine h1.symm.trans (vstore_congr fun j hj => ?_)
  unfold lay8
  rw [bitsAt_app _ _ (by omega)]
  exact (and_field _).2.2.2

theorem layOk4x1 : LayOk 1 8 unpack4x1 lay4x1 := by
  apply single_block (v := fun x j => if j < 8 then vand (vload x) (vset1 15) j else vand (shrLe 8 4 (vload x)) (vset1 15) (j - 8))
  · intro x; unfold unpack4x1; rw [vstore_cat]
  · intro x r j hx hj
    unfold lay4x1
    rw [bitsAt_app _ _ (by omega)]
    by_cases h : j < 8
    · rw [if_pos h, show j % 8 = j by omega, show j / 8 = 0 by omega]
      unfold vand vset1
      rw [UInt8.and_comm]
      exact (and_field _).2.2.1.1
    · rw [if_neg h, show j % 8 = j - 8 by omega, show j / 8 = 1 by omega]
      unfold vand vset1
      rw [shrLe_mask maskOk_15_4, UInt8.and_comm]
      exact (and_field _).2.2.1.2

theorem layOk2x1 : LayOk 1 4 (unpack2Le 4) lay2x1 := by
  apply single_block (v := fun x j => if j < 12 then (if j < 8 then (if j < 4 then vand (vload x) (vset1 3) j
    else vand (shrLe 4 2 (vload x)) (vset1 3) (j - 4)) else vand (shrLe 4 4 (vload x)) (vset1 3) (j - 8))
    else vand (shrLe 4 6 (vload x)) (vset1 3) (j - 12))
  · intro x; unfold unpack2Le; rw [vstore_cat, vstore_cat, vstore_cat]
  · intro x r j hx hj
    unfold lay2x1
    rw [bitsAt_app _ _ (by omega)]
    by_cases h : j < 12
    · rw [if_pos h]
      by_cases h : j < 8
      · rw [if_pos h]
        by_cases h : j < 4
        · rw [if_pos h, show j % 4 = j by omega, show j / 4 = 0 by omega]
          unfold vand vset1
          rw [UInt8.and_comm]
          exact (and_field _).1.1
        · rw [if_neg h, show j % 4 = j - 4 by omega, show j / 4 = 1 by omega]
          unfold vand vset1
          rw [shrLe_mask maskOk_3_2, UInt8.and_comm]
          exact (and_field _).1.2.1
      · rw [if_neg h, show j % 4 = j - 8 by omega, show j / 4 = 2 by omega]
        unfold vand vset1
        rw [shrLe_mask maskOk_3_4, UInt8.and_comm]
        exact (and_field _).1.2.2.1
    · rw [if_neg h, show j % 4 = j - 12 by omega, show j / 4 = 3 by omega]
      unfold vand vset1
      rw [shrLe_mask maskOk_3_6, UInt8.and_comm]
      exact (and_field _).1.2.2.2

theorem bits3_sum : ∀ a b c : Fin 2, (b8 b.val <<< b8 1 ||| b8 c.val <<< b8 2) ||| b8 a.val = b8 (a.val + 2 * b.val + 4 * c.val) := by
  decide +kernel

theorem layOk3x1 : LayOk 1 6 unpack3x1 lay3x1 := by
  apply single_block (v := fun x => vor (vor (slli16 1 (spread16 (x.drop 2))) (slli16 2 (spread16 (x.drop 4)))) (spread16 x))
  · intro x; rfl
  · intro x r j hx hj
    unfold lay3x1 vor
    rw [bitsAt_app _ _ (by omega), bitsAt_app _ _ (by omega), bitsAt_app _ _ (by omega),
      slli16_low (by omega) (low_mono (spread_small _) (by omega)), slli16_low (by omega) (low_mono (spread_small _) (by omega)),
      spread16_bit hj, spread16_bit hj, spread16_bit hj]
    have e : ∀ k, vload (x.drop k) (j / 8) = vload x (k + j / 8) := by
      intro k
      unfold vload
      rw [List.getD_eq_getElem?_getD, List.getElem?_drop, List.getD_eq_getElem?_getD]
    rw [e, e]
    exact bits3_sum ⟨_, Nat.mod_lt _ (by decide)⟩ ⟨_, Nat.mod_lt _ (by decide)⟩ ⟨_, Nat.mod_lt _ (by decide)⟩

theorem layOk2x4 : LayOk 4 16 unpack2x4 lay2x4 := by
  intro x r hx
  refine ⟨by simp [unpack2x4, vstore_length], ?_⟩
  have := blocks16_flatten [vstore 16 (vand (vset1 3) (blkAt x 0)), vstore 16 (vand (vset1 3) (srli16 2 (blkAt x 0))),
    vstore 16 (vand (vset1 3) (srli16 4 (blkAt x 0))), vstore 16 (vand (vset1 3) (srli16 6 (blkAt x 0)))] (by simp [vstore_length])
  rw [show unpack2x4 x = [vstore 16 (vand (vset1 3) (blkAt x 0)), vstore 16 (vand (vset1 3) (srli16 2 (blkAt x 0))),
    vstore 16 (vand (vset1 3) (srli16 4 (blkAt x 0))), vstore 16 (vand (vset1 3) (srli16 6 (blkAt x 0)))].flatten by
    simp [unpack2x4]]
  refine this.trans ?_
  show [_, _, _, _] = [(List.range 16).map fun j => b8 (lay2x4 (x ++ r) 0 j), (List.range 16).map fun j => b8 (lay2x4 (x ++ r) 1 j),
    (List.range 16).map fun j => b8 (lay2x4 (x ++ r) 2 j), (List.range 16).map fun j => b8 (lay2x4 (x ++ r) 3 j)]
  have hb : ∀ i j, j < 16 → lay2x4 (x ++ r) i j = (blkAt x 0 j).toNat / 2 ^ (2 * i) % 2 ^ 2 := by
    intro i j hj
    unfold lay2x4
    rw [bitsAt_app _ _ (by omega)]
    rfl
  congr 1
  · exact vstore_congr fun j hj => by rw [hb 0 j hj]; exact (and_field _).1.1
  congr 1
  · exact vstore_congr fun j hj => by rw [hb 1 j hj]; unfold vand vset1; rw [srli16_mask maskOk_3_2]; exact (and_field _).1.2.1
  congr 1
  · exact vstore_congr fun j hj => by rw [hb 2 j hj]; unfold vand vset1; rw [srli16_mask maskOk_3_4]; exact (and_field _).1.2.2.1
  congr 1
  · exact vstore_congr fun j hj => by rw [hb 3 j hj]; unfold vand vset1; rw [srli16_mask maskOk_3_6]; exact (and_field _).1.2.2.2

theorem layOk4x2 : LayOk 2 16 unpack4x2 lay4x2 := by
  intro x r hx
  refine ⟨by simp [unpack4x2, vstore_length], ?_⟩
  have := blocks16_flatten [vstore 16 (vand (vset1 15) (srli16 4 (blkAt x 0))), vstore 16 (vand (vset1 15) (blkAt x 0))] (by simp [vstore_length])
  rw [show unpack4x2 x = [vstore 16 (vand (vset1 15) (srli16 4 (blkAt x 0))), vstore 16 (vand (vset1 15) (blkAt x 0))].flatten by
    simp [unpack4x2]]
  refine this.trans ?_
  show [_, _] = [(List.range 16).map fun j => b8 (lay4x2 (x ++ r) 0 j), (List.range 16).map fun j => b8 (lay4x2 (x ++ r) 1 j)]
  congr 1
  · refine vstore_congr fun j hj => ?_
    unfold lay4x2
    rw [if_pos rfl, bitsAt_app _ _ (by omega)]
    unfold vand vset1
    rw [srli16_mask maskOk_15_4]
    exact (and_field _).2.2.1.2
  congr 1
  · refine vstore_congr fun j hj => ?_
    unfold lay4x2
    rw [if_neg (by omega), bitsAt_app _ _ (by omega)]
    exact (and_field _).2.2.1.1

theorem or_sum : ∀ a : Fin 4, ∀ b : Fin 2, b8 a.val ||| (b8 b.val <<< b8 2) = b8 (a.val + 4 * b.val) := by decide +kernel

theorem layOk3x6 : LayOk 6 36 unpack3x6 lay3x6 := by
  intro x r hx
  refine ⟨by simp [unpack3x6, vstore_length], ?_⟩
  have := blocks16_flatten [vstore 16 (vand (vset1 7) (blkAt x 0)), vstore 16 (vand (vset1 7) (srli16 3 (blkAt x 0))),
    vstore 16 (vor (vand (vset1 3) (srli16 6 (blkAt x 0))) (slli16 2 (bitOf (unpackLo (unpackLo (unpackLo (set32 (x.drop 32)))))))),
    vstore 16 (vand (vset1 7) (blkAt x 1)), vstore 16 (vand (vset1 7) (srli16 3 (blkAt x 1))),
    vstore 16 (vor (vand (vset1 3) (srli16 6 (blkAt x 1))) (slli16 2 (bitOf (unpackHi (unpackLo (unpackLo (set32 (x.drop 32))))))))]
    (by simp [vstore_length])
  rw [show unpack3x6 x = [vstore 16 (vand (vset1 7) (blkAt x 0)), vstore 16 (vand (vset1 7) (srli16 3 (blkAt x 0))),
    vstore 16 (vor (vand (vset1 3) (srli16 6 (blkAt x 0))) (slli16 2 (bitOf (unpackLo (unpackLo (unpackLo (set32 (x.drop 32)))))))),
    vstore 16 (vand (vset1 7) (blkAt x 1)), vstore 16 (vand (vset1 7) (srli16 3 (blkAt x 1))),
    vstore 16 (vor (vand (vset1 3) (srli16 6 (blkAt x 1))) (slli16 2 (bitOf (unpackHi (unpackLo (unpackLo (set32 (x.drop 32))))))))].flatten by
    simp [unpack3x6]]
  refine this.trans ?_
  show [_, _, _, _, _, _] = [(List.range 16).map fun j => b8 (lay3x6 (x ++ r) 0 j), (List.range 16).map fun j => b8 (lay3x6 (x ++ r) 1 j),
    (List.range 16).map fun j => b8 (lay3x6 (x ++ r) 2 j), (List.range 16).map fun j => b8 (lay3x6 (x ++ r) 3 j),
    (List.range 16).map fun j => b8 (lay3x6 (x ++ r) 4 j), (List.range 16).map fun j => b8 (lay3x6 (x ++ r) 5 j)]
  have e : ∀ i j, vload x (16 * i + j) = blkAt x i j := by
    intro i j
    unfold blkAt vload
    rw [List.getD_eq_getElem?_getD, List.getD_eq_getElem?_getD, List.getElem?_drop]
  have e32 : ∀ k, vload x (32 + k) = (x.drop 32).getD k 0 := by
    intro k
    unfold vload
    rw [List.getD_eq_getElem?_getD, List.getD_eq_getElem?_getD, List.getElem?_drop]
  have a0 : ∀ i j, i < 2 → j < 16 → (vand (vset1 7) (blkAt x i)) j = b8 (bitsAt (x ++ r) (16 * i + j) 0 3) := by
    intro i j hi hj
    rw [bitsAt_app _ _ (by omega), e]
    exact (and_field _).2.1.1
  have a1 : ∀ i j, i < 2 → j < 16 → (vand (vset1 7) (srli16 3 (blkAt x i))) j = b8 (bitsAt (x ++ r) (16 * i + j) 3 3) := by
    intro i j hi hj
    rw [bitsAt_app _ _ (by omega), e]
    unfold vand vset1
    rw [srli16_mask maskOk_7_3]
    exact (and_field _).2.1.2
  have a2 : ∀ i j (v : Vec), i < 2 → j < 16 → v j = (x.drop 32).getD (2 * i + j / 8) 0 →
      (vor (vand (vset1 3) (srli16 6 (blkAt x i))) (slli16 2 (bitOf v))) j =
        b8 (bitsAt (x ++ r) (16 * i + j) 6 2 + 4 * bitsAt (x ++ r) (32 + 2 * i + j / 8) (j % 8) 1) := by
    intro i j v hi hj hv
    rw [bitsAt_app _ _ (by omega), bitsAt_app _ _ (by omega), e, Nat.add_assoc, e32, ← hv]
    unfold vor vand vset1
    rw [srli16_mask maskOk_3_6, slli16_low (by omega) (low_mono (bitOf_small _) (by omega)), bitOf_bit, (and_field _).1.2.2.2]
    exact or_sum ⟨_, Nat.mod_lt _ (by decide)⟩ ⟨_, Nat.mod_lt _ (by decide)⟩
  congr 1
  · exact vstore_congr fun j hj => a0 0 j (by omega) hj
  congr 1
  · exact vstore_congr fun j hj => a1 0 j (by omega) hj
  congr 1
  · refine vstore_congr fun j hj => a2 0 j _ (by omega) hj ?_
    unfold unpackLo set32
    rw [show j / 2 / 2 / 2 % 4 = 2 * 0 + j / 8 by omega]
  congr 1
  · exact vstore_congr fun j hj => a0 1 j (by omega) hj
  congr 1
  · exact vstore_congr fun j hj => a1 1 j (by omega) hj
  congr 1
  · refine vstore_congr fun j hj => a2 1 j _ (by omega) hj ?_
    unfold unpackHi unpackLo set32
    rw [show (8 + j / 2) / 2 / 2 % 4 = 2 * 1 + j / 8 by omega]

end Hrk
