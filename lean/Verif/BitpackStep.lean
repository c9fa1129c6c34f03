import Verif.Bitpack

/-
Every single packing step is undone by its unpacking step.
-/

namespace Hrk

/-! ### Bytes -/

/-- A claim about all bytes below `n`, from the `n` cases. -/
theorem byte_lt_forall {n : Nat} {P : Byte → Prop} (h : ∀ i : Fin n, P (UInt8.ofNat i.val)) (x : Byte)
    (hx : x.toNat < n) : P x := by
  have := h ⟨x.toNat, hx⟩
  simpa using this

/-- Every byte of `l` fits into `b` bits. -/
def Below (b : Nat) (l : List Byte) : Prop := ∀ x ∈ l, x.toNat < 2 ^ b

theorem Below.take {b k : Nat} {l : List Byte} (h : Below b l) : Below b (l.take k) :=
  fun x hx => h x (List.mem_of_mem_take hx)
theorem Below.drop {b k : Nat} {l : List Byte} (h : Below b l) : Below b (l.drop k) :=
  fun x hx => h x (List.mem_of_mem_drop hx)

theorem Below.vload {b : Nat} {l : List Byte} (h : Below b l) (j : Nat) : (vload l j).toNat < 2 ^ b := by
  unfold Hrk.vload
  rw [List.getD_eq_getElem?_getD]
  by_cases hj : j < l.length
  · rw [List.getElem?_eq_getElem hj]; exact h _ (List.getElem_mem hj)
  · rw [List.getElem?_eq_none (by omega)]; exact Nat.two_pow_pos b

theorem Below.blkAt {b : Nat} {l : List Byte} (h : Below b l) (i j : Nat) : (blkAt l i j).toNat < 2 ^ b :=
  h.drop.vload j

/-! ### Lists and vectors -/

theorem vstore_length (w : Nat) (v : Vec) : (vstore w v).length = w := by simp [vstore]

theorem vstore_congr {w : Nat} {a b : Vec} (h : ∀ j, j < w → a j = b j) : vstore w a = vstore w b := by
  unfold vstore
  apply List.map_congr_left
  intro j hj
  exact h j (List.mem_range.mp hj)

theorem vload_vstore {w : Nat} {v : Vec} {r : List Byte} {j : Nat} (h : j < w) : vload (vstore w v ++ r) j = v j := by
  unfold vload vstore
  rw [List.getD_eq_getElem?_getD, List.getElem?_append_left (by simpa using h)]
  simp [h]

theorem vload_vstore' {w : Nat} {v : Vec} {j : Nat} (h : j < w) : vload (vstore w v) j = v j := by
  have := vload_vstore (r := []) (v := v) h
  simpa using this

theorem drop_vstore {w : Nat} {v : Vec} {r : List Byte} {k : Nat} : (vstore w v ++ r).drop (w + k) = r.drop k := by
  rw [List.drop_append, vstore_length]
  rw [List.drop_eq_nil_of_le (by rw [vstore_length]; omega)]
  simp

theorem drop_vstore0 {w : Nat} {v : Vec} {r : List Byte} : (vstore w v ++ r).drop w = r := drop_vstore (k := 0)

theorem vstore_vload {w : Nat} {l : List Byte} (h : w ≤ l.length) : vstore w (vload l) = l.take w := by
  apply List.ext_getElem
  · simp [vstore]; omega
  · intro j h1 h2
    have hj : j < w := by simpa [vstore] using h1
    simp [vstore, vload, List.getElem_take]
    rw [List.getElem?_eq_getElem (by omega)]; rfl

/-! ### Shifts -/

theorem slli16_low {k : Nat} {v : Vec} {j : Nat} (hk : 1 ≤ k ∧ k ≤ 7) (h : ∀ j, (v j).toNat < 2 ^ (8 - k)) :
    slli16 k v j = v j <<< b8 k := by
  unfold slli16
  split
  · rfl
  · have : v (j - 1) >>> b8 (8 - k) = 0 := by
      have h1 := h (j - 1)
      obtain ⟨h2, h3⟩ := hk
      have h4 : k = 1 ∨ k = 2 ∨ k = 3 ∨ k = 4 ∨ k = 5 ∨ k = 6 ∨ k = 7 := by omega
      revert h1
      generalize v (j - 1) = x
      rcases h4 with rfl | rfl | rfl | rfl | rfl | rfl | rfl <;>
        exact byte_lt_forall (P := fun x => x >>> b8 _ = 0) (by decide +kernel) x
    rw [this]; simp

theorem shlLe_low {k : Nat} {v : Vec} {j : Nat} (hk : 1 ≤ k ∧ k ≤ 7) (h : ∀ j, (v j).toNat < 2 ^ (8 - k)) :
    shlLe k v j = v j <<< b8 k := by
  unfold shlLe
  split
  · rfl
  · have : v (j - 1) >>> b8 (8 - k) = 0 := by
      have h1 := h (j - 1)
      obtain ⟨h2, h3⟩ := hk
      have h4 : k = 1 ∨ k = 2 ∨ k = 3 ∨ k = 4 ∨ k = 5 ∨ k = 6 ∨ k = 7 := by omega
      revert h1
      generalize v (j - 1) = x
      rcases h4 with rfl | rfl | rfl | rfl | rfl | rfl | rfl <;>
        exact byte_lt_forall (P := fun x => x >>> b8 _ = 0) (by decide +kernel) x
    rw [this]; simp

theorem byte_and_or (a b c : Byte) : a &&& (b ||| c) = (a &&& b) ||| (a &&& c) := by
  apply UInt8.eq_of_toBitVec_eq
  simp only [UInt8.toBitVec_and, UInt8.toBitVec_or]
  exact BitVec.and_or_distrib_left

/-- The mask removes what a right shift brings in from the neighbour. -/
def MaskOk (m : Byte) (k : Nat) : Prop := ∀ x : Byte, m &&& (x <<< b8 (8 - k)) = 0

theorem maskOk_3_2 : MaskOk 3 2 := byte_forall (by decide +kernel)
theorem maskOk_3_4 : MaskOk 3 4 := byte_forall (by decide +kernel)
theorem maskOk_3_6 : MaskOk 3 6 := byte_forall (by decide +kernel)
theorem maskOk_7_3 : MaskOk 7 3 := byte_forall (by decide +kernel)
theorem maskOk_15_4 : MaskOk 15 4 := byte_forall (by decide +kernel)

theorem srli16_mask {m : Byte} {k : Nat} (h : MaskOk m k) (v : Vec) (j : Nat) :
    m &&& srli16 k v j = m &&& (v j >>> b8 k) := by
  unfold srli16
  split
  · rw [byte_and_or, h]; simp
  · rfl

theorem shrLe_mask {m : Byte} {w k : Nat} (h : MaskOk m k) (v : Vec) (j : Nat) :
    shrLe w k v j &&& m = (v j >>> b8 k) &&& m := by
  unfold shrLe
  split
  · rfl
  · rw [UInt8.and_comm, byte_and_or, h, UInt8.and_comm]; simp

/-! ### Two bits -/

theorem pack2_byte : ∀ a b c d : Fin 4,
    let p := (((b8 d.val <<< b8 6) ||| (b8 c.val <<< b8 4)) ||| ((b8 b.val <<< b8 2) ||| b8 a.val))
    3 &&& p = b8 a.val ∧ 3 &&& (p >>> b8 2) = b8 b.val ∧ 3 &&& (p >>> b8 4) = b8 c.val ∧ 3 &&& (p >>> b8 6) = b8 d.val := by
  decide +kernel

theorem pack2_lane {a b c d p : Byte} (ha : a.toNat < 4) (hb : b.toNat < 4) (hc : c.toNat < 4) (hd : d.toNat < 4)
    (hp : p = (((d <<< b8 6) ||| (c <<< b8 4)) ||| ((b <<< b8 2) ||| a))) :
    3 &&& p = a ∧ 3 &&& (p >>> b8 2) = b ∧ 3 &&& (p >>> b8 4) = c ∧ 3 &&& (p >>> b8 6) = d := by
  have := pack2_byte ⟨a.toNat, ha⟩ ⟨b.toNat, hb⟩ ⟨c.toNat, hc⟩ ⟨d.toNat, hd⟩
  simp only [b8_of_toNat] at this
  rw [hp]
  exact this

theorem low_mono {v : Vec} {b k : Nat} (h : ∀ j, (v j).toNat < 2 ^ b) (hk : b ≤ k) : ∀ j, (v j).toNat < 2 ^ k :=
  fun j => Nat.lt_of_lt_of_le (h j) (Nat.pow_le_pow_right (by omega) hk)

theorem split_blocks2 {l : List Byte} (h : l.length = 32) :
    vstore 16 (blkAt l 0) ++ vstore 16 (blkAt l 1) = l := by
  unfold blkAt
  rw [vstore_vload (by simp; omega), vstore_vload (by simp; omega)]
  rw [List.take_of_length_le (l := List.drop (16 * 1) l) (by simp; omega)]
  simp

theorem split_blocks4 {l : List Byte} (h : l.length = 64) :
    vstore 16 (blkAt l 0) ++ vstore 16 (blkAt l 1) ++ vstore 16 (blkAt l 2) ++ vstore 16 (blkAt l 3) = l := by
  unfold blkAt
  rw [vstore_vload (by simp; omega), vstore_vload (by simp; omega), vstore_vload (by simp; omega),
    vstore_vload (by simp; omega)]
  rw [List.take_of_length_le (l := List.drop (16 * 3) l) (by simp; omega)]
  have h2 : l.drop (16 * 2) = (l.drop (16 * 2)).take 16 ++ l.drop (16 * 3) := by
    rw [show 16 * 3 = 16 * 2 + 16 from rfl, ← List.drop_drop]; exact (List.take_append_drop _ _).symm
  have h1 : l.drop (16 * 1) = (l.drop (16 * 1)).take 16 ++ l.drop (16 * 2) := by
    rw [show 16 * 2 = 16 * 1 + 16 from rfl, ← List.drop_drop]; exact (List.take_append_drop _ _).symm
  have h0 : l = (l.drop (16 * 0)).take 16 ++ l.drop (16 * 1) := by
    simp
  rw [List.append_assoc, List.append_assoc, ← h2, ← h1, ← h0]

theorem split_blocks3 {l : List Byte} (h : l.length = 48) :
    vstore 16 (blkAt l 0) ++ vstore 16 (blkAt l 1) ++ vstore 16 (blkAt l 2) = l := by
  unfold blkAt
  rw [vstore_vload (by simp; omega), vstore_vload (by simp; omega), vstore_vload (by simp; omega)]
  rw [List.take_of_length_le (l := List.drop (16 * 2) l) (by simp; omega)]
  have h1 : l.drop (16 * 1) = (l.drop (16 * 1)).take 16 ++ l.drop (16 * 2) := by
    rw [show 16 * 2 = 16 * 1 + 16 from rfl, ← List.drop_drop]; exact (List.take_append_drop _ _).symm
  have h0 : l = (l.drop (16 * 0)).take 16 ++ l.drop (16 * 1) := by
    simp
  rw [List.append_assoc, ← h1, ← h0]

theorem blkAt_drop (l : List Byte) (i k : Nat) : blkAt (l.drop (16 * k)) i = blkAt l (k + i) := by
  unfold blkAt
  rw [List.drop_drop]
  congr 2
  omega

theorem split_blocks6 {l : List Byte} (h : l.length = 96) :
    vstore 16 (blkAt l 0) ++ vstore 16 (blkAt l 1) ++ vstore 16 (blkAt l 2) ++
    vstore 16 (blkAt l 3) ++ vstore 16 (blkAt l 4) ++ vstore 16 (blkAt l 5) = l := by
  have h1 := split_blocks3 (l := l.drop (16 * 3)) (by simp; omega)
  rw [blkAt_drop, blkAt_drop, blkAt_drop] at h1
  have h2 := split_blocks3 (l := l.take 48) (by simp; omega)
  have h3 : ∀ i, i < 3 → vstore 16 (blkAt (l.take 48) i) = vstore 16 (blkAt l i) := by
    intro i hi
    apply vstore_congr
    intro j hj
    unfold blkAt vload
    rw [List.getD_eq_getElem?_getD, List.getD_eq_getElem?_getD, List.getElem?_drop, List.getElem?_drop,
      List.getElem?_take, if_pos (by omega)]
  rw [h3 0 (by omega), h3 1 (by omega), h3 2 (by omega)] at h2
  have h4 : l = l.take 48 ++ l.drop (16 * 3) := by simp
  conv => rhs; rw [h4, ← h1, ← h2]
  simp [List.append_assoc]

theorem pack2x4_length (l : List Byte) : (pack2x4 l).length = 16 := vstore_length _ _

theorem unpack2x4_pack {l : List Byte} (hl : l.length = 64) (hb : Below 2 l) : unpack2x4 (pack2x4 l) = l := by
  have key : ∀ j, j < 16 → 3 &&& blkAt (pack2x4 l) 0 j = blkAt l 0 j ∧
      3 &&& (blkAt (pack2x4 l) 0 j >>> b8 2) = blkAt l 1 j ∧
      3 &&& (blkAt (pack2x4 l) 0 j >>> b8 4) = blkAt l 2 j ∧
      3 &&& (blkAt (pack2x4 l) 0 j >>> b8 6) = blkAt l 3 j := by
    intro j hj
    apply pack2_lane (hb.blkAt 0 j) (hb.blkAt 1 j) (hb.blkAt 2 j) (hb.blkAt 3 j)
    show vload (pack2x4 l) j = _
    unfold pack2x4
    rw [vload_vstore' hj]
    unfold vor
    rw [slli16_low (by omega) (low_mono (hb.blkAt 3) (by omega)),
      slli16_low (by omega) (low_mono (hb.blkAt 2) (by omega)),
      slli16_low (by omega) (low_mono (hb.blkAt 1) (by omega))]
  conv => rhs; rw [← split_blocks4 hl]
  unfold unpack2x4
  refine congr (congrArg _ (congr (congrArg _ (congr (congrArg _ ?_) ?_)) ?_)) ?_ <;>
    (apply vstore_congr; intro j hj; unfold vand vset1)
  · exact (key j hj).1
  · rw [srli16_mask maskOk_3_2]; exact (key j hj).2.1
  · rw [srli16_mask maskOk_3_4]; exact (key j hj).2.2.1
  · rw [srli16_mask maskOk_3_6]; exact (key j hj).2.2.2

theorem pack2Le_length (w : Nat) (l : List Byte) : (pack2Le w l).length = w := vstore_length _ _

theorem split_words4 {w : Nat} {l : List Byte} (h : l.length = 4 * w) :
    vstore w (vload l) ++ vstore w (vload (l.drop w)) ++ vstore w (vload (l.drop (2 * w))) ++
    vstore w (vload (l.drop (3 * w))) = l := by
  rw [vstore_vload (by omega), vstore_vload (by simp; omega), vstore_vload (by simp; omega),
    vstore_vload (by simp; omega)]
  rw [List.take_of_length_le (l := List.drop (3 * w) l) (by simp; omega)]
  have h2 : l.drop (2 * w) = (l.drop (2 * w)).take w ++ l.drop (3 * w) := by
    rw [show 3 * w = 2 * w + w by omega, ← List.drop_drop]; exact (List.take_append_drop _ _).symm
  have h1 : l.drop w = (l.drop w).take w ++ l.drop (2 * w) := by
    rw [show 2 * w = w + w by omega, ← List.drop_drop]; exact (List.take_append_drop _ _).symm
  have h0 : l = l.take w ++ l.drop w := (List.take_append_drop w l).symm
  rw [List.append_assoc, List.append_assoc, ← h2, ← h1, ← h0]

theorem unpack2Le_pack {w : Nat} {l : List Byte} (hl : l.length = 4 * w) (hb : Below 2 l) :
    unpack2Le w (pack2Le w l) = l := by
  have key : ∀ j, j < w → 3 &&& vload (pack2Le w l) j = vload l j ∧
      3 &&& (vload (pack2Le w l) j >>> b8 2) = vload (l.drop w) j ∧
      3 &&& (vload (pack2Le w l) j >>> b8 4) = vload (l.drop (2 * w)) j ∧
      3 &&& (vload (pack2Le w l) j >>> b8 6) = vload (l.drop (3 * w)) j := by
    intro j hj
    apply pack2_lane (hb.vload j) (hb.drop.vload j) (hb.drop.vload j) (hb.drop.vload j)
    unfold pack2Le
    rw [vload_vstore' hj]
    unfold vor
    rw [shlLe_low (by omega) (low_mono hb.drop.vload (by omega)),
      shlLe_low (by omega) (low_mono hb.drop.vload (by omega)),
      shlLe_low (by omega) (low_mono hb.drop.vload (by omega))]
    ac_rfl
  conv => rhs; rw [← split_words4 hl]
  unfold unpack2Le
  refine congr (congrArg _ (congr (congrArg _ (congr (congrArg _ ?_) ?_)) ?_)) ?_ <;>
    (apply vstore_congr; intro j hj; unfold vand vset1)
  · rw [UInt8.and_comm]; exact (key j hj).1
  · rw [shrLe_mask maskOk_3_2, UInt8.and_comm]; exact (key j hj).2.1
  · rw [shrLe_mask maskOk_3_4, UInt8.and_comm]; exact (key j hj).2.2.1
  · rw [shrLe_mask maskOk_3_6, UInt8.and_comm]; exact (key j hj).2.2.2

/-! ### Single bits -/

theorem movemask_bit (v : Vec) (j : Nat) : ∀ w, (movemask w v).testBit j = decide (j < w ∧ v j ≥ 128)
  | 0 => by simp [movemask]
  | w + 1 => by
    rw [movemask]
    have hlt := movemask_lt w v
    have ih := movemask_bit v j w
    rcases Nat.lt_trichotomy j w with hj | hj | hj
    · have h2 : j < w + 1 := by omega
      split
      · rw [Nat.add_comm, Nat.testBit_two_pow_add_gt hj, ih]; simp [hj, h2]
      · rw [Nat.add_zero, ih]; simp [hj, h2]
    · subst hj
      by_cases hv : v j ≥ 128
      · rw [if_pos hv, Nat.add_comm, Nat.testBit_two_pow_add_eq, ih]; simp [hv]
      · rw [if_neg hv, Nat.add_zero, ih]; simp [hv]
    · have h3 := movemask_lt (w + 1) v
      rw [movemask] at h3
      rw [Nat.testBit_lt_two_pow (Nat.lt_of_lt_of_le h3 (Nat.pow_le_pow_right (by omega) (by omega)))]
      have : ¬ j < w + 1 := by omega
      simp [this]

theorem sel_byte : ∀ x : Fin 256, ∀ i : Fin 8,
    (let b := b8 x.val &&& ([1, 2, 4, 8, 16, 32, 64, 128] : List Byte).getD i.val 0
     if b ≤ 1 then b else 1) = if (b8 x.val).toNat.testBit i.val then 1 else 0 := by decide +kernel

/-- Bit `j % 8` of byte `j`. -/
theorem bitOf_eq (v : Vec) (j : Nat) : bitOf v j = if (v j).toNat.testBit (j % 8) then 1 else 0 := by
  have h := sel_byte ⟨(v j).toNat, (v j).toNat_lt⟩ ⟨j % 8, Nat.mod_lt _ (by omega)⟩
  simp only [b8_of_toNat] at h
  exact h

theorem b8_testBit (m i : Nat) (h : i < 8) : (b8 m).toNat.testBit i = m.testBit i := by
  have : (b8 m).toNat = m % 2 ^ 8 := by simp [b8]
  rw [this, Nat.testBit_mod_two_pow]
  simp [h]

theorem spread16_le16 {m : Nat} {r : List Byte} {j : Nat} (hj : j < 16) :
    spread16 (le16 m ++ r) j = if m.testBit j then 1 else 0 := by
  unfold spread16
  rw [bitOf_eq]
  unfold unpackLo set16
  by_cases h : j < 8
  · rw [show j / 2 / 2 / 2 % 2 = 0 by omega, show j % 8 = j by omega]
    simp only [le16, List.cons_append, List.getD_cons_zero]
    rw [b8_testBit _ _ h]
  · rw [show j / 2 / 2 / 2 % 2 = 1 by omega]
    simp only [le16, List.cons_append, List.getD_cons_succ, List.getD_cons_zero]
    rw [b8_testBit _ _ (Nat.mod_lt _ (by omega)), show 256 = 2 ^ 8 from rfl, Nat.testBit_div_two_pow,
      show j % 8 + 8 = j by omega]

theorem le32_testBit (m q i : Nat) (hq : q < 4) (hi : i < 8) :
    ((le32 m).getD q 0).toNat.testBit i = m.testBit (8 * q + i) := by
  have h4 : q = 0 ∨ q = 1 ∨ q = 2 ∨ q = 3 := by omega
  unfold le32
  rcases h4 with rfl | rfl | rfl | rfl
  · simp only [List.getD_cons_zero]; rw [b8_testBit _ _ hi]; simp
  · simp only [List.getD_cons_zero, List.getD_cons_succ]
    rw [b8_testBit _ _ hi, show 256 = 2 ^ 8 from rfl, Nat.testBit_div_two_pow, Nat.add_comm]
  · simp only [List.getD_cons_zero, List.getD_cons_succ]
    rw [b8_testBit _ _ hi, show 65536 = 2 ^ 16 from rfl, Nat.testBit_div_two_pow, Nat.add_comm]
  · simp only [List.getD_cons_zero, List.getD_cons_succ]
    rw [b8_testBit _ _ hi, show 16777216 = 2 ^ 24 from rfl, Nat.testBit_div_two_pow, Nat.add_comm]

theorem lo32 {m : Nat} {j : Nat} (hj : j < 16) :
    bitOf (unpackLo (unpackLo (unpackLo (set32 (le32 m))))) j = if m.testBit j then 1 else 0 := by
  rw [bitOf_eq]
  unfold unpackLo set32
  rw [le32_testBit _ _ _ (by omega) (by omega)]
  rw [show 8 * (j / 2 / 2 / 2 % 4) + j % 8 = j by omega]

theorem hi32 {m : Nat} {j : Nat} (hj : j < 16) :
    bitOf (unpackHi (unpackLo (unpackLo (set32 (le32 m))))) j = if m.testBit (16 + j) then 1 else 0 := by
  rw [bitOf_eq]
  unfold unpackLo unpackHi set32
  rw [le32_testBit _ _ _ (by omega) (by omega)]
  rw [show 8 * ((8 + j / 2) / 2 / 2 % 4) + j % 8 = 16 + j by omega]

theorem top_byte : ∀ x : Fin 256, ∀ i : Fin 8,
    (b8 x.val <<< b8 i.val ≥ 128) = ((b8 x.val).toNat.testBit (7 - i.val) = true) ∧
    (i.val ≠ 0 → b8 x.val >>> b8 (8 - i.val) < 128) := by decide +kernel

theorem or_top (a b : Byte) (hb : b < 128) : (a ||| b ≥ 128) ↔ a ≥ 128 := by
  rw [ge_iff_le, ge_iff_le, UInt8.le_iff_toNat_le, UInt8.le_iff_toNat_le, UInt8.toNat_or]
  rw [UInt8.lt_iff_toNat_lt] at hb
  have ha := a.toNat_lt
  generalize a.toNat = x at *
  generalize b.toNat = y at *
  change y < 2 ^ 7 at hb
  change 2 ^ 7 ≤ _ ↔ 2 ^ 7 ≤ x
  constructor
  · intro h
    rcases Nat.lt_or_ge x (2 ^ 7) with h2 | h2
    · exact absurd (Nat.or_lt_two_pow h2 hb) (by omega)
    · exact h2
  · intro h
    exact Nat.le_trans h Nat.left_le_or

/-- The top bit after a left shift is bit `7 - k`. -/
theorem slli16_top {k : Nat} (hk : 1 ≤ k ∧ k ≤ 7) (v : Vec) (j : Nat) :
    slli16 k v j ≥ 128 ↔ (v j).toNat.testBit (7 - k) = true := by
  have h1 := (top_byte ⟨(v j).toNat, (v j).toNat_lt⟩ ⟨k, by omega⟩).1
  simp only [b8_of_toNat] at h1
  unfold slli16
  split
  · rw [← h1]
  · have h2 := (top_byte ⟨(v (j - 1)).toNat, (v (j - 1)).toNat_lt⟩ ⟨k, by omega⟩).2 (by show k ≠ 0; omega)
    simp only [b8_of_toNat] at h2
    rw [or_top _ _ h2, ← h1]

theorem mask_bit {k : Nat} (hk : 1 ≤ k ∧ k ≤ 7) (v : Vec) {j : Nat} (hj : j < 16) :
    (movemask 16 (slli16 k v)).testBit j = (v j).toNat.testBit (7 - k) := by
  rw [movemask_bit]
  rw [Bool.eq_iff_iff]
  simp only [decide_eq_true_eq]
  rw [slli16_top hk]
  exact ⟨fun h => h.2, fun h => ⟨hj, h⟩⟩

theorem spread_bit {k : Nat} (hk : 1 ≤ k ∧ k ≤ 7) (v : Vec) (r : List Byte) {j : Nat} (hj : j < 16) :
    spread16 (le16 (movemask 16 (slli16 k v)) ++ r) j = if (v j).toNat.testBit (7 - k) then 1 else 0 := by
  rw [spread16_le16 hj, mask_bit hk v hj]

theorem pack1_length (l : List Byte) : (pack1 l).length = 2 := rfl

theorem unpack1_pack {l : List Byte} (hl : l.length = 16) (hb : Below 1 l) : unpack1 (pack1 l) = l := by
  have h0 : vstore 16 (vload l) = l := by
    rw [vstore_vload (by omega), List.take_of_length_le (by omega)]
  conv => rhs; rw [← h0]
  apply vstore_congr
  intro j hj
  have := spread_bit (k := 7) (by omega) (vload l) [] hj
  rw [List.append_nil] at this
  unfold pack1
  rw [this]
  exact byte_lt_forall (P := fun x => (if x.toNat.testBit (7 - 7) then (1 : Byte) else 0) = x) (by decide +kernel)
    (vload l j) (hb.vload j)

/-! ### Three bits -/

theorem spread_small (l : List Byte) (j : Nat) : (spread16 l j).toNat < 2 ^ 1 := by
  unfold spread16
  rw [bitOf_eq]; split <;> decide

theorem bitOf_small (v : Vec) (j : Nat) : (bitOf v j).toNat < 2 ^ 1 := by
  rw [bitOf_eq]; split <;> decide

theorem le16_drop (m : Nat) (r : List Byte) : (le16 m ++ r).drop 2 = r := rfl

theorem pack3x1_length (l : List Byte) : (pack3x1 l).length = 6 := rfl

theorem bits3 : ∀ x : Fin 8,
    (((if (b8 x.val).toNat.testBit 1 then (1 : Byte) else 0) <<< b8 1) |||
      ((if (b8 x.val).toNat.testBit 2 then (1 : Byte) else 0) <<< b8 2)) |||
      (if (b8 x.val).toNat.testBit 0 then (1 : Byte) else 0) = b8 x.val := by decide +kernel

theorem unpack3x1_pack {l : List Byte} (hl : l.length = 16) (hb : Below 3 l) : unpack3x1 (pack3x1 l) = l := by
  have h0 : vstore 16 (vload l) = l := by
    rw [vstore_vload (by omega), List.take_of_length_le (by omega)]
  conv => rhs; rw [← h0]
  apply vstore_congr
  intro j hj
  unfold vor
  rw [slli16_low (by omega) (low_mono (spread_small _) (by omega)),
    slli16_low (by omega) (low_mono (spread_small _) (by omega))]
  have e1 := spread_bit (k := 6) (by omega) (vload l) (le16 (movemask 16 (slli16 5 (vload l)))) hj
  have e2 := spread_bit (k := 5) (by omega) (vload l) [] hj
  have e0 := spread_bit (k := 7) (by omega) (vload l) (le16 (movemask 16 (slli16 6 (vload l))) ++
    le16 (movemask 16 (slli16 5 (vload l)))) hj
  rw [List.append_nil] at e2
  unfold pack3x1
  rw [List.append_assoc, show ∀ r : List Byte, (le16 (movemask 16 (slli16 7 (vload l))) ++ r).drop 2 = r from fun _ => rfl,
    show ∀ r q : List Byte, (le16 (movemask 16 (slli16 7 (vload l))) ++ (le16 (movemask 16 (slli16 6 (vload l))) ++ r)).drop 4 = r
      from fun _ _ => rfl, e0, e1, e2]
  · have := bits3 ⟨(vload l j).toNat, hb.vload j⟩
    simp only [b8_of_toNat] at this
    exact this
  · exact []

theorem pack3_byte : ∀ a b c : Fin 8,
    let p := (b8 a.val ||| (b8 b.val <<< b8 3)) ||| ((b8 c.val &&& 3) <<< b8 6)
    7 &&& p = b8 a.val ∧ 7 &&& (p >>> b8 3) = b8 b.val ∧
    (3 &&& (p >>> b8 6)) ||| ((if (b8 c.val).toNat.testBit 2 then (1 : Byte) else 0) <<< b8 2) = b8 c.val := by
  decide +kernel

theorem and3_small (v : Vec) (j : Nat) : (vand v (vset1 3) j).toNat < 2 ^ 2 :=
  byte_forall (P := fun x => (x &&& 3).toNat < 2 ^ 2) (by decide +kernel) (v j)

/-- What the decoder gets from `combinedA` and the bit of the third block. -/
theorem pack3_lane {p0 p1 p2 : Vec} (h0 : ∀ j, (p0 j).toNat < 2 ^ 3) (h1 : ∀ j, (p1 j).toNat < 2 ^ 3)
    (h2 : ∀ j, (p2 j).toNat < 2 ^ 3) (j : Nat) :
    7 &&& pack3Lo p0 p1 p2 j = p0 j ∧ 7 &&& (pack3Lo p0 p1 p2 j >>> b8 3) = p1 j ∧
    (3 &&& (pack3Lo p0 p1 p2 j >>> b8 6)) ||| ((if (p2 j).toNat.testBit 2 then (1 : Byte) else 0) <<< b8 2) = p2 j := by
  have h := pack3_byte ⟨(p0 j).toNat, h0 j⟩ ⟨(p1 j).toNat, h1 j⟩ ⟨(p2 j).toNat, h2 j⟩
  simp only [b8_of_toNat] at h
  unfold pack3Lo vor
  rw [slli16_low (by omega) (low_mono h1 (by omega)), slli16_low (by omega) (low_mono (and3_small p2) (by omega))]
  exact h

theorem pack3x3_length (l : List Byte) : (pack3x3 l).length = 18 := by
  simp [pack3x3, vstore_length, le16]

theorem unpack3x3_pack {l : List Byte} (hl : l.length = 48) (hb : Below 3 l) : unpack3x3 (pack3x3 l) = l := by
  have e : ∀ j, j < 16 → blkAt (pack3x3 l) 0 j = pack3Lo (blkAt l 0) (blkAt l 1) (blkAt l 2) j := by
    intro j hj
    exact vload_vstore hj
  have key := fun j => pack3_lane (hb.blkAt 0) (hb.blkAt 1) (hb.blkAt 2) j
  conv => rhs; rw [← split_blocks3 hl]
  unfold unpack3x3
  refine congr (congrArg _ (congr (congrArg _ ?_) ?_)) ?_ <;>
    (apply vstore_congr; intro j hj)
  · show 7 &&& _ = _
    rw [e j hj]; exact (key j).1
  · show 7 &&& _ = _
    rw [srli16_mask maskOk_7_3, e j hj]; exact (key j).2.1
  · show (3 &&& srli16 6 (blkAt (pack3x3 l) 0) j) ||| slli16 2 (spread16 ((pack3x3 l).drop 16)) j = _
    rw [srli16_mask maskOk_3_6, e j hj, slli16_low (by omega) (low_mono (spread_small _) (by omega))]
    have hd : (pack3x3 l).drop 16 = le16 (pack3Hi (blkAt l 2)) ++ [] := by
      rw [List.append_nil]; exact drop_vstore0
    rw [hd, pack3Hi, spread_bit (by omega) _ _ hj]
    exact (key j).2.2

theorem pack3x6_length (l : List Byte) : (pack3x6 l).length = 36 := by
  simp [pack3x6, vstore_length, le32]

theorem unpack3x6_pack {l : List Byte} (hl : l.length = 96) (hb : Below 3 l) : unpack3x6 (pack3x6 l) = l := by
  have e : ∀ j, j < 16 → blkAt (pack3x6 l) 0 j = pack3Lo (blkAt l 0) (blkAt l 1) (blkAt l 2) j := by
    intro j hj
    unfold pack3x6
    rw [List.append_assoc]
    exact vload_vstore hj
  have e' : ∀ j, j < 16 → blkAt (pack3x6 l) 1 j = pack3Lo (blkAt l 3) (blkAt l 4) (blkAt l 5) j := by
    intro j hj
    unfold pack3x6 blkAt
    rw [List.append_assoc, show 16 * 1 = 16 + 0 from rfl, drop_vstore, List.drop_zero]
    exact vload_vstore hj
  have hd : (pack3x6 l).drop 32 = le32 (pack3Hi (blkAt l 2) ||| (pack3Hi (blkAt l 5) <<< 16)) := by
    unfold pack3x6
    rw [List.append_assoc, show 32 = 16 + 16 from rfl, drop_vstore, drop_vstore0]
  have b0 : ∀ j, j < 16 → (pack3Hi (blkAt l 2) ||| (pack3Hi (blkAt l 5) <<< 16)).testBit j = (blkAt l 2 j).toNat.testBit 2 := by
    intro j hj
    rw [Nat.testBit_or, Nat.testBit_shiftLeft, decide_eq_false (by omega), Bool.false_and, Bool.or_false, pack3Hi,
      mask_bit (by omega) _ hj]
  have b1 : ∀ j, j < 16 → (pack3Hi (blkAt l 2) ||| (pack3Hi (blkAt l 5) <<< 16)).testBit (16 + j) =
      (blkAt l 5 j).toNat.testBit 2 := by
    intro j hj
    rw [Nat.testBit_or, Nat.testBit_shiftLeft, decide_eq_true (by omega), Bool.true_and, show 16 + j - 16 = j by omega]
    rw [pack3Hi, pack3Hi, mask_bit (by omega) _ hj]
    have : (movemask 16 (slli16 5 (blkAt l 2))).testBit (16 + j) = false := by
      apply Nat.testBit_lt_two_pow
      exact Nat.lt_of_lt_of_le (movemask_lt 16 _) (Nat.pow_le_pow_right (by omega) (by omega))
    rw [this, Bool.false_or]
  have key := fun j => pack3_lane (hb.blkAt 0) (hb.blkAt 1) (hb.blkAt 2) j
  have key' := fun j => pack3_lane (hb.blkAt 3) (hb.blkAt 4) (hb.blkAt 5) j
  conv => rhs; rw [← split_blocks6 hl]
  unfold unpack3x6
  rw [hd]
  refine congr (congrArg _ (congr (congrArg _ (congr (congrArg _ (congr (congrArg _ (congr (congrArg _ ?_) ?_)) ?_)) ?_)) ?_)) ?_ <;>
    (apply vstore_congr; intro j hj)
  · show 7 &&& _ = _
    rw [e j hj]; exact (key j).1
  · show 7 &&& _ = _
    rw [srli16_mask maskOk_7_3, e j hj]; exact (key j).2.1
  · show (3 &&& srli16 6 (blkAt (pack3x6 l) 0) j) ||| _ = _
    rw [srli16_mask maskOk_3_6, e j hj, slli16_low (by omega) (low_mono (bitOf_small _) (by omega)), lo32 hj, b0 j hj]
    exact (key j).2.2
  · show 7 &&& _ = _
    rw [e' j hj]; exact (key' j).1
  · show 7 &&& _ = _
    rw [srli16_mask maskOk_7_3, e' j hj]; exact (key' j).2.1
  · show (3 &&& srli16 6 (blkAt (pack3x6 l) 1) j) ||| _ = _
    rw [srli16_mask maskOk_3_6, e' j hj, slli16_low (by omega) (low_mono (bitOf_small _) (by omega)), hi32 hj, b1 j hj]
    exact (key' j).2.2

/-! ### Four bits -/

theorem pack4_byte : ∀ a b : Fin 16,
    let p := (b8 a.val <<< b8 4) ||| b8 b.val
    15 &&& (p >>> b8 4) = b8 a.val ∧ 15 &&& p = b8 b.val ∧ p >>> b8 4 = b8 a.val := by decide +kernel

theorem pack4_lane {a b p : Byte} (ha : a.toNat < 2 ^ 4) (hb : b.toNat < 2 ^ 4) (hp : p = (a <<< b8 4) ||| b) :
    15 &&& (p >>> b8 4) = a ∧ 15 &&& p = b ∧ p >>> b8 4 = a := by
  have h := pack4_byte ⟨a.toNat, ha⟩ ⟨b.toNat, hb⟩
  simp only [b8_of_toNat] at h
  rw [hp]; exact h

theorem pack4x2_length (l : List Byte) : (pack4x2 l).length = 16 := vstore_length _ _

theorem unpack4x2_pack {l : List Byte} (hl : l.length = 32) (hb : Below 4 l) : unpack4x2 (pack4x2 l) = l := by
  have e : ∀ j, j < 16 → blkAt (pack4x2 l) 0 j = (blkAt l 0 j <<< b8 4) ||| blkAt l 1 j := by
    intro j hj
    show vload (pack4x2 l) j = _
    unfold pack4x2
    rw [vload_vstore' hj]
    unfold vor
    rw [slli16_low (by omega) (low_mono (hb.blkAt 0) (by omega))]
  have key := fun j hj => pack4_lane (hb.blkAt 0 j) (hb.blkAt 1 j) (e j hj)
  conv => rhs; rw [← split_blocks2 hl]
  unfold unpack4x2
  refine congr (congrArg _ ?_) ?_ <;> (apply vstore_congr; intro j hj)
  · show 15 &&& _ = _
    rw [srli16_mask maskOk_15_4]; exact (key j hj).1
  · exact (key j hj).2.1

theorem pack4x1_length (l : List Byte) : (pack4x1 l).length = 8 := vstore_length _ _

theorem unpack4x1_pack {l : List Byte} (hl : l.length = 16) (hb : Below 4 l) : unpack4x1 (pack4x1 l) = l := by
  have e : ∀ j, j < 8 → vload (pack4x1 l) j = (vload (l.drop 8) j <<< b8 4) ||| vload l j := by
    intro j hj
    unfold pack4x1
    rw [vload_vstore' hj]
    unfold vor
    rw [shlLe_low (by omega) (low_mono hb.drop.vload (by omega)), UInt8.or_comm]
  have key := fun j hj => pack4_lane (hb.drop.vload j) (hb.vload j) (e j hj)
  have h0 : vstore 8 (vload l) ++ vstore 8 (vload (l.drop 8)) = l := by
    rw [vstore_vload (by omega), vstore_vload (by simp; omega), List.take_of_length_le (l := l.drop 8) (by simp; omega)]
    simp
  conv => rhs; rw [← h0]
  unfold unpack4x1
  refine congr (congrArg _ ?_) ?_ <;> (apply vstore_congr; intro j hj)
  · show _ &&& 15 = _
    rw [UInt8.and_comm]; exact (key j hj).2.1
  · show _ &&& 15 = _
    rw [shrLe_mask maskOk_15_4, UInt8.and_comm]; exact (key j hj).1

theorem unpack4Pair_pack {l : List Byte} (hl : l.length = 2) (hb : Below 4 l) : unpack4Pair (pack4Pair l) = l := by
  match l, hl with
  | [a, b], _ =>
    have := pack4_lane (a := b) (b := a) (p := a ||| (b <<< 4)) (hb b (by simp)) (hb a (by simp))
      (by rw [UInt8.or_comm]; rfl)
    unfold unpack4Pair pack4Pair vload
    simp only [List.getD_cons_zero, List.getD_cons_succ]
    rw [UInt8.and_comm, this.2.1]
    have h3 := this.2.2
    rw [show (4 : Byte) = b8 4 from rfl] at *
    rw [h3]

theorem copy1_copy {l : List Byte} (hl : l.length = 1) : copy1 (copy1 l) = l := by
  match l, hl with
  | [a], _ => rfl

end Hrk
