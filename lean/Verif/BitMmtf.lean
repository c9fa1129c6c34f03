import Verif.Mmtf

/-
The bit wise transforms of src/bit_mmtf.c.
-/

namespace Hrk

/-- `mask` of the 8 bit functions (src/bit_mmtf.c:24, 46). -/
def bitMask8 : Vec := fun j => if j < 8 then b8 (2 ^ j) else 0

/-- `mask` of the 16 bit functions (src/bit_mmtf.c:70, 103). -/
def bitMask16 : Vec := fun j => b8 (2 ^ (j % 8))

/-- `_mm_shuffle_ps(a, b, _MM_SHUFFLE(1, 1, 0, 0))`: dwords `a0 a0 b1 b1`
(src/bit_mmtf.c:80, 113). -/
def vshuf1100 (a b : Vec) : Vec := fun j =>
  if j < 4 then a j else if j < 8 then a (j - 4) else if j < 12 then b (j - 4) else b (j - 8)

/-- `~_mm_movemask_epi8(match)` as `uint32_t` (src/bit_mmtf.c:33, 87). -/
def notMask (v : Vec) : Nat := 4294967295 - movemask 16 v

/-- Loop of `bitmmtf8_encode` (src/bit_mmtf.c:26-35). -/
def bit8Enc (state : Vec) : List Byte → List Byte
  | [] => []
  | x :: xs => b8 (notMask (veq (vand bitMask8 (vset1 x)) state)) :: bit8Enc (vand bitMask8 (vset1 x)) xs

/-- Loop of `bitmmtf8_decode` (src/bit_mmtf.c:48-57). -/
def bit8Dec (state : Vec) : List Byte → List Byte
  | [] => []
  | x :: xs =>
    b8 (movemask 16 (vxor (veq bitMask8 (vand bitMask8 (vset1 x))) state)) ::
      bit8Dec (vxor (veq bitMask8 (vand bitMask8 (vset1 x))) state) xs

/-- Loop and tail of `bitmmtf16_encode` (src/bit_mmtf.c:72-92). -/
def bit16Enc (state : Vec) : List Byte → List Byte
  | x :: y :: xs =>
    le16 (notMask (veq (vand bitMask16 (vshuf1100 (vset1 x) (vset1 y))) state)) ++
      bit16Enc (vand bitMask16 (vshuf1100 (vset1 x) (vset1 y))) xs
  | r => r

/-- Loop and tail of `bitmmtf16_decode` (src/bit_mmtf.c:105-125). -/
def bit16Dec (state : Vec) : List Byte → List Byte
  | x :: y :: xs =>
    le16 (movemask 16 (vxor (veq bitMask16 (vand bitMask16 (vshuf1100 (vset1 x) (vset1 y)))) state)) ++
      bit16Dec (vxor (veq bitMask16 (vand bitMask16 (vshuf1100 (vset1 x) (vset1 y)))) state) xs
  | r => r

/-- The argument checks all four functions begin with (src/bit_mmtf.c:20-21, 42-43, 66-67,
99-100). `src` holds the `inSize` bytes at `pIn`; the buffers do not overlap. -/
def bitApi (f : List Byte → List Byte) (pIn : Option (List Byte)) (pOut : Bool) (outSize : Nat) : TRes :=
  match pIn with
  | none => .fail
  | some src => if pOut = false ∨ src.length > outSize then .fail else .ok src.length (f src)

/-- `bitmmtf8_encode` (src/bit_mmtf.c:18-38). -/
def bitmmtf8Encode := bitApi (bit8Enc vzero)
/-- `bitmmtf8_decode` (src/bit_mmtf.c:40-60). -/
def bitmmtf8Decode := bitApi (bit8Dec vzero)
/-- `bitmmtf16_encode` (src/bit_mmtf.c:64-95). -/
def bitmmtf16Encode := bitApi (bit16Enc vzero)
/-- `bitmmtf16_decode` (src/bit_mmtf.c:97-128). -/
def bitmmtf16Decode := bitApi (bit16Dec vzero)

/-! ### Lane by lane these are exclusive ors -/

theorem movemask_congr {w : Nat} {u v : Vec} (h : ∀ j, j < w → u j = v j) : movemask w u = movemask w v := by
  induction w with
  | zero => rfl
  | succ w ih =>
    unfold movemask
    rw [ih (fun j hj => h j (by omega)), h w (by omega)]

theorem movemask_add (a b : Nat) (v : Vec) :
    movemask (a + b) v = movemask a v + 2 ^ a * movemask b (fun j => v (a + j)) := by
  induction b with
  | zero => simp [movemask]
  | succ b ih =>
    rw [← Nat.add_assoc]
    simp only [movemask]
    rw [ih, Nat.mul_add, Nat.pow_add]
    split <;> omega

/-- `veq` of masked bytes, mask bit by mask bit. -/
theorem veq_mask (m x p : Byte) : (if m &&& x = m &&& p then (255 : Byte) else 0) = if m &&& (x ^^^ p) = 0 then 255 else 0 := by
  have h : m &&& (x ^^^ p) = (m &&& x) ^^^ (m &&& p) := by
    apply UInt8.toBitVec_inj.mp
    simp only [UInt8.toBitVec_and, UInt8.toBitVec_xor]
    ext i
    simp only [BitVec.getElem_and, BitVec.getElem_xor]
    cases m.toBitVec[i] <;> simp
  rw [h]
  by_cases h1 : m &&& x = m &&& p
  · rw [if_pos h1, h1, UInt8.xor_self, if_pos rfl]
  · rw [if_neg h1, if_neg]
    intro h2
    exact h1 (UInt8.xor_eq_zero_iff.mp h2)

theorem veq_masked {m u v : Vec} {j : Nat} {k x p : Byte} (hm : m j = k) (hu : u j = x) (hv : v j = p) :
    veq (vand m u) (vand m v) j = if k &&& (x ^^^ p) = 0 then 255 else 0 := by
  rw [← veq_mask]
  simp only [veq, vand, hm, hu, hv]

theorem bit_cases (j : Nat) (hj : j < 8) (x : Byte) : b8 (2 ^ j) &&& x = 0 ∨ b8 (2 ^ j) &&& x = b8 (2 ^ j) := by
  refine byte_forall (P := fun x => b8 (2 ^ j) &&& x = 0 ∨ b8 (2 ^ j) &&& x = b8 (2 ^ j)) ?_ x
  have h : ∀ (j : Fin 8) (i : Fin 256), b8 (2 ^ j.val) &&& UInt8.ofNat i.val = 0 ∨
      b8 (2 ^ j.val) &&& UInt8.ofNat i.val = b8 (2 ^ j.val) := by decide +kernel
  exact h ⟨j, hj⟩

/-- A byte as eight lanes. -/
def spread (x : Byte) : Vec := fun j => if b8 (2 ^ j) &&& x = b8 (2 ^ j) then 255 else 0

theorem veq_spread {m u : Vec} {j k : Nat} {x : Byte} (hm : m j = b8 (2 ^ k)) (hu : u j = x) :
    veq m (vand m u) j = spread x k := by
  simp only [veq, vand, hm, hu, spread]
  by_cases h1 : b8 (2 ^ k) &&& x = b8 (2 ^ k)
  · rw [if_pos h1, if_pos h1.symm]
  · rw [if_neg h1, if_neg (fun h2 => h1 h2.symm)]

theorem spread_xor (j : Nat) (hj : j < 8) (x p : Byte) : spread x j ^^^ spread p j = spread (x ^^^ p) j := by
  have hm : b8 (2 ^ j) ≠ 0 := by
    have : ∀ j : Fin 8, b8 (2 ^ j.val) ≠ 0 := by decide
    exact this ⟨j, hj⟩
  have h : b8 (2 ^ j) &&& (x ^^^ p) = (b8 (2 ^ j) &&& x) ^^^ (b8 (2 ^ j) &&& p) := by
    apply UInt8.toBitVec_inj.mp
    simp only [UInt8.toBitVec_and, UInt8.toBitVec_xor]
    ext i
    simp only [BitVec.getElem_and, BitVec.getElem_xor]
    cases (b8 (2 ^ j)).toBitVec[i] <;> simp
  unfold spread
  rw [h]
  rcases bit_cases j hj x with h1 | h1 <;> rcases bit_cases j hj p with h2 | h2 <;> rw [h1, h2] <;>
    simp [hm.symm]

theorem movemask_spread (x : Byte) : movemask 8 (spread x) = x.toNat :=
  byte_forall (P := fun x => movemask 8 (spread x) = x.toNat) (by decide +kernel) x

theorem movemask_eq0 (x : Byte) : movemask 8 (fun j => if b8 (2 ^ j) &&& x = 0 then 255 else 0) = 255 - x.toNat :=
  byte_forall (P := fun x => movemask 8 (fun j => if b8 (2 ^ j) &&& x = 0 then 255 else 0) = 255 - x.toNat)
    (by decide +kernel) x

theorem bit8Enc_step (x p : Byte) : b8 (notMask (veq (vand bitMask8 (vset1 x)) (vand bitMask8 (vset1 p)))) = x ^^^ p := by
  unfold notMask
  rw [movemask_add 8 8]
  rw [movemask_congr (w := 8) (v := fun j => if b8 (2 ^ j) &&& (x ^^^ p) = 0 then 255 else 0), movemask_eq0]
  · apply UInt8.toNat_inj.mp
    have h1 := (x ^^^ p).toNat_lt
    have h2 := movemask_lt 8 (fun j => veq (vand bitMask8 (vset1 x)) (vand bitMask8 (vset1 p)) (8 + j))
    rw [b8_toNat]
    omega
  · intro j hj
    simp only [veq, vand, vset1, bitMask8, if_pos hj]
    exact veq_mask _ _ _

/-- The decoder's register after it wrote `p`. -/
def Bit8St (p : Byte) (v : Vec) : Prop := ∀ j, j < 8 → v j = spread p j

theorem bit8Dec_step {p : Byte} {v : Vec} (h : Bit8St p v) (x : Byte) :
    b8 (movemask 16 (vxor (veq bitMask8 (vand bitMask8 (vset1 x))) v)) = x ^^^ p ∧
      Bit8St (x ^^^ p) (vxor (veq bitMask8 (vand bitMask8 (vset1 x))) v) := by
  have hs : Bit8St (x ^^^ p) (vxor (veq bitMask8 (vand bitMask8 (vset1 x))) v) := by
    intro j hj
    simp only [vxor, veq, vand, vset1, bitMask8, if_pos hj]
    rw [h j hj, ← spread_xor j hj]
    congr 1
    unfold spread
    by_cases h1 : b8 (2 ^ j) &&& x = b8 (2 ^ j)
    · rw [if_pos h1, if_pos h1.symm]
    · rw [if_neg h1, if_neg (fun h2 => h1 h2.symm)]
  refine ⟨?_, hs⟩
  rw [movemask_add 8 8, movemask_congr hs, movemask_spread]
  apply UInt8.toNat_inj.mp
  have h1 := (x ^^^ p).toNat_lt
  rw [b8_toNat]
  omega

theorem bit8Enc_eq (p : Byte) (xs : List Byte) : bit8Enc (vand bitMask8 (vset1 p)) xs = xorDelta p xs := by
  induction xs generalizing p with
  | nil => rfl
  | cons x xs ih => rw [bit8Enc, xorDelta, bit8Enc_step, ih]

theorem bit8Dec_eq {p : Byte} {v : Vec} (h : Bit8St p v) (xs : List Byte) : bit8Dec v xs = xorSum p xs := by
  induction xs generalizing p v with
  | nil => rfl
  | cons x xs ih => rw [bit8Dec, xorSum, (bit8Dec_step h x).1, ih (bit8Dec_step h x).2]

theorem vzero8 : vand bitMask8 (vset1 0) = vzero := by
  funext j
  simp [vand, vset1, vzero]

theorem bit8St_zero : Bit8St 0 vzero := by
  intro j hj
  have : ∀ j : Fin 8, vzero j.val = spread 0 j.val := by decide
  exact this ⟨j, hj⟩

/-! ### 16 bit -/

theorem vshuf_lo {a b : Vec} {x : Byte} (h : ∀ j, a j = x) {j : Nat} (hj : j < 8) : vshuf1100 a b j = x := by
  unfold vshuf1100
  rw [if_pos hj]
  split
  · exact h _
  · exact h _

theorem vshuf_hi {a b : Vec} {y : Byte} (h : ∀ j, b j = y) {j : Nat} (hj : ¬ j < 8) : vshuf1100 a b j = y := by
  unfold vshuf1100
  rw [if_neg (by omega), if_neg hj]
  split <;> exact h _

theorem le16_of {k x y : Nat} (hk : k % 65536 = x + 256 * y) (hx : x < 256) : le16 k = [b8 x, b8 y] := by
  unfold le16
  congr 1
  · apply UInt8.toNat_inj.mp; rw [b8_toNat, b8_toNat]; omega
  · congr 1
    apply UInt8.toNat_inj.mp; rw [b8_toNat, b8_toNat]; omega

theorem pow_mod8 {j : Nat} (hj : j < 8) : b8 (2 ^ ((8 + j) % 8)) = b8 (2 ^ j) := by
  rw [Nat.add_mod_left, Nat.mod_eq_of_lt hj]

theorem bit16Enc_step (x y p q : Byte) :
    le16 (notMask (veq (vand bitMask16 (vshuf1100 (vset1 x) (vset1 y))) (vand bitMask16 (vshuf1100 (vset1 p) (vset1 q))))) =
      [x ^^^ p, y ^^^ q] := by
  have hlo : movemask 8 (veq (vand bitMask16 (vshuf1100 (vset1 x) (vset1 y))) (vand bitMask16 (vshuf1100 (vset1 p) (vset1 q)))) =
      255 - (x ^^^ p).toNat := by
    rw [← movemask_eq0]
    apply movemask_congr
    intro j hj
    exact veq_masked (by simp only [bitMask16, Nat.mod_eq_of_lt hj]) (vshuf_lo (fun _ => rfl) hj) (vshuf_lo (fun _ => rfl) hj)
  have hhi : movemask 8 (fun j => veq (vand bitMask16 (vshuf1100 (vset1 x) (vset1 y)))
      (vand bitMask16 (vshuf1100 (vset1 p) (vset1 q))) (8 + j)) = 255 - (y ^^^ q).toNat := by
    rw [← movemask_eq0]
    apply movemask_congr
    intro j hj
    exact veq_masked (by simp only [bitMask16, pow_mod8 hj]) (vshuf_hi (fun _ => rfl) (by omega))
      (vshuf_hi (fun _ => rfl) (by omega))
  unfold notMask
  rw [movemask_add 8 8, hlo, hhi]
  have h1 := (x ^^^ p).toNat_lt
  have h2 := (y ^^^ q).toNat_lt
  rw [le16_of (x := (x ^^^ p).toNat) (y := (y ^^^ q).toNat) (by omega) h1, b8_of_toNat, b8_of_toNat]

/-- The decoder's register after it wrote `p` and `q`. -/
def Bit16St (p q : Byte) (v : Vec) : Prop := ∀ j, j < 8 → v j = spread p j ∧ v (8 + j) = spread q j

theorem bit16Dec_step {p q : Byte} {v : Vec} (h : Bit16St p q v) (x y : Byte) :
    le16 (movemask 16 (vxor (veq bitMask16 (vand bitMask16 (vshuf1100 (vset1 x) (vset1 y)))) v)) = [x ^^^ p, y ^^^ q] ∧
      Bit16St (x ^^^ p) (y ^^^ q) (vxor (veq bitMask16 (vand bitMask16 (vshuf1100 (vset1 x) (vset1 y)))) v) := by
  have hs : Bit16St (x ^^^ p) (y ^^^ q) (vxor (veq bitMask16 (vand bitMask16 (vshuf1100 (vset1 x) (vset1 y)))) v) := by
    intro j hj
    constructor
    · show veq bitMask16 (vand bitMask16 (vshuf1100 (vset1 x) (vset1 y))) j ^^^ v j = _
      rw [veq_spread (m := bitMask16) (u := vshuf1100 (vset1 x) (vset1 y)) (j := j) (k := j) (x := x) (by simp only [bitMask16, Nat.mod_eq_of_lt hj]) (vshuf_lo (fun _ => rfl) hj),
        (h j hj).1, ← spread_xor j hj]
    · show veq bitMask16 (vand bitMask16 (vshuf1100 (vset1 x) (vset1 y))) (8 + j) ^^^ v (8 + j) = _
      rw [veq_spread (m := bitMask16) (u := vshuf1100 (vset1 x) (vset1 y)) (j := 8 + j) (k := j) (x := y) (by simp only [bitMask16, pow_mod8 hj]) (vshuf_hi (fun _ => rfl) (by omega)),
        (h j hj).2, ← spread_xor j hj]
  refine ⟨?_, hs⟩
  rw [movemask_add 8 8, movemask_congr (fun j hj => (hs j hj).1), movemask_congr (fun j hj => (hs j hj).2), movemask_spread,
    movemask_spread]
  have h1 := (x ^^^ p).toNat_lt
  have h2 := (y ^^^ q).toNat_lt
  rw [le16_of (x := (x ^^^ p).toNat) (y := (y ^^^ q).toNat) (by omega) h1, b8_of_toNat, b8_of_toNat]

theorem bit16Enc_eq : ∀ (xs : List Byte) (p q : Byte),
    bit16Enc (vand bitMask16 (vshuf1100 (vset1 p) (vset1 q))) xs = xorDelta16 p q xs
  | [], _, _ => rfl
  | [_], _, _ => rfl
  | x :: y :: xs, p, q => by
    rw [bit16Enc, xorDelta16, bit16Enc_step, bit16Enc_eq xs x y]
    rfl

theorem bit16Dec_eq : ∀ (xs : List Byte) (p q : Byte) (v : Vec), Bit16St p q v → bit16Dec v xs = xorSum16 p q xs
  | [], _, _, _, _ => rfl
  | [_], _, _, _, _ => rfl
  | x :: y :: xs, p, q, v, h => by
    rw [bit16Dec, xorSum16, (bit16Dec_step h x y).1, bit16Dec_eq xs _ _ _ (bit16Dec_step h x y).2]
    rfl

theorem vzero16 : vand bitMask16 (vshuf1100 (vset1 0) (vset1 0)) = vzero := by
  funext j
  have : vshuf1100 (vset1 0) (vset1 0) j = 0 := by
    unfold vshuf1100 vset1
    split
    · rfl
    · split
      · rfl
      · split <;> rfl
  simp [vand, vzero, this]

theorem bit16St_zero : Bit16St 0 0 vzero := fun j hj => ⟨bit8St_zero j hj, bit8St_zero j hj⟩

theorem xorSum_delta (p : Byte) (xs : List Byte) : xorSum p (xorDelta p xs) = xs := by
  induction xs generalizing p with
  | nil => rfl
  | cons x xs ih => rw [xorDelta, xorSum, UInt8.xor_assoc, UInt8.xor_self, UInt8.xor_zero, ih]

theorem xorDelta_length (p : Byte) (xs : List Byte) : (xorDelta p xs).length = xs.length := by
  induction xs generalizing p with
  | nil => rfl
  | cons x xs ih => rw [xorDelta, List.length_cons, ih, List.length_cons]

theorem xorSum_length (p : Byte) (xs : List Byte) : (xorSum p xs).length = xs.length := by
  induction xs generalizing p with
  | nil => rfl
  | cons x xs ih => rw [xorSum, List.length_cons, ih, List.length_cons]

theorem xorSum16_delta : ∀ (xs : List Byte) (p q : Byte), xorSum16 p q (xorDelta16 p q xs) = xs
  | [], _, _ => rfl
  | [_], _, _ => rfl
  | x :: y :: xs, p, q => by
    rw [xorDelta16, xorSum16, UInt8.xor_assoc, UInt8.xor_self, UInt8.xor_zero, UInt8.xor_assoc, UInt8.xor_self,
      UInt8.xor_zero, xorSum16_delta xs x y]

theorem xorDelta16_length : ∀ (xs : List Byte) (p q : Byte), (xorDelta16 p q xs).length = xs.length
  | [], _, _ => rfl
  | [_], _, _ => rfl
  | x :: y :: xs, p, q => by simp [xorDelta16, xorDelta16_length xs x y]

theorem xorSum16_length : ∀ (xs : List Byte) (p q : Byte), (xorSum16 p q xs).length = xs.length
  | [], _, _ => rfl
  | [_], _, _ => rfl
  | x :: y :: xs, p, q => by simp [xorSum16, xorSum16_length xs _ _]

end Hrk
