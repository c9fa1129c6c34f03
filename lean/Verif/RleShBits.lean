import Verif.RleSh
import Verif.Rle8MmtfPack

/-
The bit stream of rle8_sh: what `rle8_sh_write_bits` packs is what `rle8_sh_consume_bits` sees.
-/

namespace Hrk

/-! ### Reading -/

def byteBits (b : Byte) : List Bool := patBits b.toNat 8

/-- The bits of the bytes below `p`, the last byte first. -/
def lowBits (full : List Byte) : Nat → List Bool
  | 0 => []
  | p + 1 => byteBits (full.getD p 0) ++ lowBits full p

/-- All bits the reader is going to see. -/
def hbits (full : List Byte) (h : ShHdr) : List Bool := patBits h.v h.rem ++ lowBits full h.ph

structure HOk (full : List Byte) (h : ShHdr) : Prop where
  v : h.v < 2 ^ h.rem
  lo : 8 ≤ h.rem
  hi : h.rem ≤ 16
  ph : h.ph ≤ full.length

@[simp] theorem patBits_length (v c : Nat) : (patBits v c).length = c := by simp [patBits]

theorem patBits_getElem? (v c i : Nat) (h : i < c) : (patBits v c)[i]? = some (v.testBit i) := by
  simp [patBits, h]

@[simp] theorem lowBits_length (full : List Byte) (p : Nat) : (lowBits full p).length = 8 * p := by
  induction p with
  | zero => rfl
  | succ p ih => rw [lowBits, List.length_append, ih, byteBits, patBits_length]; omega

theorem hbits_length (full : List Byte) (h : ShHdr) : (hbits full h).length = h.rem + 8 * h.ph := by
  simp [hbits]

theorem patBits_drop (v c k : Nat) : (patBits v c).drop k = patBits (v >>> k) (c - k) := by
  apply List.ext_getElem (by simp)
  intro i h1 h2
  simp [patBits, Nat.testBit_shiftRight]

theorem patBits_or {v r b : Nat} (h : v < 2 ^ r) :
    patBits (v ||| b <<< r) (r + 8) = patBits v r ++ patBits b 8 := by
  apply List.ext_getElem (by simp)
  intro i h1 h2
  rw [patBits_length] at h1
  by_cases hi : i < r
  · rw [List.getElem_append_left (by simpa using hi)]
    simp only [patBits, List.getElem_map, List.getElem_range, Nat.testBit_or, Nat.testBit_shiftLeft]
    rw [show decide (i ≥ r) = false by simp; omega, Bool.false_and, Bool.or_false]
  · rw [List.getElem_append_right (by simp; omega)]
    simp only [patBits, List.getElem_map, List.getElem_range, Nat.testBit_or, Nat.testBit_shiftLeft, List.length_map,
      List.length_range]
    rw [show decide (i ≥ r) = true by simp; omega, Bool.true_and,
      Nat.testBit_lt_two_pow (Nat.lt_of_lt_of_le h (Nat.pow_le_pow_right (by omega) (by omega))), Bool.false_or]

theorem consume_spec {full : List Byte} {h : ShHdr} (H : HOk full h) {k : Nat} (hk : k ≤ 7) {a rb : List Bool}
    (hb : hbits full h = a ++ rb) (ha : a.length = k) (hr : 8 < rb.length) :
    ∃ h', h.consume full k = some h' ∧ HOk full h' ∧ hbits full h' = rb := by
  have hlen := congrArg List.length hb
  rw [hbits_length, List.length_append, ha] at hlen
  have h1 := H.lo
  have h2 := H.hi
  have h3 := H.ph
  have hrb : rb = patBits (h.v >>> k) (h.rem - k) ++ lowBits full h.ph := by
    have := congrArg (List.drop k) hb
    rw [hbits, List.drop_append_of_le_length (by simp; omega), patBits_drop, List.drop_append_of_le_length (by omega),
      List.drop_of_length_le (by omega), List.nil_append] at this
    exact this.symm
  have hv : h.v >>> k < 2 ^ (h.rem - k) := by
    rw [Nat.shiftRight_eq_div_pow, Nat.div_lt_iff_lt_mul (Nat.two_pow_pos k), ← Nat.pow_add,
      Nat.sub_add_cancel (by omega)]
    exact H.v
  unfold ShHdr.consume
  by_cases hc : h.rem - k ≤ 8
  · rw [if_pos hc]
    obtain ⟨p, hp⟩ : ∃ p, h.ph = p + 1 := ⟨h.ph - 1, by omega⟩
    rw [if_neg (by omega), hp, Nat.add_sub_cancel, List.getElem?_eq_getElem (by omega)]
    refine ⟨_, rfl, ⟨?_, ?_, ?_, ?_⟩, ?_⟩
    · show h.v >>> k ||| _ <<< (h.rem - k) < 2 ^ (h.rem - k + 8)
      apply Nat.or_lt_two_pow
      · exact Nat.lt_of_lt_of_le hv (Nat.pow_le_pow_right (by omega) (by omega))
      · rw [Nat.shiftLeft_eq, Nat.add_comm, Nat.pow_add]
        exact Nat.mul_lt_mul_of_pos_right (UInt8.toNat_lt _) (Nat.two_pow_pos _)
    · show 8 ≤ h.rem - k + 8; omega
    · show h.rem - k + 8 ≤ 16; omega
    · show p ≤ full.length; omega
    · rw [hrb, hp, hbits, patBits_or hv, lowBits, List.append_assoc, byteBits,
        getD_of_lt _ _ (show p < full.length by omega)]
  · rw [if_neg hc]
    exact ⟨_, rfl, ⟨hv, by show 8 ≤ h.rem - k; omega, by show h.rem - k ≤ 16; omega, H.ph⟩, hrb.symm⟩

/-- The bits the reader tests. -/
theorem testBit_of_hbits {full : List Byte} {h : ShHdr} (H : HOk full h) {l : List Bool} (hb : hbits full h = l) {i : Nat}
    (hi : i < 8) : l[i]? = some (h.v.testBit i) := by
  have := H.lo
  rw [← hb, hbits, List.getElem?_append_left (by simp; omega), patBits_getElem? _ _ _ (by omega)]

/-! ### Writing -/

/-- The number with these bits, the lowest first. -/
def bitsVal : List Bool → Nat
  | [] => 0
  | b :: r => b.toNat + 2 * bitsVal r

theorem bitsVal_lt (l : List Bool) : bitsVal l < 2 ^ l.length := by
  induction l with
  | nil => simp [bitsVal]
  | cons b r ih =>
    rw [bitsVal, List.length_cons, Nat.pow_succ]
    have : b.toNat ≤ 1 := by cases b <;> simp
    omega

theorem bitsVal_append (l : List Bool) (b : Bool) : bitsVal (l ++ [b]) = bitsVal l + b.toNat * 2 ^ l.length := by
  induction l with
  | nil => simp [bitsVal]
  | cons c r ih =>
    rw [List.cons_append, bitsVal, ih, bitsVal, List.length_cons, Nat.pow_succ, Nat.mul_add,
      ← Nat.mul_assoc, Nat.mul_comm (2 ^ r.length) 2, ← Nat.mul_assoc, Nat.mul_comm b.toNat 2]
    omega

theorem patBits_bitsVal (l : List Bool) (c : Nat) : patBits (bitsVal l) (l.length + c) = l ++ List.replicate c false := by
  induction l with
  | nil =>
    apply List.ext_getElem (by simp)
    intro i h1 h2
    simp [patBits, bitsVal]
  | cons b r ih =>
    rw [List.cons_append, ← ih, List.length_cons, show r.length + 1 + c = (r.length + c) + 1 by omega, patBits,
      List.range_succ_eq_map, List.map_cons, List.map_map, bitsVal]
    congr 1
    · rw [Nat.testBit_zero]
      cases b <;> simp <;> omega
    · apply List.map_congr_left
      intro i _
      show Nat.testBit _ (i + 1) = _
      rw [Nat.testBit_succ]
      congr 1
      have : b.toNat ≤ 1 := by cases b <;> simp
      omega

/-- The bytes of a list of bits, eight bits each. -/
def packs (B : List Bool) : List Byte := (List.range ((B.length + 7) / 8)).map fun j => b8 (bitsVal ((B.drop (8 * j)).take 8))

@[simp] theorem packs_length (B : List Bool) : (packs B).length = (B.length + 7) / 8 := by simp [packs]

theorem packs_cons {B : List Bool} (h : 0 < B.length) : packs B = b8 (bitsVal (B.take 8)) :: packs (B.drop 8) := by
  unfold packs
  rw [List.length_drop, show (B.length + 7) / 8 = (B.length - 8 + 7) / 8 + 1 by omega, List.range_succ_eq_map,
    List.map_cons, List.map_map]
  congr 1
  apply List.map_congr_left
  intro i _
  show b8 _ = _
  rw [List.drop_drop, show 8 * (i + 1) = 8 + 8 * i by omega]

theorem byteBits_val {l : List Bool} (h : l.length ≤ 8) :
    byteBits (b8 (bitsVal l)) = l ++ List.replicate (8 - l.length) false := by
  rw [← patBits_bitsVal, byteBits, b8_toNat, Nat.mod_eq_of_lt, show l.length + (8 - l.length) = 8 by omega]
  exact Nat.lt_of_lt_of_le (bitsVal_lt l) (Nat.pow_le_pow_right (n := 2) (by omega) h)

theorem packs_bits : ∀ (k : Nat) (B : List Bool), B.length ≤ k → ∃ z, (packs B).flatMap byteBits = B ++ z := by
  intro k
  induction k with
  | zero =>
    intro B h
    cases B with
    | nil => exact ⟨[], rfl⟩
    | cons a l => simp at h
  | succ k ih =>
    intro B h
    by_cases h0 : 0 < B.length
    · obtain ⟨z, hz⟩ := ih (B.drop 8) (by rw [List.length_drop]; omega)
      rw [packs_cons h0, List.flatMap_cons, hz, byteBits_val (by rw [List.length_take]; omega)]
      by_cases h8 : 8 ≤ B.length
      · refine ⟨z, ?_⟩
        rw [List.length_take, show 8 - min 8 B.length = 0 by omega, List.replicate_zero, List.append_nil,
          ← List.append_assoc, List.take_append_drop]
      · refine ⟨List.replicate (8 - (B.take 8).length) false ++ z, ?_⟩
        rw [List.drop_of_length_le (by omega), List.take_of_length_le (by omega), List.nil_append, List.append_assoc]
    · cases B with
      | nil => exact ⟨[], rfl⟩
      | cons a l => simp at h0

theorem lowBits_append (x y : List Byte) : lowBits (x ++ y) x.length = (x.reverse).flatMap byteBits := by
  have : ∀ (p : Nat), p ≤ x.length → lowBits (x ++ y) p = ((x.take p).reverse).flatMap byteBits := by
    intro p
    induction p with
    | zero => intro _; rfl
    | succ p ih =>
      intro h
      rw [lowBits, ih (by omega), List.take_add_one, getD_append_l (by omega), List.getElem?_eq_getElem (by omega),
        Option.toList_some, List.reverse_append, List.flatMap_append, getD_of_lt _ _ (by omega)]
      simp
  rw [this _ (Nat.le_refl _), List.take_length]

/-! ### The buffer during compression -/

def ShOp.bitsOf : ShOp → List Bool
  | .bits v c => patBits v c
  | .bytes _ => []

def ShOp.dataOf : ShOp → List Byte
  | .bits _ _ => []
  | .bytes l => l

def bitsOf (ops : List ShOp) : List Bool := ops.flatMap ShOp.bitsOf
def dataOf (ops : List ShOp) : List Byte := ops.flatMap ShOp.dataOf

/-- The buffer holds the size, the bytes `D` from its front and the bits `B` from its end, as long as
there is room for both. -/
structure SinkOk (n outSize : Nat) (s : ShSink) (D : List Byte) (B : List Bool) : Prop where
  p : s.p = 8 + D.length
  nb : s.nb = B.length % 8
  hs : s.hs = B.length / 8 + 1
  bad : s.bad = true ↔ ¬ (8 ≤ outSize ∧ B.length / 8 + 1 ≤ outSize ∧ 8 + D.length ≤ outSize)
  ph : s.bad = false → s.ph + (B.length / 8 + 1) = outSize
  size : 8 + D.length + (B.length / 8 + 1) ≤ outSize → rd s.m 0 4 = le32 n
  data : 8 + D.length + (B.length / 8 + 1) ≤ outSize → rd s.m 8 D.length = D
  bits : 8 + D.length + (B.length / 8 + 1) ≤ outSize → ∀ j, j ≤ B.length / 8 →
    s.m (outSize - 1 - j) = b8 (bitsVal ((B.drop (8 * j)).take 8))

theorem SinkOk.init (m : Mem) (n outSize : Nat) : SinkOk n outSize (shSink0 m n outSize) [] [] := by
  constructor
  · rfl
  · rfl
  · rfl
  · simp [shSink0]; omega
  · simp [shSink0]; omega
  · intro h
    simp at h
    show rd (fun k => if k = outSize - 1 then 0 else wrL m 0 (le32 n) k) 0 4 = _
    rw [rd_congr (m₂ := wrL m 0 (le32 n)) (fun j _ h2 => if_neg (by omega))]
    exact rd_wrL_same m 0 (le32 n)
  · intro _; rfl
  · intro h j hj
    simp at hj
    subst hj
    simp [shSink0, bitsVal]
    rfl

theorem byte_or_pow {a nb : Nat} (h1 : a < 2 ^ nb) (h2 : nb < 8) (b : Bool) :
    b8 a ||| (if b then b8 (2 ^ nb) else 0) = b8 (a + b.toNat * 2 ^ nb) := by
  have h3 : 2 ^ nb * 2 ≤ 2 ^ 8 := by rw [← Nat.pow_succ]; exact Nat.pow_le_pow_right (n := 2) (by omega) h2
  cases b with
  | false => simp
  | true =>
    apply UInt8.toNat.inj
    simp only [if_true, UInt8.toNat_or, b8_toNat, Bool.toNat_true, Nat.one_mul]
    rw [Nat.mod_eq_of_lt (by omega), Nat.mod_eq_of_lt (by omega), Nat.mod_eq_of_lt (by omega), Nat.add_comm,
      Nat.or_comm]
    have := Nat.two_pow_add_eq_or_of_lt h1 1
    rw [Nat.mul_one] at this
    exact this.symm

theorem SinkOk.bit {n outSize : Nat} {s : ShSink} {D : List Byte} {B : List Bool} (H : SinkOk n outSize s D B) (b : Bool) :
    SinkOk n outSize (s.bit b) D (B ++ [b]) := by
  have hlen : (B ++ [b]).length = B.length + 1 := by simp
  have hnb := H.nb
  have hbad := H.bad
  -- the byte the bit goes to
  have key : s.bad = false → 8 + D.length + (B.length / 8 + 1) ≤ outSize → ∀ j, j ≤ B.length / 8 →
      (if outSize - 1 - j = s.ph then s.m (outSize - 1 - j) ||| (if b then b8 (2 ^ s.nb) else 0) else s.m (outSize - 1 - j)) =
        b8 (bitsVal (((B ++ [b]).drop (8 * j)).take 8)) := by
    intro h0 h1 j hj
    have hph := H.ph h0
    have hm := H.bits h1 j hj
    by_cases he : j = B.length / 8
    · rw [if_pos (by omega), hm]
      have hd : (B.drop (8 * j)).length = s.nb := by rw [List.length_drop]; omega
      have hv := bitsVal_lt ((B.drop (8 * j)).take 8)
      rw [List.take_of_length_le (by omega)] at hv ⊢
      rw [hd] at hv
      rw [byte_or_pow hv (by omega), List.drop_append_of_le_length (by omega),
        List.take_of_length_le (by rw [List.length_append, hd]; simp; omega), bitsVal_append, hd]
    · rw [if_neg (by omega), hm, List.drop_append_of_le_length (by omega), List.take_append_of_le_length
        (by rw [List.length_drop]; omega)]
  unfold ShSink.bit
  by_cases h8 : (s.nb + 1) % 8 = 0
  · have hq : (B ++ [b]).length / 8 = B.length / 8 + 1 := by omega
    simp only [h8, if_true]
    constructor
    · exact H.p
    · show 0 = _; omega
    · show s.hs + 1 = _; rw [H.hs, hq]
    · show (s.bad || s.ph == 0) = true ↔ _
      rw [hq]
      by_cases hb : s.bad = true
      · have := hbad.1 hb
        rw [hb]
        simp
        omega
      · have hb' : s.bad = false := by simpa using hb
        have hph := H.ph hb'
        have : ¬¬ _ := fun h => hb (hbad.2 h)
        have := Decidable.not_not.1 this
        rw [hb']
        simp
        omega
    · intro hb
      have hb : (s.bad || s.ph == 0) = false := hb
      rw [Bool.or_eq_false_iff] at hb
      have := H.ph hb.1
      have : s.ph ≠ 0 := by simpa using hb.2
      show s.ph - 1 + _ = _
      rw [hq]
      omega
    · intro h
      rw [hq] at h
      have hb : s.bad = false := by
        cases hs : s.bad with
        | false => rfl
        | true => exact absurd (hbad.1 hs) (by omega)
      have := H.ph hb
      rw [← H.size (by omega)]
      exact rd_congr fun j _ h2 => by
        show (if j = s.ph - 1 then (0 : Byte) else _) = _
        rw [if_neg (by omega), if_neg (by omega)]
    · intro h
      rw [hq] at h
      have hb : s.bad = false := by
        cases hs : s.bad with
        | false => rfl
        | true => exact absurd (hbad.1 hs) (by omega)
      have := H.ph hb
      refine Eq.trans ?_ (H.data (by omega))
      exact rd_congr fun j _ h2 => by
        show (if j = s.ph - 1 then (0 : Byte) else _) = _
        rw [if_neg (by omega), if_neg (by omega)]
    · intro h j hj
      rw [hq] at h hj
      have hb : s.bad = false := by
        cases hs : s.bad with
        | false => rfl
        | true => exact absurd (hbad.1 hs) (by omega)
      have := H.ph hb
      show (if outSize - 1 - j = s.ph - 1 then (0 : Byte) else _) = _
      by_cases hj' : j = B.length / 8 + 1
      · rw [if_pos (by omega), List.drop_of_length_le (by omega)]
        rfl
      · rw [if_neg (by omega)]
        exact key hb (by omega) j (by omega)
  · have hq : (B ++ [b]).length / 8 = B.length / 8 := by omega
    simp only [h8, if_false]
    have hnot : 8 + D.length + (B.length / 8 + 1) ≤ outSize → s.bad = false := by
      intro h
      cases hs : s.bad with
      | false => rfl
      | true => exact absurd (hbad.1 hs) (by omega)
    constructor
    · exact H.p
    · show (s.nb + 1) % 8 = _; omega
    · show s.hs = _; rw [H.hs, hq]
    · show s.bad = true ↔ _; rw [hq]; exact hbad
    · intro h; rw [hq]; exact H.ph h
    · intro h
      rw [hq] at h
      have := H.ph (hnot h)
      rw [← H.size h]
      exact rd_congr fun j _ h2 => if_neg (by omega)
    · intro h
      rw [hq] at h
      have := H.ph (hnot h)
      exact Eq.trans (rd_congr fun j _ h2 => if_neg (by omega)) (H.data h)
    · intro h j hj
      rw [hq] at h hj
      exact key (hnot h) h j hj

theorem SinkOk.bits_append {n outSize : Nat} {D : List Byte} : ∀ (l : List Bool) {s : ShSink} {B : List Bool},
    SinkOk n outSize s D B → SinkOk n outSize (l.foldl ShSink.bit s) D (B ++ l) := by
  intro l
  induction l with
  | nil => intro s B H; simpa using H
  | cons b r ih =>
    intro s B H
    have := ih (H.bit b)
    rw [List.append_assoc] at this
    exact this

theorem SinkOk.bytes {n outSize : Nat} {s : ShSink} {D : List Byte} {B : List Bool} (H : SinkOk n outSize s D B)
    (l : List Byte) : SinkOk n outSize (s.op outSize (.bytes l)) (D ++ l) B := by
  have hp := H.p
  have hlen : (D ++ l).length = D.length + l.length := by simp
  constructor
  · show s.p + l.length = _; omega
  · exact H.nb
  · exact H.hs
  · show (s.bad || decide (outSize < s.p + l.length)) = true ↔ _
    have := H.bad
    rw [Bool.or_eq_true, this, decide_eq_true_iff, hlen]
    omega
  · intro h
    have h : (s.bad || decide (outSize < s.p + l.length)) = false := h
    rw [Bool.or_eq_false_iff] at h
    exact H.ph h.1
  · intro h
    rw [hlen] at h
    show rd (wrL s.m s.p l) 0 4 = _
    rw [rd_wrL_out (by omega)]
    exact H.size (by omega)
  · intro h
    rw [hlen] at h
    show rd (wrL s.m s.p l) 8 (D ++ l).length = _
    rw [hlen, rd_cat, rd_wrL_out (by omega), H.data (by omega), ← hp, rd_wrL_same]
  · intro h j hj
    rw [hlen] at h
    show wrL s.m s.p l (outSize - 1 - j) = _
    rw [wrL_out (by omega)]
    exact H.bits (by omega) j hj

theorem SinkOk.ops {n outSize : Nat} : ∀ (ops : List ShOp) {s : ShSink} {D : List Byte} {B : List Bool},
    SinkOk n outSize s D B →
      SinkOk n outSize (ops.foldl (ShSink.op outSize) s) (D ++ dataOf ops) (B ++ bitsOf ops) := by
  intro ops
  induction ops with
  | nil => intro s D B H; simpa [dataOf, bitsOf] using H
  | cons o r ih =>
    intro s D B H
    have h1 : SinkOk n outSize (s.op outSize o) (D ++ o.dataOf) (B ++ o.bitsOf) := by
      cases o with
      | bits v c =>
        have := SinkOk.bits_append (patBits v c) H
        rw [← List.append_nil D] at this
        exact this
      | bytes l =>
        have := H.bytes l
        rw [← List.append_nil B] at this
        exact this
    have := ih h1
    rw [List.append_assoc, List.append_assoc] at this
    simpa [dataOf, bitsOf] using this

theorem dataOf_append (x y : List ShOp) : dataOf (x ++ y) = dataOf x ++ dataOf y := by simp [dataOf]
theorem bitsOf_append (x y : List ShOp) : bitsOf (x ++ y) = bitsOf x ++ bitsOf y := by simp [bitsOf]

/-! ### The stream -/

/-- What `rle8_sh_compress` writes before its last four bytes. -/
def shBody (inp : Mem) (n : Nat) : List ShOp :=
  let s := shLoopE inp n
  s.ops ++ (if s.wasCopy = true then (shCopy (shMerge s).lastRle (rd inp (shMerge s).start (shMerge s).copy) (shMerge s).st).1
    else shRun s.lastRle s.rle)

theorem shOps_eq (inp : Mem) (n : Nat) :
    shOps inp n = (shBody inp n ++ [ShOp.bits 63 7]) ++ [ShOp.bytes (le32 0)] := by
  simp only [shOps, shBody]
  rw [List.append_assoc (_ ++ _)]
  rfl

/-- The bytes and the bits of the stream. -/
def shData (inp : Mem) (n : Nat) : List Byte := dataOf (shBody inp n) ++ le32 0
def shBitsE (inp : Mem) (n : Nat) : List Bool := bitsOf (shBody inp n) ++ patBits 63 7

/-- Size of the stream. -/
def shSize (inp : Mem) (n : Nat) : Nat := 8 + (shData inp n).length + ((shBitsE inp n).length + 7) / 8

/-- The stream. -/
def shStream (inp : Mem) (n : Nat) : List Byte :=
  le32 n ++ le32 (shSize inp n) ++ shData inp n ++ (packs (shBitsE inp n)).reverse

theorem shStream_length (inp : Mem) (n : Nat) : (shStream inp n).length = shSize inp n := by
  simp [shStream, shSize]
  omega

theorem shCompress_eq (m0 inp : Mem) {n outSize : Nat} (h0 : 0 < n) (hb : mmBounds n ≤ outSize) (ho : outSize < 4294967296) :
    shCompress m0 (some inp) n true outSize =
      if shSize inp n ≤ outSize then .ok (shSize inp n) (shStream inp n) else .ub := by
  have HI := SinkOk.ops (shBody inp n ++ [ShOp.bits 63 7]) (SinkOk.init m0 n outSize)
  have hops : (shOps inp n).foldl (ShSink.op outSize) (shSink0 m0 n outSize) =
      ((shBody inp n ++ [ShOp.bits 63 7]).foldl (ShSink.op outSize) (shSink0 m0 n outSize)).op outSize (.bytes (le32 0)) := by
    rw [shOps_eq, List.foldl_append]
    rfl
  have hB : bitsOf (shBody inp n ++ [ShOp.bits 63 7]) = shBitsE inp n := by
    rw [bitsOf_append]
    simp [bitsOf, ShOp.bitsOf, shBitsE]
  have hD : dataOf (shBody inp n ++ [ShOp.bits 63 7]) = dataOf (shBody inp n) := by
    rw [dataOf_append]
    simp [dataOf, ShOp.dataOf]
  rw [List.nil_append, List.nil_append, hB, hD] at HI
  simp only [shCompress]
  rw [if_neg (by simp; omega), hops]
  obtain ⟨s, hs⟩ : ∃ s, s = (shBody inp n ++ [ShOp.bits 63 7]).foldl (ShSink.op outSize) (shSink0 m0 n outSize) := ⟨_, rfl⟩
  rw [← hs] at HI ⊢
  obtain ⟨B, hBv⟩ : ∃ B, B = shBitsE inp n := ⟨_, rfl⟩
  obtain ⟨D, hDv⟩ : ∃ D, D = dataOf (shBody inp n) := ⟨_, rfl⟩
  have hdl : (shData inp n).length = D.length + 4 := by rw [shData, hDv]; simp
  have hsz : shSize inp n = 8 + (D.length + 4) + (B.length + 7) / 8 := by rw [shSize, hdl, hBv]
  rw [← hBv, ← hDv] at HI
  have HF := HI.bytes (le32 0)
  obtain ⟨t, ht⟩ : ∃ t, t = s.op outSize (.bytes (le32 0)) := ⟨_, rfl⟩
  have htm : t.m = wrL s.m s.p (le32 0) := by rw [ht]; rfl
  rw [← ht] at HF ⊢
  have hp : t.p = 8 + (D.length + 4) := by rw [HF.p]; simp
  have hnb := HF.nb
  have hhs := HF.hs
  have hbad := HF.bad
  rw [List.length_append, le32_length] at hbad
  have hHS : (if t.nb = 0 then t.hs - 1 else t.hs) = (B.length + 7) / 8 := by
    by_cases h : t.nb = 0
    · rw [if_pos h]; omega
    · rw [if_neg h]; omega
  rw [hHS]
  obtain ⟨ph, hphv⟩ : ∃ ph, ph = (if t.nb = 0 then t.ph + 1 else t.ph) := ⟨_, rfl⟩
  rw [← hphv]
  by_cases hfit : shSize inp n ≤ outSize
  · rw [if_pos hfit]
    have hnotbad : t.bad = false := by
      cases hq : t.bad with
      | false => rfl
      | true => exact absurd (hbad.1 hq) (by omega)
    have hph := HF.ph hnotbad
    have hPH : ph = outSize - (B.length + 7) / 8 := by
      rw [hphv]
      by_cases h : t.nb = 0
      · rw [if_pos h]; omega
      · rw [if_neg h]; omega
    rw [if_neg (by rw [hnotbad]; simp; omega)]
    have hret : (t.p + (B.length + 7) / 8) % 4294967296 = shSize inp n := by
      rw [hp, hsz, Nat.mod_eq_of_lt (by omega)]
    rw [hret]
    have hroom : 8 + D.length + (B.length / 8 + 1) ≤ outSize := by omega
    -- the bits
    have hbits : rd t.m ph ((B.length + 7) / 8) = (packs B).reverse := by
      apply List.ext_getElem (by simp)
      intro i h1 h2
      rw [rd_length] at h1
      rw [rd_getElem, htm, wrL_out (by rw [HI.p, le32_length]; omega), List.getElem_reverse]
      have := HI.bits hroom ((B.length + 7) / 8 - 1 - i) (by omega)
      rw [show outSize - 1 - ((B.length + 7) / 8 - 1 - i) = ph + i by omega] at this
      rw [this]
      simp [packs]
    rw [hbits]
    have hsp := HI.p
    have hl : t.p + (B.length + 7) / 8 = 4 + (4 + (D.length + 4 + (B.length + 7) / 8)) := by omega
    have hM : rd (wrL (wrL t.m t.p (packs B).reverse) 4 (le32 (shSize inp n))) 0 (t.p + (B.length + 7) / 8) =
        shStream inp n := by
      rw [hl, rd_cat, rd_cat _ _ 4, Nat.zero_add, rd_cat _ _ (D.length + 4), rd_wrL_out (by simp), rd_wrL_out (by omega)]
      rw [show rd (wrL (wrL t.m t.p (packs B).reverse) 4 (le32 (shSize inp n))) 4 4 = le32 (shSize inp n) from
        rd_wrL_same _ 4 (le32 (shSize inp n))]
      rw [rd_wrL_out (by rw [le32_length]; omega), rd_wrL_out (by omega), rd_wrL_out (by rw [le32_length]; omega),
        show 4 + 4 + (D.length + 4) = t.p by omega]
      have : rd (wrL t.m t.p (packs B).reverse) t.p ((B.length + 7) / 8) = (packs B).reverse := by
        have := rd_wrL_same t.m t.p (packs B).reverse
        rw [List.length_reverse, packs_length] at this
        exact this
      rw [this, htm, rd_wrL_out (by omega), HI.size hroom, rd_cat _ _ D.length, rd_wrL_out (by omega), HI.data hroom,
        show 4 + 4 + D.length = s.p by omega]
      rw [show rd (wrL s.m s.p (le32 0)) s.p 4 = le32 0 from rd_wrL_same _ _ (le32 0)]
      unfold shStream shData
      rw [← hBv, ← hDv]
      simp only [List.append_assoc]
    rw [hM]
  · rw [if_neg hfit, if_pos (.inr (by omega))]

end Hrk
