import Verif.PropsMtf
import Verif.Rle8MmtfPack

/-
The transforms of src/mmtf.c and src/bit_mmtf.c on one memory that holds both buffers, which may overlap: `p` is `pIn`, `q` is `pOut`.
-/

namespace Hrk

/-- What a transform leaves: `fail` is `return 0` with nothing written, `ub` an aligned access to an unaligned address or a table access outside
of `history`, `ok r m` the return value and the memory (the return values of src/mmtf.c:35-105 and src/bit_mmtf.c). -/
inductive ORes where
  | fail
  | ub
  | ok (ret : Nat) (m : Mem)

/-- The bytes behind the last block, one by one: `r` are left, `pi` and `po` are `pIn` and `pOut` (src/mmtf.c:161-175 encoders, 303-310 decoders,
and copies). `pOut` does not move if the encoder does not find the symbol. -/
def mtfTailO (dec : Bool) (hist : Nat → Vec) : Nat → Nat → Nat → Nat → Mem → Mem
  | 0, _, _, _, m => m
  | r + 1, i, pi, po, m =>
    if dec then mtfTailO dec hist r (i + 1) (pi + 1) (po + 1) (wrL m po [hist (m pi).toNat i])
    else
      match (List.range 256).find? (fun d => hist d i == m pi) with
      | some d => mtfTailO dec hist r (i + 1) (pi + 1) (po + 1) (wrL m po [b8 d])
      | none => mtfTailO dec hist r (i + 1) (pi + 1) po m

/-- The outer loop (src/mmtf.c:122-159, 263-301 and copies): load a block from `pIn`, transform it, store it to `pOut`; both have moved by `i`. -/
def mtfOuterO (dec : Bool) (parts w : Nat) (al : Bool) (p q n : Nat) (s : (Nat → Vec) × Nat × Mem) :
    ((Nat → Vec) × Nat × Mem) ⊕ Option Mem :=
  if parts * w ≤ n - s.2.1 then
    if al ∧ ((p + s.2.1) % (parts * w) ≠ 0 ∨ (q + s.2.1) % (parts * w) ≠ 0) then .inr none
    else
      match mtfBlock dec parts w s.1 (rd s.2.2 (p + s.2.1) (parts * w)) with
      | none => .inr none
      | some (h, o) => .inl (h, s.2.1 + parts * w, wrL s.2.2 (q + s.2.1) o)
  else .inr (some (mtfTailO dec s.1 (n - s.2.1) 0 (p + s.2.1) (q + s.2.1) s.2.2))

/-- One of `mmtf{128,256}_{encode,decode}_{aligned,unaligned}[_sse41,_sse2]` (src/mmtf.c:109-819). -/
def mtfRunO (dec : Bool) (parts w : Nat) (al : Bool) (p q n : Nat) (m : Mem) : ORes :=
  match (loop (mtfOuterO dec parts w al p q n) (n + 1) (fun r => vset1 (b8 r), 0, m)).join with
  | none => .ub
  | some m' => .ok n m'

/-- `mmtf128_encode`, `mmtf128_decode` (`L = 16`, src/mmtf.c:35-65), `mmtf256_encode`, `mmtf256_decode` (`L = 32`, src/mmtf.c:69-105). -/
def mmtfO (L : Nat) (dec : Bool) (cpu : Cpu) (p n q outSize : Nat) (m : Mem) : ORes :=
  if n > outSize then .fail
  else if cpu.sse2 = false then .fail
  else if L = 16 then
    if p % 16 = 0 ∧ q % 32 = 0 ∧ cpu.sse41 then mtfRunO dec 1 16 true p q n m else mtfRunO dec 1 16 false p q n m
  else if cpu.avx2 = false then mtfRunO dec 2 16 false p q n m
  else if p % 32 = 0 ∧ q % 32 = 0 then mtfRunO dec 1 32 true p q n m
  else mtfRunO dec 1 32 false p q n m

/-- Loop of `bitmmtf8_encode` (src/bit_mmtf.c:26-35) with `r` bytes left. -/
def bit8EncO (state : Vec) : Nat → Nat → Nat → Mem → Mem
  | 0, _, _, m => m
  | r + 1, pi, po, m =>
    bit8EncO (vand bitMask8 (vset1 (m pi))) r (pi + 1) (po + 1) (wrL m po [b8 (notMask (veq (vand bitMask8 (vset1 (m pi))) state))])

/-- Loop of `bitmmtf8_decode` (src/bit_mmtf.c:48-57) with `r` bytes left. -/
def bit8DecO (state : Vec) : Nat → Nat → Nat → Mem → Mem
  | 0, _, _, m => m
  | r + 1, pi, po, m =>
    bit8DecO (vxor (veq bitMask8 (vand bitMask8 (vset1 (m pi)))) state) r (pi + 1) (po + 1)
      (wrL m po [b8 (movemask 16 (vxor (veq bitMask8 (vand bitMask8 (vset1 (m pi)))) state))])

/-- Loop and tail of `bitmmtf16_encode` (src/bit_mmtf.c:72-92) with `r` bytes left. -/
def bit16EncO (state : Vec) : Nat → Nat → Nat → Mem → Mem
  | r + 2, pi, po, m =>
    bit16EncO (vand bitMask16 (vshuf1100 (vset1 (m pi)) (vset1 (m (pi + 1))))) r (pi + 2) (po + 2)
      (wrL m po (le16 (notMask (veq (vand bitMask16 (vshuf1100 (vset1 (m pi)) (vset1 (m (pi + 1))))) state))))
  | 1, pi, po, m => wrL m po [m pi]
  | 0, _, _, m => m

/-- Loop and tail of `bitmmtf16_decode` (src/bit_mmtf.c:105-125) with `r` bytes left. -/
def bit16DecO (state : Vec) : Nat → Nat → Nat → Mem → Mem
  | r + 2, pi, po, m =>
    bit16DecO (vxor (veq bitMask16 (vand bitMask16 (vshuf1100 (vset1 (m pi)) (vset1 (m (pi + 1)))))) state) r (pi + 2) (po + 2)
      (wrL m po (le16 (movemask 16 (vxor (veq bitMask16 (vand bitMask16 (vshuf1100 (vset1 (m pi)) (vset1 (m (pi + 1)))))) state))))
  | 1, pi, po, m => wrL m po [m pi]
  | 0, _, _, m => m

/-- The argument checks of the four functions (src/bit_mmtf.c:20-21, 42-43, 66-67, 99-100), for pointers that are not null. -/
def bitApiO (f : Nat → Nat → Nat → Mem → Mem) (p n q outSize : Nat) (m : Mem) : ORes :=
  if n > outSize then .fail else .ok n (f n p q m)

/-- `bitmmtf8_encode` (src/bit_mmtf.c:18-38). -/
def bitmmtf8EncodeO := bitApiO (bit8EncO vzero)
/-- `bitmmtf8_decode` (src/bit_mmtf.c:40-60). -/
def bitmmtf8DecodeO := bitApiO (bit8DecO vzero)
/-- `bitmmtf16_encode` (src/bit_mmtf.c:64-95). -/
def bitmmtf16EncodeO := bitApiO (bit16EncO vzero)
/-- `bitmmtf16_decode` (src/bit_mmtf.c:97-128). -/
def bitmmtf16DecodeO := bitApiO (bit16DecO vzero)

/-! ### What is read was not written before -/

theorem rd_step (m : Mem) (a r : Nat) : rd m a (r + 1) = m a :: rd m (a + 1) r := by
  rw [Nat.add_comm, rd_cat]
  simp [rd]

/-- The output is not behind the input within it: it begins at or before the input, or behind its end. -/
def Apart (p n q : Nat) : Prop := q ≤ p ∨ p + n ≤ q

theorem Apart.rd {p n q : Nat} (h : Apart p n q) (m : Mem) {out : List Byte} {j k : Nat} (ho : out.length ≤ j) (hk : j + k ≤ n) :
    rd (wrL m q out) (p + j) k = rd m (p + j) k :=
  rd_wrL_out (by rcases h with h | h <;> omega)

theorem Apart.at {p n q : Nat} (h : Apart p n q) (m : Mem) {out : List Byte} {j : Nat} (ho : out.length ≤ j) (hk : j < n) :
    wrL m q out (p + j) = m (p + j) :=
  wrL_out (by rcases h with h | h <;> omega)

theorem mtfTailO_eq {dec : Bool} {hist : Nat → Vec} {p n q : Nat} (h : Apart p n q) (m : Mem) : ∀ (r i j : Nat) (out : List Byte),
    out.length ≤ j → j + r ≤ n →
    mtfTailO dec hist r i (p + j) (q + out.length) (wrL m q out) =
      wrL m q (out ++ (if dec then mtfTailDec hist i (rd m (p + j) r) else mtfTailEnc hist i (rd m (p + j) r)))
  | 0, i, j, out, _, _ => by
    cases dec <;> simp [mtfTailO, mtfTailDec, mtfTailEnc]
  | r + 1, i, j, out, h1, h2 => by
    unfold mtfTailO
    rw [h.at m h1 (by omega), rd_step]
    cases dec with
    | true =>
      simp only [if_true]
      rw [wrL_append]
      have := mtfTailO_eq (dec := true) (hist := hist) h m r (i + 1) (j + 1) (out ++ [hist (m (p + j)).toNat i]) (by simp; omega) (by omega)
      simp only [if_true, List.length_append, List.length_singleton, List.append_assoc] at this
      exact this
    | false =>
      simp only [Bool.false_eq_true, if_false]
      unfold mtfTailEnc
      cases hf : (List.range 256).find? (fun d => hist d i == m (p + j)) with
      | some d =>
        dsimp only
        rw [wrL_append]
        have := mtfTailO_eq (dec := false) (hist := hist) h m r (i + 1) (j + 1) (out ++ [b8 d]) (by simp; omega) (by omega)
        simp only [Bool.false_eq_true, if_false, List.length_append, List.length_singleton, List.append_assoc] at this
        exact this
      | none =>
        dsimp only
        have := mtfTailO_eq (dec := false) (hist := hist) h m r (i + 1) (j + 1) out (by omega) (by omega)
        simp only [Bool.false_eq_true, if_false] at this
        exact this

theorem mtfBlock_len {dec : Bool} {parts w : Nat} {h h' : Nat → Vec} {blk o : List Byte} (hb : mtfBlock dec parts w h blk = some (h', o)) :
    o.length = parts * w := by
  unfold mtfBlock at hb
  rw [Option.map_eq_some_iff] at hb
  obtain ⟨s, _, hs⟩ := hb
  cases hs
  simp [vstore]

theorem mtfOuterO_eq {dec : Bool} {parts w : Nat} {al : Bool} {p n q : Nat} (h : Apart p n q) (m : Mem) :
    ∀ (fuel : Nat) (hist : Nat → Vec) (out : List Byte), out.length ≤ n →
    (loop (mtfOuterO dec parts w al p q n) fuel (hist, out.length, wrL m q out)).join =
      ((loop (mtfOuter dec parts w al p q) fuel (hist, rd m (p + out.length) (n - out.length), out)).join).map (wrL m q)
  | 0, _, _, _ => rfl
  | fuel + 1, hist, out, ho => by
    unfold loop
    have e1 : mtfOuterO dec parts w al p q n (hist, out.length, wrL m q out) =
      if parts * w ≤ n - out.length then
        if al ∧ ((p + out.length) % (parts * w) ≠ 0 ∨ (q + out.length) % (parts * w) ≠ 0) then .inr none
        else
          match mtfBlock dec parts w hist (rd (wrL m q out) (p + out.length) (parts * w)) with
          | none => .inr none
          | some (h, o) => .inl (h, out.length + parts * w, wrL (wrL m q out) (q + out.length) o)
      else .inr (some (mtfTailO dec hist (n - out.length) 0 (p + out.length) (q + out.length) (wrL m q out))) := rfl
    have e2 : mtfOuter dec parts w al p q (hist, rd m (p + out.length) (n - out.length), out) =
      if parts * w ≤ (rd m (p + out.length) (n - out.length)).length then
        if al ∧ ((p + out.length) % (parts * w) ≠ 0 ∨ (q + out.length) % (parts * w) ≠ 0) then .inr none
        else
          match mtfBlock dec parts w hist ((rd m (p + out.length) (n - out.length)).take (parts * w)) with
          | none => .inr none
          | some (h, o) => .inl (h, (rd m (p + out.length) (n - out.length)).drop (parts * w), out ++ o)
      else .inr (some (out ++ (if dec then mtfTailDec hist 0 (rd m (p + out.length) (n - out.length))
        else mtfTailEnc hist 0 (rd m (p + out.length) (n - out.length))))) := rfl
    rw [e1, e2, rd_length]
    by_cases h1 : parts * w ≤ n - out.length
    · rw [if_pos h1, if_pos h1]
      by_cases h2 : al = true ∧ ((p + out.length) % (parts * w) ≠ 0 ∨ (q + out.length) % (parts * w) ≠ 0)
      · rw [if_pos h2, if_pos h2]
        rfl
      · rw [if_neg h2, if_neg h2]
        have hs : rd m (p + out.length) (n - out.length) =
            rd m (p + out.length) (parts * w) ++ rd m (p + out.length + parts * w) (n - out.length - parts * w) := by
          rw [← rd_cat]
          congr 1
          omega
        rw [h.rd m (Nat.le_refl _) (by omega), hs, List.take_left' (rd_length ..), List.drop_left' (rd_length ..)]
        cases hb : mtfBlock dec parts w hist (rd m (p + out.length) (parts * w)) with
        | none => rfl
        | some x =>
          obtain ⟨h', o⟩ := x
          have hl := mtfBlock_len hb
          dsimp only
          rw [wrL_append]
          have := mtfOuterO_eq (dec := dec) (parts := parts) (w := w) (al := al) h m fuel h' (out ++ o) (by rw [List.length_append]; omega)
          rw [List.length_append, hl] at this
          rw [this, Nat.add_assoc, Nat.sub_add_eq]
    · rw [if_neg h1, if_neg h1]
      show some _ = some _
      rw [mtfTailO_eq h m _ _ _ _ (Nat.le_refl _) (by omega)]

theorem mtfRunO_eq {dec : Bool} {parts w : Nat} {al : Bool} {p n q : Nat} (h : Apart p n q) {m : Mem} {k : Nat} {out : List Byte}
    (hr : mtfRun dec parts w al p q (rd m p n) = .ok k out) : mtfRunO dec parts w al p q n m = .ok k (wrL m q out) := by
  have := mtfOuterO_eq (dec := dec) (parts := parts) (w := w) (al := al) h m (n + 1) (fun r => vset1 (b8 r)) [] (by simp)
  rw [List.length_nil, wrL_nil, Nat.add_zero, Nat.sub_zero] at this
  unfold mtfRun at hr
  rw [rd_length] at hr
  unfold mtfRunO
  rw [this]
  cases hj : (loop (mtfOuter dec parts w al p q) (n + 1) (fun r => vset1 (b8 r), rd m p n, [])).join with
  | none => rw [hj] at hr; cases hr
  | some o =>
    rw [hj] at hr
    cases hr
    rfl

theorem bit8EncO_eq {p n q : Nat} (h : Apart p n q) (m : Mem) : ∀ (r : Nat) (st : Vec) (out : List Byte), out.length + r ≤ n →
    bit8EncO st r (p + out.length) (q + out.length) (wrL m q out) = wrL m q (out ++ bit8Enc st (rd m (p + out.length) r))
  | 0, st, out, _ => by simp [bit8EncO, bit8Enc]
  | r + 1, st, out, hr => by
    unfold bit8EncO
    rw [h.at m (Nat.le_refl _) (by omega), rd_step, wrL_append]
    have := bit8EncO_eq h m r (vand bitMask8 (vset1 (m (p + out.length))))
      (out ++ [b8 (notMask (veq (vand bitMask8 (vset1 (m (p + out.length)))) st))]) (by simp; omega)
    simp only [List.length_append, List.length_singleton, List.append_assoc] at this
    exact this

theorem bit8DecO_eq {p n q : Nat} (h : Apart p n q) (m : Mem) : ∀ (r : Nat) (st : Vec) (out : List Byte), out.length + r ≤ n →
    bit8DecO st r (p + out.length) (q + out.length) (wrL m q out) = wrL m q (out ++ bit8Dec st (rd m (p + out.length) r))
  | 0, st, out, _ => by simp [bit8DecO, bit8Dec]
  | r + 1, st, out, hr => by
    unfold bit8DecO
    rw [h.at m (Nat.le_refl _) (by omega), rd_step, wrL_append]
    have := bit8DecO_eq h m r (vxor (veq bitMask8 (vand bitMask8 (vset1 (m (p + out.length))))) st)
      (out ++ [b8 (movemask 16 (vxor (veq bitMask8 (vand bitMask8 (vset1 (m (p + out.length))))) st))]) (by simp; omega)
    simp only [List.length_append, List.length_singleton, List.append_assoc] at this
    exact this

theorem bit16EncO_eq {p n q : Nat} (h : Apart p n q) (m : Mem) : ∀ (r : Nat) (st : Vec) (out : List Byte), out.length + r ≤ n →
    bit16EncO st r (p + out.length) (q + out.length) (wrL m q out) = wrL m q (out ++ bit16Enc st (rd m (p + out.length) r))
  | 0, st, out, _ => by simp [bit16EncO, bit16Enc]
  | 1, st, out, hr => by
    unfold bit16EncO
    rw [h.at m (Nat.le_refl _) (by omega), rd_step, wrL_append]
    simp [bit16Enc]
  | r + 2, st, out, hr => by
    unfold bit16EncO
    rw [h.at m (Nat.le_refl _) (by omega), Nat.add_assoc p, h.at m (by omega) (by omega), rd_step, rd_step, wrL_append]
    have := bit16EncO_eq h m r (vand bitMask16 (vshuf1100 (vset1 (m (p + out.length))) (vset1 (m (p + (out.length + 1))))))
      (out ++ le16 (notMask (veq (vand bitMask16 (vshuf1100 (vset1 (m (p + out.length))) (vset1 (m (p + (out.length + 1)))))) st)))
      (by simp [le16]; omega)
    simp only [List.length_append, List.append_assoc, show ∀ x, (le16 x).length = 2 from fun _ => rfl] at this
    exact this

theorem bit16DecO_eq {p n q : Nat} (h : Apart p n q) (m : Mem) : ∀ (r : Nat) (st : Vec) (out : List Byte), out.length + r ≤ n →
    bit16DecO st r (p + out.length) (q + out.length) (wrL m q out) = wrL m q (out ++ bit16Dec st (rd m (p + out.length) r))
  | 0, st, out, _ => by simp [bit16DecO, bit16Dec]
  | 1, st, out, hr => by
    unfold bit16DecO
    rw [h.at m (Nat.le_refl _) (by omega), rd_step, wrL_append]
    simp [bit16Dec]
  | r + 2, st, out, hr => by
    unfold bit16DecO
    rw [h.at m (Nat.le_refl _) (by omega), Nat.add_assoc p, h.at m (by omega) (by omega), rd_step, rd_step, wrL_append]
    have := bit16DecO_eq h m r (vxor (veq bitMask16 (vand bitMask16 (vshuf1100 (vset1 (m (p + out.length))) (vset1 (m (p + (out.length + 1))))))) st)
      (out ++ le16 (movemask 16 (vxor (veq bitMask16 (vand bitMask16 (vshuf1100 (vset1 (m (p + out.length))) (vset1 (m (p + (out.length + 1))))))) st)))
      (by simp [le16]; omega)
    simp only [List.length_append, List.append_assoc, show ∀ x, (le16 x).length = 2 from fun _ => rfl] at this
    exact this

end Hrk
