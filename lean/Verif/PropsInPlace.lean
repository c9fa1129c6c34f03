import Verif.InPlace

/-
C67: the transforms may write over their input.
-/

namespace Hrk

/-- After a call that returns `n` the memory holds `out` at `q`, and is what it was everywhere else. -/
def WritesTo (r : ORes) (n : Nat) (m : Mem) (q : Nat) (out : List Byte) : Prop :=
  ∃ m', r = .ok n m' ∧ (∀ k (hk : k < out.length), m' (q + k) = out[k]) ∧ ∀ x, x < q ∨ q + out.length ≤ x → m' x = m x

theorem leaves_wrL {n : Nat} {m : Mem} {q : Nat} {out : List Byte} : WritesTo (.ok n (wrL m q out)) n m q out :=
  ⟨_, rfl, fun k hk => by rw [wrL_in hk, getD_of_lt _ _ hk], fun x hx => wrL_out hx⟩

/-- C67: a `mmtf` function whose output begins at or before its input (in place if `q = p`), or behind its end, writes what it writes to a buffer of
its own. `rd m p n` are the `n` bytes at `pIn` before the call. -/
theorem C67_mmtf {L : Nat} (hL : L = 16 ∨ L = 32) (dec : Bool) (cpu : Cpu) (hc : cpu.sse2 = true) (p n q outSize : Nat) (m : Mem)
    (ho : n ≤ outSize) (h : q ≤ p ∨ p + n ≤ q) :
    ∃ out, mmtf L dec cpu p q (rd m p n) outSize = .ok n out ∧ out.length = n ∧ WritesTo (mmtfO L dec cpu p n q outSize m) n m q out := by
  obtain ⟨out, h1, h2, _⟩ := mmtf_spec hL dec cpu hc p q (rd m p n) (outSize := outSize) (by simpa using ho)
  rw [rd_length] at h1 h2
  refine ⟨out, h1, h2, ?_⟩
  have hcl : Apart p n q := h
  have key : mmtfO L dec cpu p n q outSize m = .ok n (wrL m q out) := by
    unfold mmtf mmtf128 mmtf256 at h1
    unfold mmtfO
    have g1 : ¬n > outSize := by omega
    have g2 : ¬cpu.sse2 = false := by simp [hc]
    rw [if_neg g1, if_neg g2]
    simp only [rd_length, if_neg g1, if_neg g2] at h1
    rcases hL with rfl | rfl
    · rw [if_pos rfl] at h1 ⊢
      by_cases ha : p % 16 = 0 ∧ q % 32 = 0 ∧ cpu.sse41 = true
      · rw [if_pos ha] at h1 ⊢
        exact mtfRunO_eq hcl h1
      · rw [if_neg ha] at h1 ⊢
        exact mtfRunO_eq hcl h1
    · have n32 : ¬(32 : Nat) = 16 := by decide
      rw [if_neg n32] at h1 ⊢
      by_cases hv : cpu.avx2 = false
      · rw [if_pos hv] at h1 ⊢
        exact mtfRunO_eq hcl h1
      · rw [if_neg hv] at h1 ⊢
        by_cases ha : p % 32 = 0 ∧ q % 32 = 0
        · rw [if_pos ha] at h1 ⊢
          exact mtfRunO_eq hcl h1
        · rw [if_neg ha] at h1 ⊢
          exact mtfRunO_eq hcl h1
  rw [key]
  exact leaves_wrL

/-- C67: a buffer encoded in place and decoded in place, on any two processors, is what it was, and so is everything around it. -/
theorem C67_mmtf_in_place {L : Nat} (hL : L = 16 ∨ L = 32) (ce cd : Cpu) (he : ce.sse2 = true) (hd : cd.sse2 = true) (p n size size' : Nat) (m : Mem)
    (ho : n ≤ size) (ho' : n ≤ size') :
    ∃ m', mmtfO L false ce p n p size m = .ok n m' ∧ mmtfO L true cd p n p size' m' = .ok n m := by
  obtain ⟨code, e1, e2, m', e3, e4, e5⟩ := C67_mmtf hL false ce he p n p size m ho (.inl (Nat.le_refl _))
  refine ⟨m', e3, ?_⟩
  obtain ⟨out, d1, d2, m'', d3, d4, d5⟩ := C67_mmtf hL true cd hd p n p size' m' ho' (.inl (Nat.le_refl _))
  obtain ⟨code', r1, _, r3⟩ := C11_mmtf_roundtrip L hL ce cd he hd p p p p (rd m p n) size size' (by simpa using ho) (by simpa using ho')
  rw [rd_length] at r1 r3
  rw [e1] at r1
  cases r1
  have hrd : rd m' p n = code := by
    apply List.ext_getElem (by simp [e2])
    intro i h1 h2
    rw [rd_getElem, e4 i h2]
  rw [hrd, r3] at d1
  cases d1
  rw [d3]
  congr 1
  funext x
  rw [rd_length] at d5
  by_cases hx : p ≤ x ∧ x < p + n
  · have := d4 (x - p) (by rw [rd_length]; omega)
    rw [rd_getElem] at this
    rw [show p + (x - p) = x by omega] at this
    exact this
  · rw [d5 x (by omega), e5 x (by omega)]

/-- C67: the same for the bit wise transforms. -/
theorem C67_bitmmtf (p n q outSize : Nat) (m : Mem) (ho : n ≤ outSize) (h : q ≤ p ∨ p + n ≤ q) :
    (∃ out, bitmmtf8Encode (some (rd m p n)) true outSize = .ok n out ∧ WritesTo (bitmmtf8EncodeO p n q outSize m) n m q out) ∧
    (∃ out, bitmmtf8Decode (some (rd m p n)) true outSize = .ok n out ∧ WritesTo (bitmmtf8DecodeO p n q outSize m) n m q out) ∧
    (∃ out, bitmmtf16Encode (some (rd m p n)) true outSize = .ok n out ∧ WritesTo (bitmmtf16EncodeO p n q outSize m) n m q out) ∧
    (∃ out, bitmmtf16Decode (some (rd m p n)) true outSize = .ok n out ∧ WritesTo (bitmmtf16DecodeO p n q outSize m) n m q out) := by
  have hcl : Apart p n q := h
  have ha : ∀ f, bitApi f (some (rd m p n)) true outSize = .ok n (f (rd m p n)) := by
    intro f
    unfold bitApi
    dsimp only
    rw [if_neg (by rw [rd_length]; simp; omega), rd_length]
  have hb : ∀ f, bitApiO f p n q outSize m = .ok n (f n p q m) := by
    intro f
    unfold bitApiO
    rw [if_neg (by omega)]
  refine ⟨⟨_, ha _, ?_⟩, ⟨_, ha _, ?_⟩, ⟨_, ha _, ?_⟩, ⟨_, ha _, ?_⟩⟩
  · have := bit8EncO_eq hcl m n vzero [] (by simp)
    simp only [List.length_nil, Nat.add_zero, wrL_nil, List.nil_append] at this
    show WritesTo (bitApiO _ p n q outSize m) n m q _
    rw [hb, this]
    exact leaves_wrL
  · have := bit8DecO_eq hcl m n vzero [] (by simp)
    simp only [List.length_nil, Nat.add_zero, wrL_nil, List.nil_append] at this
    show WritesTo (bitApiO _ p n q outSize m) n m q _
    rw [hb, this]
    exact leaves_wrL
  · have := bit16EncO_eq hcl m n vzero [] (by simp)
    simp only [List.length_nil, Nat.add_zero, wrL_nil, List.nil_append] at this
    show WritesTo (bitApiO _ p n q outSize m) n m q _
    rw [hb, this]
    exact leaves_wrL
  · have := bit16DecO_eq hcl m n vzero [] (by simp)
    simp only [List.length_nil, Nat.add_zero, wrL_nil, List.nil_append] at this
    show WritesTo (bitApiO _ p n q outSize m) n m q _
    rw [hb, this]
    exact leaves_wrL

theorem back {m m' m'' : Mem} {p n : Nat} {code : List Byte} (hl : code.length = n)
    (e5 : ∀ x, x < p ∨ p + code.length ≤ x → m' x = m x) (d4 : ∀ k (hk : k < (rd m p n).length), m'' (p + k) = (rd m p n)[k])
    (d5 : ∀ x, x < p ∨ p + (rd m p n).length ≤ x → m'' x = m' x) : m'' = m := by
  funext x
  rw [rd_length] at d5
  by_cases hx : p ≤ x ∧ x < p + n
  · have := d4 (x - p) (by rw [rd_length]; omega)
    rw [rd_getElem] at this
    rw [show p + (x - p) = x by omega] at this
    exact this
  · rw [d5 x (by omega), e5 x (by omega)]

/-- C67: encoding and decoding in place with the bit wise transforms. -/
theorem C67_bitmmtf_in_place (p n size size' : Nat) (m : Mem) (ho : n ≤ size) (ho' : n ≤ size') :
    (∃ m', bitmmtf8EncodeO p n p size m = .ok n m' ∧ bitmmtf8DecodeO p n p size' m' = .ok n m) ∧
    (∃ m', bitmmtf16EncodeO p n p size m = .ok n m' ∧ bitmmtf16DecodeO p n p size' m' = .ok n m) := by
  obtain ⟨⟨c8, a1, m8, a2, a3, a4⟩, _, ⟨c16, b1, m16, b2, b3, b4⟩, _⟩ := C67_bitmmtf p n p size m ho (.inl (Nat.le_refl _))
  have hl : ∀ {c : List Byte} {m' : Mem}, c.length = n → (∀ k (hk : k < c.length), m' (p + k) = c[k]) → rd m' p n = c := by
    intro c m' hc h
    apply List.ext_getElem (by simp [hc])
    intro i h1 h2
    rw [rd_getElem, h i h2]
  obtain ⟨c8', x1, x2, x3⟩ := C13_bitmmtf8_roundtrip (rd m p n) size size' (by simpa using ho) (by simpa using ho')
  obtain ⟨c16', y1, y2, y3⟩ := C13_bitmmtf16_roundtrip (rd m p n) size size' (by simpa using ho) (by simpa using ho')
  rw [rd_length] at x1 x2 x3 y1 y2 y3
  rw [a1] at x1
  cases x1
  rw [b1] at y1
  cases y1
  refine ⟨⟨m8, a2, ?_⟩, ⟨m16, b2, ?_⟩⟩
  · obtain ⟨_, ⟨o, d1, m'', d2, d3, d4⟩, _, _⟩ := C67_bitmmtf p n p size' m8 ho' (.inl (Nat.le_refl _))
    rw [hl x2 a3, x3] at d1
    cases d1
    rw [d2, back x2 a4 d3 d4]
  · obtain ⟨_, _, _, ⟨o, d1, m'', d2, d3, d4⟩⟩ := C67_bitmmtf p n p size' m16 ho' (.inl (Nat.le_refl _))
    rw [hl y2 b3, y3] at d1
    cases d1
    rw [d2, back y2 b4 d3 d4]

/-! ### Examples, and why the output must not begin inside the input -/

/-- The bytes at 32 and behind are those of the sample. -/
def inPlaceMem : Mem := fun k => if k < 32 then 77 else mtfSample.getD (k - 32) 88

example : ∃ m', mmtfO 16 false cpuAvx2 32 20 32 20 inPlaceMem = .ok 20 m' ∧ mmtfO 16 true cpuSse41 32 20 32 99 m' = .ok 20 inPlaceMem :=
  C67_mmtf_in_place (.inl rfl) cpuAvx2 cpuSse41 rfl rfl 32 20 20 99 inPlaceMem (by decide) (by decide)
example : ∃ out, mmtf 16 false cpuAvx2 32 25 (rd inPlaceMem 32 20) 20 = .ok 20 out ∧ out.length = 20 ∧
    WritesTo (mmtfO 16 false cpuAvx2 32 20 25 20 inPlaceMem) 20 inPlaceMem 25 out :=
  C67_mmtf (.inl rfl) false cpuAvx2 rfl 32 20 25 20 inPlaceMem (by decide) (.inl (by decide))
example : ∃ m', bitmmtf16EncodeO 32 19 32 19 inPlaceMem = .ok 19 m' ∧ bitmmtf16DecodeO 32 19 32 19 m' = .ok 19 inPlaceMem :=
  (C67_bitmmtf_in_place 32 19 19 19 inPlaceMem (by decide) (by decide)).2

/-- What a call leaves at some place. -/
def ORes.seen (r : ORes) (a k : Nat) : Option (List Byte) :=
  match r with
  | .ok _ m => some (rd m a k)
  | _ => none

/-- In place: 3, 3 ^^^ 0, 0 ^^^ 9 and so on. -/
example : (bitmmtf8EncodeO 34 4 34 4 inPlaceMem).seen 34 4 = some [0, 9, 0, 0] := by decide +kernel
/-- One byte further the second byte read is the first one written. -/
example : (bitmmtf8EncodeO 33 4 34 4 inPlaceMem).seen 34 4 = some [3, 0, 3, 3] ∧
    bitmmtf8Encode (some (rd inPlaceMem 33 4)) true 4 = .ok 4 [3, 3, 9, 0] := by decide +kernel
example : (mmtfO 16 false cpuSse41 33 4 34 4 inPlaceMem).seen 34 4 = some [3, 3, 3, 3] ∧
    mmtf 16 false cpuSse41 33 34 (rd inPlaceMem 33 4) 4 = .ok 4 [3, 0, 9, 9] := by decide +kernel
example : (mmtfO 16 false cpuSse41 33 4 34 3 inPlaceMem).seen 34 4 = none := by decide +kernel

end Hrk
