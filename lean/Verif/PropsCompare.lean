import Verif.Compare

/-
C39: what the comparison of the fuzzer says about two buffers.
-/

namespace Hrk

theorem byte_or_lt (x y : Byte) : (x ||| y) < 128 ↔ x < 128 ∧ y < 128 := by
  simp only [UInt8.lt_iff_toNat_lt, UInt8.toNat_or]
  constructor
  · intro h
    have h1 := Nat.left_le_or (n := x.toNat) (m := y.toNat)
    have h2 := Nat.right_le_or (n := x.toNat) (m := y.toNat)
    exact ⟨Nat.lt_of_le_of_lt h1 h, Nat.lt_of_le_of_lt h2 h⟩
  · intro ⟨h1, h2⟩
    exact Nat.or_lt_two_pow (n := 7) h1 h2

theorem movemask_none (w : Nat) (v : Vec) : movemask w v = 0 ↔ ∀ j, j < w → v j < 128 := by
  induction w with
  | zero => simp [movemask]
  | succ w ih =>
    unfold movemask
    have hp : 0 < 2 ^ w := Nat.two_pow_pos w
    constructor
    · intro h j hj
      by_cases hw : v w ≥ 128
      · rw [if_pos hw] at h; omega
      · rcases Nat.lt_or_ge j w with h1 | h1
        · exact (ih.mp (by rw [if_neg hw] at h; omega)) j h1
        · rw [show j = w by omega]
          simp only [ge_iff_le, UInt8.not_le] at hw
          exact hw
    · intro h
      have h1 : ¬ v w ≥ 128 := by
        have := h w (by omega)
        simp only [ge_iff_le, UInt8.not_le]
        exact this
      rw [if_neg h1, ih.mpr fun j hj => h j (by omega)]

/-- No lane has its top bit set. -/
def Clear (v : Vec) : Prop := ∀ j, j < 32 → v j < 128

theorem clear_or (u v : Vec) : Clear (vor u v) ↔ Clear u ∧ Clear v := by
  unfold Clear vor
  constructor
  · intro h
    exact ⟨fun j hj => ((byte_or_lt _ _).mp (h j hj)).1, fun j hj => ((byte_or_lt _ _).mp (h j hj)).2⟩
  · intro ⟨h1, h2⟩ j hj
    exact (byte_or_lt _ _).mpr ⟨h1 j hj, h2 j hj⟩

namespace CmpArgs

/-- The top bits agree on `[l, r)`. -/
def TopEq (x : CmpArgs) (l r : Nat) : Prop := ∀ i, l ≤ i → i < r → (x.a i ^^^ x.b i) < 128

theorem TopEq.append {x : CmpArgs} {l m r : Nat} (h1 : l ≤ m) (h2 : m ≤ r) : x.TopEq l r ↔ x.TopEq l m ∧ x.TopEq m r := by
  constructor
  · intro h
    exact ⟨fun i hi hj => h i hi (by omega), fun i hi hj => h i (by omega) hj⟩
  · intro ⟨h3, h4⟩ i hi hj
    rcases Nat.lt_or_ge i m with h5 | h5
    · exact h3 i hi h5
    · exact h4 i h5 hj

theorem accum_spec (x : CmpArgs) {off : Nat} (c : Vec) (h : off + 32 ≤ x.len) (ha : off % 32 = 0) :
    ∃ v, x.accum off c = some v ∧ (Clear v ↔ Clear c ∧ x.TopEq off (off + 32)) := by
  have hal : ∀ p, x.aligned = true → p = x.pa ∨ p = x.pb → (p + off) % 32 = 0 := by
    intro p hp hq
    unfold aligned at hp
    simp only [Bool.and_eq_true, beq_iff_eq] at hp
    rcases hq with rfl | rfl <;> omega
  refine ⟨vor c (vxor (fun j => x.a (off + j)) (fun j => x.b (off + j))), ?_, ?_⟩
  · unfold accum ld256
    rw [if_pos ⟨h, fun hp => hal _ hp (Or.inl rfl)⟩, if_pos ⟨h, fun hp => hal _ hp (Or.inr rfl)⟩]
    rfl
  · rw [clear_or]
    refine and_congr Iff.rfl ?_
    unfold Clear vxor TopEq
    constructor
    · intro h1 i h2 h3
      have := h1 (i - off) (by omega)
      simp only [show off + (i - off) = i by omega] at this
      exact this
    · intro h1 j hj
      exact h1 (off + j) (by omega) (by omega)

theorem step4_next {x : CmpArgs} {s : St} {c0 c1 c2 c3 : Vec} (h : s.off + 128 < x.len) (h0 : x.accum s.off s.c0 = some c0)
    (h1 : x.accum (s.off + 32) s.c1 = some c1) (h2 : x.accum (s.off + 64) s.c2 = some c2)
    (h3 : x.accum (s.off + 96) s.c3 = some c3) : x.step4 s = .inl ⟨s.off + 128, c0, c1, c2, c3⟩ := by
  unfold step4
  rw [if_pos (by omega), h0, h1, h2, h3]

theorem step4_end {x : CmpArgs} {s : St} (h : x.len ≤ s.off + 128) : x.step4 s = .inr (some s) := by
  unfold step4
  rw [if_neg (by omega)]

theorem step4_clear {x : CmpArgs} {s : St} {v0 v1 v2 v3 : Vec} {o : Nat}
    (h : (Clear s.c0 ∧ Clear s.c1 ∧ Clear s.c2 ∧ Clear s.c3) ↔ x.TopEq 0 o)
    (h0 : Clear v0 ↔ Clear s.c0 ∧ x.TopEq o (o + 32)) (h1 : Clear v1 ↔ Clear s.c1 ∧ x.TopEq (o + 32) (o + 32 + 32))
    (h2 : Clear v2 ↔ Clear s.c2 ∧ x.TopEq (o + 64) (o + 64 + 32))
    (h3 : Clear v3 ↔ Clear s.c3 ∧ x.TopEq (o + 96) (o + 96 + 32)) :
    (Clear v0 ∧ Clear v1 ∧ Clear v2 ∧ Clear v3) ↔ x.TopEq 0 (o + 128) := by
  rw [TopEq.append (l := 0) (m := o) (r := o + 128) (by omega) (by omega), ← h,
    TopEq.append (l := o) (m := o + 32) (r := o + 128) (by omega) (by omega),
    TopEq.append (l := o + 32) (m := o + 64) (r := o + 128) (by omega) (by omega),
    TopEq.append (l := o + 64) (m := o + 96) (r := o + 128) (by omega) (by omega)]
  rw [h0, h1, h2, h3]
  constructor
  · intro ⟨⟨a, b⟩, ⟨c, d⟩, ⟨e, f⟩, ⟨g, h⟩⟩
    exact ⟨⟨a, c, e, g⟩, b, d, f, h⟩
  · intro ⟨⟨a, c, e, g⟩, b, d, f, h⟩
    exact ⟨⟨a, b⟩, ⟨c, d⟩, ⟨e, f⟩, ⟨g, h⟩⟩

/-- Where the vector part ends. -/
def vecEnd (x : CmpArgs) : Nat := (x.len - 1) / 32 * 32

set_option maxRecDepth 4000 in
theorem simd_spec (x : CmpArgs) : ∃ r, x.simd = some (x.vecEnd, r) ∧ (r = false ↔ x.TopEq 0 x.vecEnd) := by
  unfold simd
  by_cases h0 : x.len - 32 = 0
  · rw [if_pos h0]
    have he : x.vecEnd = 0 := by unfold vecEnd; omega
    rw [he]
    exact ⟨false, rfl, by simp [TopEq]⟩
  · rw [if_neg h0]
    have first : ∃ s : St, ((if x.len - 128 = 0 then some (some ⟨0, vzero, vzero, vzero, vzero⟩)
      else (loop x.step4 (x.len + 1) ⟨0, vzero, vzero, vzero, vzero⟩).map fun r =>
        r.map fun s => (⟨s.off, vor (vor s.c0 s.c1) (vor s.c2 s.c3), s.c1, s.c2, s.c3⟩ : St)).bind id) = some s ∧
        s.off % 32 = 0 ∧ s.off < x.len ∧ (Clear s.c0 ↔ x.TopEq 0 s.off) := by
      have hz : Clear vzero := fun j _ => by show (0 : Byte) < 128; decide
      by_cases h1 : x.len - 128 = 0
      · rw [if_pos h1]
        refine ⟨_, rfl, rfl, by show 0 < x.len; omega, ?_⟩
        show Clear vzero ↔ x.TopEq 0 0
        exact ⟨fun _ i _ hi => by omega, fun _ => hz⟩
      · rw [if_neg h1]
        obtain ⟨r, hr, s, hs, hq⟩ := loop_rule (body := x.step4)
          (fun s => s.off % 128 = 0 ∧ s.off < x.len ∧ ((Clear s.c0 ∧ Clear s.c1 ∧ Clear s.c2 ∧ Clear s.c3) ↔ x.TopEq 0 s.off))
          (fun r => ∃ s, r = some s ∧ s.off % 128 = 0 ∧ s.off < x.len ∧
            ((Clear s.c0 ∧ Clear s.c1 ∧ Clear s.c2 ∧ Clear s.c3) ↔ x.TopEq 0 s.off))
          (fun s => x.len - s.off) (by
            intro s ⟨i1, i2, i3⟩
            rcases Nat.lt_or_ge (s.off + 128) x.len with hc | hc
            · obtain ⟨v0, e0, c0⟩ := x.accum_spec (off := s.off) s.c0 (by omega) (by omega)
              obtain ⟨v1, e1, c1⟩ := x.accum_spec (off := s.off + 32) s.c1 (by omega) (by omega)
              obtain ⟨v2, e2, c2⟩ := x.accum_spec (off := s.off + 64) s.c2 (by omega) (by omega)
              obtain ⟨v3, e3, c3⟩ := x.accum_spec (off := s.off + 96) s.c3 (by omega) (by omega)
              rw [step4_next hc e0 e1 e2 e3]
              exact ⟨⟨by show (s.off + 128) % 128 = 0; omega, hc, step4_clear i3 c0 c1 c2 c3⟩, by show x.len - (s.off + 128) < _; omega⟩
            · rw [step4_end hc]
              exact ⟨s, rfl, i1, i2, i3⟩)
          (x.len + 1) ⟨0, vzero, vzero, vzero, vzero⟩ ⟨rfl, by show 0 < x.len; omega,
            ⟨fun _ i _ hi => absurd hi (Nat.not_lt_zero i), fun _ => ⟨hz, hz, hz, hz⟩⟩⟩ (by show x.len - 0 < _; omega)
        subst hs
        rw [hr]
        refine ⟨_, rfl, by show s.off % 32 = 0; omega, hq.2.1, ?_⟩
        show Clear (vor (vor s.c0 s.c1) (vor s.c2 s.c3)) ↔ _
        rw [clear_or, clear_or, clear_or, and_assoc, hq.2.2]
    obtain ⟨s, hs, i1, i2, i3⟩ := first
    rw [hs]
    simp only [Option.bind_some]
    obtain ⟨r, hr, t, ht, hq⟩ := loop_rule (body := x.step1)
      (fun s => s.off % 32 = 0 ∧ s.off < x.len ∧ (Clear s.c0 ↔ x.TopEq 0 s.off))
      (fun r => ∃ s, r = some s ∧ s.off = x.vecEnd ∧ (Clear s.c0 ↔ x.TopEq 0 s.off))
      (fun s => x.len - s.off) (by
        intro s ⟨i1, i2, i3⟩
        unfold step1
        by_cases hc : s.off < x.len - 32
        · rw [if_pos hc]
          obtain ⟨v0, e0, c0⟩ := x.accum_spec (off := s.off) s.c0 (by omega) (by omega)
          rw [e0]
          simp only [Post_inl]
          refine ⟨⟨by omega, by omega, ?_⟩, by omega⟩
          rw [TopEq.append (l := 0) (m := s.off) (r := s.off + 32) (by omega) (by omega), ← i3, c0]
        · rw [if_neg hc]
          exact ⟨s, rfl, by unfold vecEnd; omega, i3⟩)
      (x.len + 1) s ⟨i1, i2, i3⟩ (by omega)
    subst ht
    rw [hr]
    refine ⟨_, by rw [Option.bind_some, id, Option.map_some, hq.1], ?_⟩
    rw [← hq.1, ← hq.2, decide_eq_false_iff_not, Decidable.not_not, movemask_none]
    rfl

/-- The bytes agree on `[l, r)`. -/
def BytesEq (x : CmpArgs) (l r : Nat) : Prop := ∀ i, l ≤ i → i < r → x.a i = x.b i

theorem tail_spec (x : CmpArgs) (o : Nat) (h : o ≤ x.len) : ∃ r, (loop x.stepTail (x.len + 1) o).bind id = some r ∧ (r = true ↔ x.BytesEq o x.len) := by
  obtain ⟨r, hr, b, hb, hq⟩ := loop_rule (body := x.stepTail)
    (fun off => o ≤ off ∧ off ≤ x.len ∧ x.BytesEq o off)
    (fun r => ∃ b, r = some b ∧ (b = true ↔ x.BytesEq o x.len))
    (fun off => x.len - off) (by
      intro off ⟨i1, i2, i3⟩
      unfold stepTail
      by_cases h1 : off < x.len - 8
      · rw [if_pos h1, if_pos (by omega)]
        by_cases h2 : rd x.a off 8 = rd x.b off 8
        · rw [if_pos h2]
          simp only [Post_inl]
          refine ⟨⟨by omega, by omega, ?_⟩, by omega⟩
          intro i j1 j2
          rcases Nat.lt_or_ge i off with h3 | h3
          · exact i3 i j1 h3
          · have e := congrArg (fun l => l.getD (i - off) 0) h2
            simp only [rd] at e
            rw [List.getD_eq_getElem?_getD, List.getD_eq_getElem?_getD, List.getElem?_map, List.getElem?_map,
              List.getElem?_range (by omega)] at e
            simp only [Option.map_some, Option.getD_some, show off + (i - off) = i by omega] at e
            exact e
        · rw [if_neg h2]
          refine ⟨false, rfl, ?_⟩
          simp only [Bool.false_eq_true, false_iff]
          intro hh
          apply h2
          unfold rd
          apply List.map_congr_left
          intro j hj
          rw [List.mem_range] at hj
          exact hh (off + j) (by omega) (by omega)
      · rw [if_neg h1]
        by_cases h2 : off < x.len
        · rw [if_pos h2]
          by_cases h3 : x.a off = x.b off
          · rw [if_pos h3]
            simp only [Post_inl]
            refine ⟨⟨by omega, by omega, ?_⟩, by omega⟩
            intro i j1 j2
            rcases Nat.lt_or_ge i off with h4 | h4
            · exact i3 i j1 h4
            · rw [show i = off by omega]; exact h3
          · rw [if_neg h3]
            refine ⟨false, rfl, ?_⟩
            simp only [Bool.false_eq_true, false_iff]
            intro hh
            exact h3 (hh off i1 h2)
        · rw [if_neg h2]
          refine ⟨true, rfl, ?_⟩
          rw [show x.len = off by omega]
          exact ⟨fun _ => i3, fun _ => rfl⟩)
    (x.len + 1) o ⟨Nat.le_refl _, h, fun i h1 h2 => by omega⟩ (by omega)
  subst hb
  rw [hr]
  exact ⟨b, rfl, hq⟩

theorem memoryEquals_spec (x : CmpArgs) : ∃ r, x.memoryEquals = some r ∧
    (r = true ↔ x.TopEq 0 x.vecEnd ∧ x.BytesEq x.vecEnd x.len) := by
  unfold memoryEquals
  obtain ⟨r, h1, h2⟩ := x.simd_spec
  rw [h1]
  simp only [Option.bind_some]
  cases r with
  | true =>
    rw [if_pos rfl]
    refine ⟨false, rfl, ?_⟩
    simp only [Bool.false_eq_true, false_iff]
    intro ⟨h3, _⟩
    exact absurd (h2.mpr h3) (by decide)
  | false =>
    rw [if_neg (by decide)]
    obtain ⟨r, h3, h4⟩ := x.tail_spec x.vecEnd (by unfold vecEnd; omega)
    refine ⟨r, h3, ?_⟩
    rw [h4]
    exact ⟨fun h => ⟨h2.mp rfl, h⟩, fun h => h.2⟩

end CmpArgs

/-- C39: the comparison always answers: it never reads outside the two buffers, never makes an aligned
load from an unaligned address and always ends. -/
theorem C39_compare_safe (pa pb : Nat) (a b : Mem) (len : Nat) :
    ∃ r, CmpArgs.memoryEquals ⟨pa, pb, a, b, len⟩ = some r := by
  obtain ⟨r, h, _⟩ := CmpArgs.memoryEquals_spec ⟨pa, pb, a, b, len⟩
  exact ⟨r, h⟩

/-- C39: equal buffers are reported as equal, wherever they are. -/
theorem C39_compare_equal (pa pb : Nat) (a b : Mem) (len : Nat) (h : ∀ i, i < len → a i = b i) :
    CmpArgs.memoryEquals ⟨pa, pb, a, b, len⟩ = some true := by
  obtain ⟨r, h1, h2⟩ := CmpArgs.memoryEquals_spec ⟨pa, pb, a, b, len⟩
  rw [h1, h2.mpr]
  refine ⟨fun i _ hi => ?_, fun i _ hi => h i hi⟩
  show (a i ^^^ b i) < 128
  have hv : CmpArgs.vecEnd ⟨pa, pb, a, b, len⟩ ≤ len := by unfold CmpArgs.vecEnd; show (len - 1) / 32 * 32 ≤ len; omega
  rw [h i (by omega)]
  simp

/-- The hypothesis is met by two buffers that differ only behind their length. -/
example : ∀ i, i < 100 → (fun i => if i < 100 then (7 : Byte) else 0) i = (fun _ => (7 : Byte)) i := by
  intro i h; simp [h]

/-- C39: the answer is exactly this: the top bits of the bytes before the last multiple of 32 below the
length agree, and the bytes from there on agree. -/
theorem C39_compare_exact (pa pb : Nat) (a b : Mem) (len : Nat) :
    CmpArgs.memoryEquals ⟨pa, pb, a, b, len⟩ = some true ↔
      (∀ i, i < (len - 1) / 32 * 32 → (128 ≤ a i ↔ 128 ≤ b i)) ∧
      (∀ i, (len - 1) / 32 * 32 ≤ i → i < len → a i = b i) := by
  have hx : ∀ u v : Byte, ((u ^^^ v) < 128) ↔ (128 ≤ u ↔ 128 ≤ v) := by
    intro u v
    have e : ∀ w : Byte, (w < 128) ↔ w.toNat.testBit 7 = false := by
      intro w
      rw [Nat.testBit_eq_decide_div_mod_eq, UInt8.lt_iff_toNat_lt, decide_eq_false_iff_not]
      have := w.toNat_lt
      show w.toNat < 128 ↔ ¬ w.toNat / 2 ^ 7 % 2 = 1
      omega
    have e' : ∀ w : Byte, (128 ≤ w) ↔ w.toNat.testBit 7 = true := by
      intro w
      rw [← UInt8.not_lt, e w, Bool.not_eq_false]
    rw [e, e', e', UInt8.toNat_xor, Nat.testBit_xor]
    cases u.toNat.testBit 7 <;> cases v.toNat.testBit 7 <;> simp
  obtain ⟨r, h1, h2⟩ := CmpArgs.memoryEquals_spec ⟨pa, pb, a, b, len⟩
  rw [h1, Option.some_inj, h2]
  refine and_congr ?_ Iff.rfl
  constructor
  · intro h i hi
    exact (hx _ _).mp (h i (Nat.zero_le i) hi)
  · intro h i _ hi
    exact (hx _ _).mpr (h i hi)

/-- C39, full statement: the answer is whether the buffers are equal. Proved for up to 32 bytes. -/
theorem C39_compare_short_partial (pa pb : Nat) (a b : Mem) (len : Nat) (h : len ≤ 32) :
    CmpArgs.memoryEquals ⟨pa, pb, a, b, len⟩ = some true ↔ ∀ i, i < len → a i = b i := by
  rw [C39_compare_exact, show (len - 1) / 32 * 32 = 0 by omega]
  exact ⟨fun h i hi => h.2 i (Nat.zero_le i) hi, fun h => ⟨fun i hi => by omega, fun i _ hi => h i hi⟩⟩

/-- The hypothesis is met. -/
example : (31 : Nat) ≤ 32 := by decide

/-- C39: beyond 32 bytes it is not: for every such length there are buffers that differ in every byte the
vectors cover and are reported as equal. -/
theorem C39_compare_violated (pa pb : Nat) (len : Nat) (h : 32 < len) :
    ∃ a b : Mem, (∀ i, i < (len - 1) / 32 * 32 → a i ≠ b i) ∧ 0 < (len - 1) / 32 * 32 ∧ CmpArgs.memoryEquals ⟨pa, pb, a, b, len⟩ = some true := by
  refine ⟨fun i => if i < (len - 1) / 32 * 32 then 1 else 0, fun _ => 0, ?_, by omega, ?_⟩
  · intro i hi
    simp only [if_pos hi]
    decide
  · rw [C39_compare_exact]
    refine ⟨fun i hi => ?_, fun i hi _ => ?_⟩
    · simp only [if_pos hi]; decide
    · simp only [if_neg (Nat.not_lt.mpr hi)]

/-- The hypothesis is met. -/
example : (32 : Nat) < 33 := by decide

end Hrk
