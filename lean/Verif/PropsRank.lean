import Verif.RankSpec
import Verif.PropsMtf

/-
C79: the transforms are one to one, and what the bytes they write mean.
-/

namespace Hrk

/-! ### Move to front -/

/-- The table after some bytes. -/
def tabAfter : List Byte → List Byte → List Byte
  | T, [] => T
  | T, x :: xs => tabAfter (x :: T.erase x) xs

theorem tab_perm {T : List Byte} (x : Byte) (h : T.Perm mtfTable) : (x :: T.erase x).Perm mtfTable :=
  (List.perm_cons_erase (h.mem_iff.mpr (mem_mtfTable x))).symm.trans h

theorem tabAfter_perm : ∀ (xs T : List Byte), T.Perm mtfTable → (tabAfter T xs).Perm mtfTable
  | [], _, h => h
  | x :: xs, _, h => tabAfter_perm xs _ (tab_perm x h)

theorem mtf_getElem? : ∀ (xs T : List Byte) (k : Nat) (x : Byte), xs[k]? = some x →
    (mtf T xs)[k]? = some (b8 ((tabAfter T (xs.take k)).idxOf x))
  | [], _, k, _, h => by simp at h
  | y :: xs, T, 0, x, h => by
    simp at h
    subst h
    simp [mtf, tabAfter]
  | y :: xs, T, k + 1, x, h => by
    simp only [List.getElem?_cons_succ] at h
    simp only [mtf, List.getElem?_cons_succ, List.take_succ_cons, tabAfter]
    exact mtf_getElem? xs _ k x h

theorem idx_cons (a b : Byte) (l : List Byte) : (b :: l).idxOf a = if b = a then 0 else l.idxOf a + 1 := by
  rw [List.idxOf_cons]
  by_cases h : b = a
  · simp [h]
  · rw [if_neg h, show (b == a) = false by simpa using h]
    rfl

theorem idx_erase {x y v : Byte} (hx : y ≠ x) (hv : y ≠ v) : ∀ T : List Byte,
    ((T.erase y).idxOf v < (T.erase y).idxOf x ↔ T.idxOf v < T.idxOf x)
  | [] => by simp
  | a :: T => by
    by_cases h : a = y
    · subst h
      rw [List.erase_cons_head, idx_cons, idx_cons, if_neg hx, if_neg hv]
      omega
    · rw [List.erase_cons_tail (by simpa using h), idx_cons, idx_cons, idx_cons, idx_cons]
      have := idx_erase hx hv T
      split <;> split <;> omega

theorem tabAfter_append : ∀ (a b T : List Byte), tabAfter T (a ++ b) = tabAfter (tabAfter T a) b
  | [], _, _ => rfl
  | x :: a, b, T => tabAfter_append a b (x :: T.erase x)

/-- Who is in front of `x` after a step with another byte. -/
theorem idx_step {T : List Byte} {x y v : Byte} (hxy : y ≠ x) :
    (y :: T.erase y).idxOf v < (y :: T.erase y).idxOf x ↔ v = y ∨ T.idxOf v < T.idxOf x := by
  rw [idx_cons, idx_cons, if_neg hxy]
  by_cases h : y = v
  · simp [h]
  · rw [if_neg h]
    have := idx_erase hxy h T
    have : v ≠ y := fun e => h e.symm
    simp only [this, false_or]
    omega

theorem front_iff {x v : Byte} : ∀ (s T : List Byte), x ∉ s →
    ((tabAfter T s).idxOf v < (tabAfter T s).idxOf x ↔ v ∈ s ∨ T.idxOf v < T.idxOf x)
  | [], _, _ => by simp [tabAfter]
  | y :: s, T, hx => by
    have hy : y ≠ x := fun e => hx (by simp [e])
    rw [tabAfter, front_iff s _ (fun e => hx (by simp [e])), idx_step hy]
    simp only [List.mem_cons]
    rw [← or_assoc, or_comm (a := v ∈ s)]

/-- As many elements are in front of place `k` as its number says. -/
theorem countP_idx : ∀ (T : List Byte) (k : Nat), T.Nodup → k ≤ T.length → T.countP (fun v => decide (T.idxOf v < k)) = k
  | [], k, _, h => by simp at h; subst h; rfl
  | a :: T, 0, _, _ => by simp
  | a :: T, k + 1, hn, h => by
    have hn' := List.nodup_cons.mp hn
    rw [List.countP_cons_of_pos (by simp)]
    have ih := countP_idx T k hn'.2 (by simpa using h)
    refine congrArg (· + 1) (Eq.trans (List.countP_congr ?_) ih)
    intro v hv
    have : a ≠ v := fun e => hn'.1 (e ▸ hv)
    simp only [idx_cons, if_neg this, decide_eq_true_eq]
    omega

theorem idx_count {T : List Byte} (h : T.Perm mtfTable) (x : Byte) :
    T.idxOf x = mtfTable.countP fun v => decide (T.idxOf v < T.idxOf x) := by
  rw [← h.countP_eq, countP_idx T _ (h.nodup_iff.mpr (by decide +kernel)) List.idxOf_le_length]

theorem mtfTable_idx (v : Byte) : mtfTable.idxOf v = v.toNat :=
  byte_forall (P := fun v => mtfTable.idxOf v = v.toNat) (by decide +kernel) v

/-- The place of a byte in the table after others. -/
theorem tab_rank (s : List Byte) (x : Byte) : (tabAfter mtfTable s).idxOf x = rank s.reverse x := by
  have hp := tabAfter_perm s _ (List.Perm.refl mtfTable)
  have hm : ∀ p, mtfTable.countP p = (List.range 256).countP (p ∘ b8) := fun p => List.countP_map
  rw [idx_count hp, rank, ← List.countP_eq_length_filter, hm]
  apply List.countP_congr
  intro v hv
  have hv : v < 256 := List.mem_range.mp hv
  simp only [Function.comp, decide_eq_true_eq]
  have htn : (b8 v).toNat = v := by simp [b8, Nat.mod_eq_of_lt hv]
  by_cases hx : x ∈ s
  · obtain ⟨a, b, h1, h2⟩ := List.eq_append_cons_of_mem (List.mem_reverse.mpr hx)
    have e : s = b.reverse ++ x :: a.reverse := by
      rw [← List.reverse_reverse s, h1]
      simp
    have ht : (s.reverse).takeWhile (fun y => decide (y ≠ x)) = a := by
      rw [h1, List.takeWhile_append_of_pos (by intro y hy; have : y ≠ x := fun e => h2 (e ▸ hy); simpa using this)]
      simp
    rw [ht]
    simp only [List.mem_reverse, hx, not_true, false_and, or_false]
    rw [e, tabAfter_append, tabAfter, front_iff _ _ (by simpa using h2)]
    simp [idx_cons]
  · have ht : (s.reverse).takeWhile (fun y => decide (y ≠ x)) = s.reverse := by
      have := List.takeWhile_append_of_pos (p := fun y => decide (y ≠ x)) (l₁ := s.reverse) (l₂ := [])
        (by intro y hy; have : y ≠ x := fun e => hx (e ▸ List.mem_reverse.mp hy); simpa using this)
      simpa using this
    rw [ht]
    rw [front_iff _ _ hx, mtfTable_idx, mtfTable_idx, htn]
    simp [hx]

/-! ### Lanes -/

theorem lane_getElem? {L j : Nat} (hj : j < L) : ∀ (k : Nat) (xs : List Byte), (lane L j xs)[k]? = xs[j + L * k]? := by
  have short : ∀ (xs : List Byte), xs.length < L → ∀ k, (lane L j xs)[k]? = xs[j + L * k]? := by
    intro xs hl k
    unfold lane
    rw [laneAt_short xs 0 (by omega)]
    by_cases h : j < xs.length
    · rw [if_pos (by omega)]
      cases k with
      | zero => simp [h]
      | succ k => rw [List.getElem?_eq_none (by simp), List.getElem?_eq_none (by rw [Nat.mul_succ]; omega)]
    · rw [if_neg (by omega), List.getElem?_eq_none (by simp), List.getElem?_eq_none (by omega)]
  intro k
  induction k with
  | zero =>
    intro xs
    by_cases hl : xs.length < L
    · exact short xs hl 0
    · rw [← List.take_append_drop L xs, lane_block (by simp; omega) hj]
      have : j < xs.length := by omega
      simp [hj, this]
  | succ k ih =>
    intro xs
    by_cases hl : xs.length < L
    · exact short xs hl _
    · rw [← List.take_append_drop L xs, lane_block (by simp; omega) hj, List.getElem?_cons_succ, ih,
        List.getElem?_append_right (by simp [Nat.mul_succ]; omega)]
      congr 1
      rw [List.length_take, Nat.mul_succ]
      omega

theorem lane_before {L : Nat} (hL : 0 < L) (src : List Byte) (i : Nat) (hi : i < src.length) :
    ((lane L (i % L) src).take (i / L)).reverse = before L src i := by
  have hg := lane_getElem? (Nat.mod_lt i hL)
  have hd := Nat.mod_add_div i L
  apply List.ext_getElem?
  intro m
  have hlen : i / L < (lane L (i % L) src).length := by
    apply Nat.lt_of_not_le
    intro h
    have := hg (i / L) src
    rw [List.getElem?_eq_none h, hd, List.getElem?_eq_getElem hi] at this
    cases this
  by_cases hm : m < i / L
  · rw [List.getElem?_reverse (by simp; omega), List.length_take, Nat.min_eq_left (by omega), List.getElem?_take_of_lt (by omega), hg]
    unfold before
    rw [List.getElem?_map, List.getElem?_range hm, Option.map_some]
    have e : i % L + L * (i / L - 1 - m) = i - L * (m + 1) := by
      have : L * (i / L) = L * (i / L - 1 - m) + L * (m + 1) := by
        rw [← Nat.mul_add]
        congr 1
        omega
      omega
    rw [e, List.getElem?_eq_getElem (by omega)]
    congr 1
    rw [List.getD_eq_getElem?_getD, List.getElem?_eq_getElem (by omega)]
    rfl
  · rw [List.getElem?_eq_none (by simp; omega), List.getElem?_eq_none (by simp [before]; omega)]

/-! ### C79 -/

/-- C79: what `mmtf128_encode` (`L = 16`) and `mmtf256_encode` (`L = 32`) write for a byte is how many byte values are more recent, among the
bytes `L`, `2 L`, ... places before. -/
theorem C79_mmtf_rank (L : Nat) (hL : L = 16 ∨ L = 32) (cpu : Cpu) (hc : cpu.sse2 = true) (aIn aOut : Nat) (src : List Byte) (outSize : Nat)
    (ho : src.length ≤ outSize) :
    ∃ out, mmtf L false cpu aIn aOut src outSize = .ok src.length out ∧ out.length = src.length ∧
      ∀ i, i < src.length → (out.getD i 0).toNat = rank (before L src i) (src.getD i 0) := by
  obtain ⟨out, h1, h2, h3⟩ := C12_mmtf_encode_lanes L hL cpu hc aIn aOut src outSize ho
  have hL0 : 0 < L := by omega
  refine ⟨out, h1, h2, fun i hi => ?_⟩
  have hg := fun xs => lane_getElem? (Nat.mod_lt i hL0) (i / L) xs
  have hd := Nat.mod_add_div i L
  rw [hd] at hg
  have hx : (lane L (i % L) src)[i / L]? = some (src.getD i 0) := by
    rw [hg, List.getD_eq_getElem?_getD, List.getElem?_eq_getElem hi]
    rfl
  have := mtf_getElem? _ mtfTable _ _ hx
  rw [← h3 _ (Nat.mod_lt i hL0), hg, tab_rank, lane_before hL0 src i hi] at this
  rw [List.getD_eq_getElem?_getD, this]
  show (b8 _).toNat = _
  have : rank (before L src i) (src.getD i 0) < 256 := by
    rw [← lane_before hL0 src i hi, ← tab_rank]
    have hp := tabAfter_perm ((lane L (i % L) src).take (i / L)) _ (List.Perm.refl mtfTable)
    have := List.idxOf_lt_length_iff.mpr (hp.mem_iff.mpr (mem_mtfTable (src.getD i 0)))
    rw [hp.length_eq, mtfTable_length] at this
    exact this
  generalize rank (before L src i) (src.getD i 0) = r at this
  simp [b8, Nat.mod_eq_of_lt this]

theorem rank_cons_self (e : List Byte) (x : Byte) : rank (x :: e) x = 0 := by
  simp [rank]

theorem rank_cons_ne {e : List Byte} {x y : Byte} (h : y ≠ x) : rank (y :: e) x ≠ 0 := by
  unfold rank
  intro h0
  have := List.eq_nil_of_length_eq_zero h0
  have hm : y.toNat ∈ (List.range 256).filter fun v => decide (b8 v ∈ (y :: e).takeWhile (· ≠ x) ∨ (x ∉ y :: e ∧ v < x.toNat)) := by
    rw [List.mem_filter]
    refine ⟨List.mem_range.mpr y.toNat_lt, ?_⟩
    rw [List.takeWhile_cons_of_pos (by simpa using h)]
    simp [b8]
  rw [this] at hm
  cases hm

theorem rank_nil (x : Byte) : rank [] x = x.toNat :=
  byte_forall (P := fun x => rank [] x = x.toNat) (by decide +kernel) x

/-- C79: the encoders write 0 exactly where a byte is repeated, and keep the first `L` bytes. -/
theorem C79_mmtf_zero (L : Nat) (hL : L = 16 ∨ L = 32) (cpu : Cpu) (hc : cpu.sse2 = true) (aIn aOut : Nat) (src : List Byte) (outSize : Nat)
    (ho : src.length ≤ outSize) :
    ∃ out, mmtf L false cpu aIn aOut src outSize = .ok src.length out ∧ out.length = src.length ∧
      (∀ i, i < src.length → i < L → out.getD i 0 = src.getD i 0) ∧
      ∀ i, i < src.length → L ≤ i → (out.getD i 0 = 0 ↔ src.getD i 0 = src.getD (i - L) 0) := by
  obtain ⟨out, h1, h2, h3⟩ := C79_mmtf_rank L hL cpu hc aIn aOut src outSize ho
  refine ⟨out, h1, h2, fun i hi hl => ?_, fun i hi hl => ?_⟩
  · apply UInt8.toNat_inj.mp
    rw [h3 i hi, before, Nat.div_eq_of_lt hl]
    exact rank_nil _
  · have := h3 i hi
    obtain ⟨k, hk⟩ : ∃ k, i / L = k + 1 := ⟨i / L - 1, by have := Nat.div_pos hl (by omega); omega⟩
    rw [before, hk, List.range_succ_eq_map, List.map_cons, Nat.zero_add, Nat.mul_one] at this
    generalize List.map _ _ = e at this
    constructor
    · intro h
      rw [h] at this
      apply Classical.byContradiction
      intro hne
      exact rank_cons_ne (fun e => hne e.symm) this.symm
    · intro h
      rw [h, rank_cons_self] at this
      exact UInt8.toNat_inj.mp this

theorem mtf_unmtf : ∀ (is T : List Byte), T.Perm mtfTable → mtf T (unmtf T is) = is
  | [], _, _ => rfl
  | i :: is, T, h => by
    have hl : i.toNat < T.length := by rw [h.length_eq, mtfTable_length]; exact i.toNat_lt
    have hn : T.Nodup := h.nodup_iff.mpr (by decide +kernel)
    have he : T.getD i.toNat 0 = T[i.toNat] := by simp [hl]
    have hi : T.idxOf T[i.toNat] = i.toNat := hn.idxOf_getElem _ hl
    have hr : T.erase T[i.toNat] = T.eraseIdx i.toNat := by rw [List.erase_eq_eraseIdx_of_idxOf hi]
    rw [unmtf, mtf, he, hi, hr, mtf_unmtf is _ (by rw [← hr]; exact tab_perm _ h)]
    simp [b8]

/-- C79: encoding undoes decoding; with `C11_mmtf_roundtrip` the transforms are one to one and onto the byte strings of each length. -/
theorem C79_mmtf_onto (L : Nat) (hL : L = 16 ∨ L = 32) (cpu cpu' : Cpu) (hc : cpu.sse2 = true)
    (hc' : cpu'.sse2 = true) (aIn aOut aIn' aOut' : Nat) (code : List Byte) (outSize outSize' : Nat)
    (ho : code.length ≤ outSize) (ho' : code.length ≤ outSize') :
    ∃ src, mmtf L true cpu aIn aOut code outSize = .ok code.length src ∧ src.length = code.length ∧
      mmtf L false cpu' aIn' aOut' src outSize' = .ok code.length code := by
  obtain ⟨o, h1, h2, h3⟩ := mmtf_spec hL true cpu hc aIn aOut code ho
  obtain ⟨o', h1', h2', h3'⟩ := mmtf_spec hL false cpu' hc' aIn' aOut' o (outSize := outSize') (by omega)
  refine ⟨o, h1, h2, ?_⟩
  rw [h1', h2]
  congr 1
  refine lane_ext (L := L) (by omega) o' code 0 (by omega) ?_
  intro j hj
  refine (h3' j hj).trans ?_
  show mtf mtfTable (lane L j o) = lane L j code
  rw [h3 j hj]
  exact mtf_unmtf _ _ (List.Perm.refl _)

/-! ### Bit differences -/

theorem xorDelta_sum : ∀ (xs : List Byte) (p : Byte), xorDelta p (xorSum p xs) = xs
  | [], _ => rfl
  | x :: xs, p => by
    rw [xorSum, xorDelta, xorDelta_sum xs, UInt8.xor_assoc, UInt8.xor_self, UInt8.xor_zero]

theorem xorDelta16_sum : ∀ (xs : List Byte) (p q : Byte), xorDelta16 p q (xorSum16 p q xs) = xs
  | [], _, _ => rfl
  | [x], _, _ => rfl
  | x :: y :: xs, p, q => by
    rw [xorSum16, xorDelta16, xorDelta16_sum xs, UInt8.xor_assoc, UInt8.xor_self, UInt8.xor_zero, UInt8.xor_assoc, UInt8.xor_self,
      UInt8.xor_zero]

/-- C79: `bitmmtf8_encode` undoes `bitmmtf8_decode`, `bitmmtf16_encode` undoes `bitmmtf16_decode`. -/
theorem C79_bitmmtf_onto (code : List Byte) (outSize outSize' : Nat) (ho : code.length ≤ outSize) (ho' : code.length ≤ outSize') :
    (∃ src, bitmmtf8Decode (some code) true outSize = .ok code.length src ∧ src.length = code.length ∧
      bitmmtf8Encode (some src) true outSize' = .ok code.length code) ∧
    ∃ src, bitmmtf16Decode (some code) true outSize = .ok code.length src ∧ src.length = code.length ∧
      bitmmtf16Encode (some src) true outSize' = .ok code.length code := by
  refine ⟨⟨_, C13_bitmmtf8_decode code outSize ho, xorSum_length _ _, ?_⟩, ⟨_, C13_bitmmtf16_decode code outSize ho, xorSum16_length _ _ _, ?_⟩⟩
  · rw [C13_bitmmtf8_encode _ _ (by rw [xorSum_length]; exact ho'), xorDelta_sum, xorSum_length]
  · rw [C13_bitmmtf16_encode _ _ (by rw [xorSum16_length]; exact ho'), xorDelta16_sum, xorSum16_length]

theorem xorDelta_getD : ∀ (xs : List Byte) (p : Byte) (i : Nat), i < xs.length →
    (xorDelta p xs).getD i 0 = xs.getD i 0 ^^^ (p :: xs).getD i 0
  | x :: xs, p, 0, _ => by simp [xorDelta]
  | x :: xs, p, i + 1, h => by
    have := xorDelta_getD xs x i (by simpa using h)
    simpa [xorDelta] using this

theorem xorDelta16_getD : ∀ (xs : List Byte) (p q : Byte) (i : Nat), i < xs.length / 2 * 2 →
    (xorDelta16 p q xs).getD i 0 = xs.getD i 0 ^^^ (p :: q :: xs).getD i 0
  | [], _, _, i, h => by simp at h
  | [x], _, _, i, h => by simp at h
  | x :: y :: xs, p, q, 0, _ => by simp [xorDelta16]
  | x :: y :: xs, p, q, 1, _ => by simp [xorDelta16]
  | x :: y :: xs, p, q, i + 2, h => by
    have := xorDelta16_getD xs x y i (by simp at h; omega)
    simpa [xorDelta16] using this

/-- C79: `bitmmtf8_encode` writes 0 exactly where a byte is repeated, `bitmmtf16_encode` where it is the same as two places before (a last
byte without a partner is kept). -/
theorem C79_bitmmtf_zero (src : List Byte) (outSize : Nat) (ho : src.length ≤ outSize) :
    (∃ out, bitmmtf8Encode (some src) true outSize = .ok src.length out ∧
      ∀ i, 1 ≤ i → i < src.length → (out.getD i 0 = 0 ↔ src.getD i 0 = src.getD (i - 1) 0)) ∧
    ∃ out, bitmmtf16Encode (some src) true outSize = .ok src.length out ∧
      ∀ i, 2 ≤ i → i < src.length / 2 * 2 → (out.getD i 0 = 0 ↔ src.getD i 0 = src.getD (i - 2) 0) := by
  refine ⟨⟨_, C13_bitmmtf8_encode src outSize ho, fun i h1 h2 => ?_⟩, ⟨_, C13_bitmmtf16_encode src outSize ho, fun i h1 h2 => ?_⟩⟩
  · obtain ⟨i, rfl⟩ : ∃ k, i = k + 1 := ⟨i - 1, by omega⟩
    rw [xorDelta_getD _ _ _ h2]
    simp [UInt8.xor_eq_zero_iff]
  · obtain ⟨i, rfl⟩ : ∃ k, i = k + 2 := ⟨i - 2, by omega⟩
    rw [xorDelta16_getD _ _ _ _ h2]
    simp [UInt8.xor_eq_zero_iff]

/-! ### Concrete cases -/

/-- Of the bytes 7, 9, 9, 8 seen (8 last), 9 and 8 came after 7; 3 did not come, so all that came count and the three smaller ones. -/
example : rank [8, 9, 9, 7] 7 = 2 ∧ rank [8, 9, 9, 7] 8 = 0 ∧ rank [8, 9, 9, 7] 3 = 6 ∧ rank [1, 1] 3 = 3 := by decide +kernel

example : before 16 mtfSample 17 = [3] ∧ before 16 (mtfSample ++ mtfSample) 37 = [3, 9] := by decide +kernel

example : ∃ src, mmtf 16 true cpuSse41 0 0 mtfSample 20 = .ok 20 src ∧ src.length = 20 ∧ mmtf 16 false cpuAvx2 3 9 src 20 = .ok 20 mtfSample :=
  C79_mmtf_onto 16 (.inl rfl) cpuSse41 cpuAvx2 rfl rfl 0 0 3 9 mtfSample 20 20 (by decide) (by decide)

example : bitmmtf8Encode (some [5, 5, 7, 7, 7]) true 5 = .ok 5 [5, 0, 2, 0, 0] ∧ bitmmtf16Encode (some [5, 6, 5, 6, 5]) true 5 = .ok 5 [5, 6, 0, 0, 5] := by
  decide +kernel

end Hrk
