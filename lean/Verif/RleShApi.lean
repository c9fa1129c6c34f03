import Verif.PropsRleSh
import Verif.Rle8MmtfApi

/-
Guards, sizes, extents, termination of rle8_sh.
-/

namespace Hrk

theorem sh_guard {m0 inp : Mem} {n outSize ret : Nat} {out : List Byte} (ho : outSize < 4294967296)
    (hc : shCompress m0 (some inp) n true outSize = .ok ret out) :
    0 < n ∧ mmBounds n ≤ outSize ∧ shSize inp n ≤ outSize ∧ ret = shSize inp n ∧ out = shStream inp n := by
  have hg : ¬ (n = 0 ∨ true = false ∨ outSize < mmBounds n) := by
    intro h
    simp only [shCompress] at hc
    rw [if_pos h] at hc
    cases hc
  have h0 : 0 < n := by omega
  have hb : mmBounds n ≤ outSize := by omega
  rw [shCompress_eq m0 inp h0 hb ho] at hc
  by_cases hf : shSize inp n ≤ outSize
  · rw [if_pos hf] at hc
    cases hc
    exact ⟨h0, hb, hf, rfl, rfl⟩
  · rw [if_neg hf] at hc
    cases hc

/-- C22: the stream starts with the two sizes, the second of which is the return value and the number
of bytes written; decompression returns the first. -/
theorem C22_sh_header (m0 : Mem) : HeaderTruthful (shCompress m0) shDecompress := by
  refine ⟨?_, ?_⟩
  · intro inp n outSize ret out hn ho hc
    obtain ⟨_, _, _, hr, hs⟩ := sh_guard ho hc
    subst hr hs
    refine ⟨(shStream_length inp n).symm, shData inp n ++ (packs (shBitsE inp n)).reverse, ?_⟩
    unfold shStream
    rw [List.append_assoc]
  · intro a r m' h
    unfold shDecompress at h
    split at h
    · cases h
    · cases h
    · next src m h1 h2 =>
      split at h
      · cases h
      · split at h
        · cases h
        · next e r1 h3 =>
          split at h
          · cases h
          · next e2 r2 h4 =>
            split at h
            · cases h
            · split at h
              · cases h
              · split at h
                · cases h
                · split at h
                  · cases h
                  · cases h
                  · cases h
                    exact ⟨src, r1, h1, h3⟩

/-- C23: compress guards. The size asked for is that of rle8_mmtf128, not `rle8_sh_bounds`. -/
theorem C23_sh_guards (m0 : Mem) : CompressGuards mmBounds (shCompress m0) := by
  intro pIn n pOut outSize h
  cases pIn with
  | none => rfl
  | some inp =>
    simp only [shCompress]
    rw [if_pos]
    rcases h with h | h | h | h
    · cases h
    · exact .inr (.inl h)
    · exact .inl h
    · exact .inr (.inr h)

/-- C24 is false: above the limit the size check asks for 0 bytes, and the compressor starts all the
same, even with an output buffer of no bytes. -/
theorem C24_sh_violated (m0 inp : Mem) (n : Nat) (hn : 1073741824 < n) :
    mmBounds n = 0 ∧ (∀ outSize, outSize < 4294967296 → shCompress m0 (some inp) n true outSize ≠ .fail) ∧
      shCompress m0 (some inp) n true 0 = .ub := by
  have hb : mmBounds n = 0 := by unfold mmBounds; rw [if_pos hn]
  refine ⟨hb, ?_, ?_⟩
  · intro outSize ho
    rw [shCompress_eq m0 inp (by omega) (by omega) ho]
    split <;> exact fun h => by cases h
  · rw [shCompress_eq m0 inp (by omega) (by omega) (by omega), if_neg]
    unfold shSize
    omega

/-- C25: decompress guards. -/
theorem C25_sh_guards : DecompressGuards shDecompress := by
  refine ⟨?_, ?_⟩
  · intro a h
    unfold shDecompress
    split
    · rfl
    · rfl
    · next src m h1 h2 =>
      rw [if_pos]
      rcases h with h | h | h | h
      · rw [h1] at h; cases h
      · rw [h2] at h; cases h
      · exact .inl h
      · exact .inr h
  · intro a x y rest hx hy hp h
    unfold shDecompress
    simp only [hp]
    split
    · rfl
    · rfl
    · next src m h1 h2 =>
      cases h1
      split
      · rfl
      · rw [List.append_assoc]
        simp only [rdU32_le32]
        rw [Nat.mod_eq_of_lt hx, Nat.mod_eq_of_lt hy, if_pos (by omega)]

/-- C21: decompressing a compressed stream into a buffer of exactly the input's size writes nothing
outside and reads nothing outside the stream. -/
theorem C37_sh_inside (m0 : Mem) : StaysInsideExact (fun _ _ => True) (shCompress m0) shDecompress := by
  intro inp n outSize ret out h0 hn ho _ hc m a hpi hpo hcap
  by_cases h : out.length ≤ a.inSize ∧ n ≤ a.outSize
  · obtain ⟨m', h1, _⟩ := C15_roundtrip m0 inp n outSize ret out h0 (by omega) ho hc [] m a (by simpa using hpi) h.1 hpo h.2 (by omega)
    rw [h1]
    exact fun h => by cases h
  · obtain ⟨hret, body, hb⟩ := (C22_sh_header m0).1 inp n outSize ret out hn ho hc
    obtain ⟨_, _, hs, hr, _⟩ := sh_guard ho hc
    rw [C25_sh_guards.2 a n ret body hn (by omega) (by rw [hpi, hb]) (by omega)]
    exact fun h => by cases h

/-- C26: bytes behind the stream do not matter. -/
theorem C26_sh_trailing (m0 : Mem) : TrailingIgnoredExact (fun _ _ => True) (shCompress m0) shDecompress := by
  intro inp n outSize ret out h0 hn ho _ hc t m a hpo hos hcap
  obtain ⟨m₁, h1, h2, h3⟩ := C15_roundtrip m0 inp n outSize ret out h0 (by omega) ho hc [] m
    { a with pIn := some out, inSize := out.length } (by simp) (Nat.le_refl _) hpo hos hcap
  obtain ⟨m₂, h4, h5, h6⟩ := C15_roundtrip m0 inp n outSize ret out h0 (by omega) ho hc t m
    { a with pIn := some (out ++ t), inSize := out.length + t.length } (by simp) (Nat.le_add_right _ _) hpo hos hcap
  refine ⟨m₁, m₂, h1, h4, fun k => ?_⟩
  by_cases hk : k < n
  · rw [h2 k hk, h5 k hk]
  · rw [h3 k (by omega), h6 k (by omega)]

/-! ### Sizes -/

/-- Eleven bits for a byte of input and 13 bytes are enough (`C20_sh_partial` in RleShTight.lean needs less). -/
theorem shCompress_fits (m0 inp : Mem) (n outSize : Nat) (h0 : 0 < n) (hn : n ≤ maxInput)
    (hs : (11 * n + 110) / 8 ≤ outSize) (ho : outSize < 4294967296) :
    ∃ out, shCompress m0 (some inp) n true outSize = .ok out.length out ∧ out.length ≤ (11 * n + 110) / 8 := by
  unfold maxInput at hn
  have h1 := shSize_le inp (show n < 4294967296 by omega)
  have hb : mmBounds n ≤ outSize := by unfold mmBounds; rw [if_neg (by omega)]; omega
  refine ⟨shStream inp n, ?_, ?_⟩
  · rw [shCompress_eq m0 inp h0 hb ho, if_pos (by omega), shStream_length]
  · rw [shStream_length]; exact h1

/-- What the compressor returns never exceeds the buffer it was given. -/
theorem C20_sh_accepted (m0 inp : Mem) (n outSize ret : Nat) (out : List Byte) (ho : outSize < 4294967296)
    (hc : shCompress m0 (some inp) n true outSize = .ok ret out) : ret = out.length ∧ out.length ≤ outSize := by
  obtain ⟨_, _, h1, h2, h3⟩ := sh_guard ho hc
  rw [h2, h3, shStream_length]
  exact ⟨rfl, h1⟩

/-- The state after `n` bytes without repetition, and without the first run symbol. -/
theorem shLoopE_plain (inp : Mem) : ∀ n, (∀ k, k < n + 1 → inp k ≠ 0x7F) → (∀ k, k < n → inp (k + 1) ≠ inp k) →
    shLoopE inp (n + 1) = ⟨0x7F, shSt0, inp n, n + 1, 1, 0, 0, false, true, 0, []⟩ := by
  intro n
  induction n with
  | zero =>
    intro h _
    show shStepE inp 0 shInit = _
    unfold shStepE
    rw [if_neg (show ¬ inp 0 = shInit.lastRle from h 0 (by omega)), shMerge_run rfl]
    unfold shTrack
    by_cases hx : inp 0 = (0 : Byte)
    · rw [if_pos (show inp 0 = shInit.lastSym from hx), hx]
      rfl
    · rw [if_neg (show ¬ inp 0 = shInit.lastSym from hx)]
      rfl
  | succ n ih =>
    intro h h2
    rw [shLoopE, ih (fun k hk => h k (by omega)) (fun k hk => h2 k (by omega))]
    unfold shStepE
    rw [if_neg (h (n + 1) (by omega))]
    unfold shMerge
    rw [if_neg (by simp)]
    unfold shTrack
    rw [if_neg (h2 n (by omega))]
    rfl

/-- C20 is false: on every input without repetitions the stream is longer than `rle8_sh_bounds` (and
the smaller size the compressor asks for), so it writes behind a buffer of that size. The return value
is 15 bytes, from 263 bytes of input on 18 bytes more than the input. -/
theorem C20_sh_violated (m0 inp : Mem) (n : Nat) (hn7 : 7 ≤ n) (hn : n ≤ maxInput) (h1 : ∀ k, k < n → inp k ≠ 0x7F)
    (h2 : ∀ k, k + 1 < n → inp (k + 1) ≠ inp k) :
    shBounds n = n + 13 ∧ shCompress m0 (some inp) n true (n + 8) = .ub ∧
      shCompress m0 (some inp) n true (shBounds n) = .ub ∧
      ∃ out, shCompress m0 (some inp) n true (n + 18) = .ok out.length out ∧
        out.length = n + (if 262 < n then 18 else 15) := by
  unfold maxInput at hn
  have hb : mmBounds n = n + 8 := by unfold mmBounds; rw [if_neg (by omega)]
  have hsb : shBounds n = n + 13 := by unfold shBounds; omega
  obtain ⟨k, rfl⟩ : ∃ k, n = k + 1 := ⟨n - 1, by omega⟩
  have hl := shLoopE_plain inp k h1 (fun j hj => h2 j (by omega))
  have hbody : shBody inp (k + 1) = (shCopy 0x7F (rd inp 0 (k + 1)) shSt0).1 := by
    unfold shBody
    rw [hl]
    rfl
  have hsize : shSize inp (k + 1) = k + 1 + (if 262 < k + 1 then 18 else 15) := by
    unfold shSize shData shBitsE
    rw [hbody]
    unfold shCopy
    rw [rd_length]
    by_cases h : 262 < k + 1
    · rw [if_pos h, if_pos h]
      simp only [dataOf, bitsOf, List.flatMap_cons, List.flatMap_nil, ShOp.dataOf, ShOp.bitsOf, List.length_append,
        rd_length, le32_length, patBits_length, List.length_nil]
      omega
    · rw [if_neg h, if_neg h, if_pos hn7]
      simp only [dataOf, bitsOf, List.flatMap_cons, List.flatMap_nil, ShOp.dataOf, ShOp.bitsOf, List.length_append,
        rd_length, le32_length, patBits_length, List.length_nil, List.length_cons]
      omega
  have hge : k + 1 + 15 ≤ shSize inp (k + 1) := by rw [hsize]; split <;> omega
  have hle : shSize inp (k + 1) ≤ k + 1 + 18 := by rw [hsize]; split <;> omega
  refine ⟨hsb, ?_, ?_, ?_⟩
  · rw [shCompress_eq m0 inp (by omega) (by omega) (by omega), if_neg (by omega)]
  · rw [hsb, shCompress_eq m0 inp (by omega) (by omega) (by omega), if_neg (by omega)]
  · refine ⟨shStream inp (k + 1), ?_, ?_⟩
    · rw [shCompress_eq m0 inp (by omega) (by omega) (by omega), if_pos hle, shStream_length]
    · rw [shStream_length, hsize]

/-! ### What the output depends on -/

attribute [local irreducible] subU mulU shPick shCopy shRun shChange

/-- The pending bytes are inside of what has been read. -/
structure ShWithin (i : Nat) (s : ShEnc) : Prop where
  run : s.wasCopy = false → s.copy = 0 ∧ s.change = 0
  copy : s.wasCopy = true → s.start + s.copy + s.rle ≤ i ∧ s.change ≤ s.copy
  same : s.same = true → s.change = 0
  rle : s.same = false → s.wasCopy = true → s.rle = 0

theorem subU_le {a b : Nat} (h : b ≤ a) : subU a b ≤ a := by
  unfold subU
  have : (a + 18446744073709551616 - b) % 18446744073709551616 = (a - b) % 18446744073709551616 := by omega
  rw [this]
  have := Nat.mod_le (a - b) 18446744073709551616
  omega

theorem flush_within {i : Nat} {s : ShEnc} {x : Byte} {r : List ShOp × ShSt} (h : s.change = 0) : ShWithin i (s.flush x r) :=
  ⟨fun _ => ⟨rfl, h⟩, (fun h => nomatch h), fun _ => h, (fun h => nomatch h)⟩

theorem shStepE_within {inp inp' : Mem} {i : Nat} {s : ShEnc} (W : ShWithin i s) (h : ∀ j, j < i + 1 → inp j = inp' j) :
    shStepE inp i s = shStepE inp' i s ∧ ShWithin (i + 1) (shStepE inp i s) := by
  have hr : ∀ a k, a + k ≤ i → rd inp a k = rd inp' a k := fun a k hk => rd_congr fun j _ h2 => h j (by omega)
  unfold shStepE
  rw [← h i (by omega)]
  by_cases hx : inp i = s.lastRle
  · rw [if_pos hx, if_pos hx]
    by_cases hs : s.same = false
    · rw [if_pos hs, if_pos hs]
      unfold shSame1
      by_cases h10 : 10 ≤ s.change
      · rw [if_pos h10, if_pos h10]
        have hw : s.wasCopy = true := by
          cases hw : s.wasCopy with
          | true => rfl
          | false => have := (W.run hw).2; omega
        obtain ⟨w1, w2⟩ := W.copy hw
        have := subU_le w2
        rw [hr s.start _ (by omega)]
        generalize shCopy s.lastRle _ _ = r
        refine ⟨rfl, ⟨fun h => ?_, fun _ => ?_, (fun h => nomatch h), fun _ _ => rfl⟩⟩
        · have h : s.wasCopy = false := h
          rw [hw] at h; cases h
        · show s.start + s.copy + 1 + 0 ≤ i + 1 ∧ 1 ≤ 1
          omega
      · rw [if_neg h10, if_neg h10]
        refine ⟨rfl, ⟨fun h => ⟨(W.run h).1, rfl⟩, fun h => ?_, fun _ => rfl, (fun h => nomatch h)⟩⟩
        have := W.copy h
        have := W.rle hs h
        show s.start + s.copy + 1 ≤ i + 1 ∧ 0 ≤ s.copy
        omega
    · rw [if_neg hs, if_neg hs]
      have hs : s.same = true := by simpa using hs
      have hc0 := W.same hs
      have hrd : rd inp s.start s.copy = rd inp' s.start s.copy := by
        cases hw : s.wasCopy with
        | true => have := W.copy hw; exact hr _ _ (by omega)
        | false => rw [(W.run hw).1, rd_zero, rd_zero]
      have key : shSame2 inp (inp i) s = shSame2 inp' (inp i) s := by
        unfold shSame2
        rw [hrd]
      refine ⟨key, ?_⟩
      unfold shSame2
      by_cases h14 : 14 < s.rle + 1
      · rw [if_pos h14]
        exact flush_within hc0
      · rw [if_neg h14]
        refine ⟨W.run, fun h => ?_, W.same, fun h => ?_⟩
        · have := W.copy h
          show s.start + s.copy + (s.rle + 1) ≤ i + 1 ∧ s.change ≤ s.copy
          omega
        · have h : s.same = false := h
          rw [hs] at h; cases h
  · rw [if_neg hx, if_neg hx]
    by_cases hw : s.wasCopy = true
    · have hm : (shMerge s).wasCopy = true ∧ (shMerge s).start + (shMerge s).copy ≤ i ∧ (shMerge s).change ≤ (shMerge s).copy ∧
          (shMerge s).rle = 0 ∧ (shMerge s).same = false := by
        have := W.copy hw
        unfold shMerge
        by_cases hs : s.same = true
        · rw [if_pos ⟨hs, hw⟩]
          exact ⟨hw, by show s.start + (s.copy + s.rle) ≤ i; omega, by show s.change ≤ s.copy + s.rle; omega, rfl, rfl⟩
        · rw [if_neg (by rintro ⟨h, _⟩; exact hs h)]
          have hs : s.same = false := by simpa using hs
          have := W.rle hs hw
          exact ⟨hw, by omega, by omega, this, hs⟩
      generalize shMerge s = t at *
      obtain ⟨m1, m2, m3, m4, m5⟩ := hm
      have := subU_le m3
      have key : shTrack inp (inp i) t = shTrack inp' (inp i) t := by
        unfold shTrack
        rw [hr t.start _ (by omega)]
      refine ⟨by rw [key], ?_⟩
      unfold shTrack
      by_cases hl : inp i = t.lastSym
      · rw [if_pos hl]
        unfold shCount
        rw [if_neg (by show t.wasCopy ≠ false; rw [m1]; exact Bool.noConfusion)]
        refine ⟨fun h => ?_, fun _ => ?_, fun h => ?_, fun _ _ => m4⟩
        · have h : t.wasCopy = false := h
          rw [m1] at h; cases h
        · show t.start + (t.copy + 1) + t.rle ≤ i + 1 ∧ t.change + 1 ≤ t.copy + 1
          omega
        · have h : t.same = true := h
          rw [m5] at h; cases h
      · rw [if_neg hl]
        by_cases h10 : 10 ≤ t.change
        · rw [if_pos h10]
          generalize shPick _ t.lastRle _ _ = r
          unfold shCount
          rw [if_neg (by show t.wasCopy ≠ false; rw [m1]; exact Bool.noConfusion)]
          refine ⟨fun h => ?_, fun _ => ?_, fun h => ?_, fun _ _ => m4⟩
          · have h : t.wasCopy = false := h
            rw [m1] at h; cases h
          · show t.start + t.copy + (0 + 1) + t.rle ≤ i + 1 ∧ 1 ≤ 0 + 1
            omega
          · have h : t.same = true := h
            rw [m5] at h; cases h
        · rw [if_neg h10]
          unfold shCount
          rw [if_neg (by show t.wasCopy ≠ false; rw [m1]; exact Bool.noConfusion)]
          refine ⟨fun h => ?_, fun _ => ?_, fun h => ?_, fun _ _ => m4⟩
          · have h : t.wasCopy = false := h
            rw [m1] at h; cases h
          · show t.start + (t.copy + 1) + t.rle ≤ i + 1 ∧ 1 ≤ t.copy + 1
            omega
          · have h : t.same = true := h
            rw [m5] at h; cases h
    · have hw : s.wasCopy = false := by simpa using hw
      have hr := W.run hw
      rw [shMerge_run hw]
      unfold shTrack
      by_cases hl : inp i = s.lastSym
      · rw [if_pos hl, if_pos hl]
        unfold shCount
        rw [if_pos hw]
        refine ⟨rfl, ⟨(fun h => nomatch h), fun _ => ?_, (fun h => nomatch h), fun _ _ => rfl⟩⟩
        show i + 1 + 0 ≤ i + 1 ∧ s.change + 1 ≤ 1
        omega
      · rw [if_neg hl, if_neg hl, if_neg (by omega), if_neg (by omega)]
        unfold shCount
        rw [if_pos hw]
        refine ⟨rfl, ⟨(fun h => nomatch h), fun _ => ?_, (fun h => nomatch h), fun _ _ => rfl⟩⟩
        show i + 1 + 0 ≤ i + 1 ∧ 1 ≤ 1
        omega

theorem shLoopE_within {inp inp' : Mem} : ∀ n, (∀ j, j < n → inp j = inp' j) →
    shLoopE inp n = shLoopE inp' n ∧ ShWithin n (shLoopE inp n) := by
  intro n
  induction n with
  | zero =>
    intro _
    exact ⟨rfl, ⟨fun _ => ⟨rfl, rfl⟩, (fun h => nomatch h), (fun h => nomatch h), (fun _ h => nomatch h)⟩⟩
  | succ n ih =>
    intro h
    obtain ⟨h1, h2⟩ := ih (fun j hj => h j (by omega))
    rw [shLoopE, shLoopE, ← h1]
    exact shStepE_within h2 h

/-- C29: nothing behind the `n` input bytes is read. -/
theorem C29_sh_prefix (m0 : Mem) : DependsOnPrefix 0 (shCompress m0) := by
  intro inp inp' n pOut outSize h
  rw [Nat.add_zero] at h
  obtain ⟨h1, W⟩ := shLoopE_within n h
  have : shOps inp n = shOps inp' n := by
    unfold shOps
    simp only
    rw [← h1]
    by_cases hw : (shLoopE inp n).wasCopy = true
    · rw [if_pos hw, if_pos hw]
      have hm : (shMerge (shLoopE inp n)).start + (shMerge (shLoopE inp n)).copy ≤ n := by
        have := W.copy hw
        unfold shMerge
        by_cases hs : (shLoopE inp n).same = true
        · rw [if_pos ⟨hs, hw⟩]
          show (shLoopE inp n).start + ((shLoopE inp n).copy + (shLoopE inp n).rle) ≤ n
          omega
        · rw [if_neg (by rintro ⟨h, _⟩; exact hs h)]
          omega
      rw [rd_congr (m₂ := inp') fun j _ h2 => h j (by omega)]
    · rw [if_neg hw, if_neg hw]
  simp only [shCompress, this]

/-- C29: nor does the stream depend on what the output buffer held before. -/
theorem C29_sh_buffer (m0 m1 inp : Mem) (n outSize : Nat) (ho : outSize < 4294967296) :
    shCompress m0 (some inp) n true outSize = shCompress m1 (some inp) n true outSize := by
  by_cases hg : n = 0 ∨ true = false ∨ outSize < mmBounds n
  · simp only [shCompress]
    rw [if_pos hg, if_pos hg]
  · rw [shCompress_eq m0 inp (by omega) (by omega) ho, shCompress_eq m1 inp (by omega) (by omega) ho]

/-! ### Termination -/

/-- C36: neither direction hangs, whatever it is given. -/
theorem C36_sh_terminates (m0 : Mem) : Terminates (shCompress m0) shDecompress := by
  refine ⟨?_, ?_⟩
  · intro pIn n pOut outSize
    simp only [shCompress]
    split
    · exact fun h => by cases h
    · split
      · exact fun h => by cases h
      · generalize (shOps _ n).foldl _ _ = s
        by_cases hb : s.bad = true ∨ outSize < s.p + (if s.nb = 0 then s.hs - 1 else s.hs)
        · rw [if_pos hb]; exact fun h => by cases h
        · rw [if_neg hb]; exact fun h => by cases h
  · intro a
    unfold shDecompress
    split
    · exact fun h => by cases h
    · exact fun h => by cases h
    · next src m _ _ =>
      split
      · exact fun h => by cases h
      · split
        · exact fun h => by cases h
        · split
          · exact fun h => by cases h
          · next e r1 _ _ e2 r2 _ =>
            split
            · exact fun h => by cases h
            · split
              · exact fun h => by cases h
              · split
                · exact fun h => by cases h
                · next b _ =>
                  obtain ⟨x, hx⟩ := shLoop_some src a.cap ⟨⟨b.toNat, 8, e2 - 1⟩, 0x7F, shSt0, r2, 0, m⟩ (Nat.le_refl _) (8 * e2 + 1)
                    (by show 8 + 8 * (e2 - 1) < _; omega)
                  rw [hx]
                  cases x <;> exact fun h => by cases h

/-! ### Violations and examples -/

/-- A stream that claims to hold one byte and holds a run of 214. -/
def shMal : List Byte := le32 1 ++ le32 14 ++ le32 200 ++ [5] ++ [0x5F]

def shMalArgs : DArgs :=
  { pIn := some (shMal ++ List.replicate 64 0), inSize := shMal.length, pOut := some fun _ => 0, outSize := 1, cap := 129,
    aIn := 0, aOut := 0 }

/-- C28 is false: on this stream the decompressor writes 214 bytes to a buffer of 129. -/
theorem C28_sh_violated :
    ∃ (src : List Byte) (a : DArgs), a.pIn = some (src ++ List.replicate 64 0) ∧ a.inSize = src.length ∧
      a.outSize = 1 ∧ a.cap = a.outSize + 128 ∧ shDecompress a = .ub := by
  refine ⟨shMal, shMalArgs, rfl, rfl, rfl, rfl, ?_⟩
  have h : (match shDecompress shMalArgs with
    | .ub => true
    | _ => false) = true := by decide +kernel
  revert h
  cases shDecompress shMalArgs <;> simp

/-- Single symbols of all kinds, a run that changes the run symbol, a copy, a run, a short copy. -/
def shEx : Mem := fun k =>
  if k < 4 then b8 (0x7D + k) else if k < 20 then 9 else if k < 28 then b8 k else if k < 60 then 9 else b8 k

/-- The hypotheses of the round trip are met. -/
example : shCompress (fun _ => 0) (some shEx) 62 true 100 =
    .ok 35 [62, 0, 0, 0, 35, 0, 0, 0, 125, 2, 0, 0, 0, 9, 1, 20, 21, 22, 23, 24, 25, 26, 27, 18,
      60, 61, 0, 0, 0, 0, 126, 175, 63, 125, 157] := by decide +kernel

/-- `shCompress_fits` applies to it. -/
example : ∃ out, shCompress (fun _ => 0) (some shEx) 62 true 100 = .ok out.length out ∧ out.length ≤ 99 :=
  shCompress_fits _ _ 62 100 (by decide) (by decide) (by decide) (by decide)

/-- An input `C20_sh_violated` applies to. -/
example : ∃ out, shCompress (fun _ => 0) (some fun k => b8 (k % 2)) 1000 true 1018 = .ok out.length out ∧ out.length = 1018 := by
  obtain ⟨_, _, _, h⟩ := C20_sh_violated (fun _ => 0) (fun k => b8 (k % 2)) 1000 (by omega) (by decide)
    (by
      intro k hk
      show b8 (k % 2) ≠ 0x7F
      rcases Nat.mod_two_eq_zero_or_one k with h | h <;> rw [h] <;> decide)
    (by
      intro k hk
      show b8 ((k + 1) % 2) ≠ b8 (k % 2)
      rcases Nat.mod_two_eq_zero_or_one k with h | h
      · rw [h, show (k + 1) % 2 = 1 by omega]; decide
      · rw [h, show (k + 1) % 2 = 0 by omega]; decide)
  exact h

end Hrk
