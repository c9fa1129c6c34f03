import Verif.PropsRle8Mmtf

/-
Guards, sizes, extents, termination of rle8_mmtf128.
-/

namespace Hrk

/-- C22: the stream starts with the two sizes, the second of which is the return value and the number
of bytes written; decompression returns the first. -/
theorem C22_mmtf128_header (junk : Vec) (m0 : Mem) : HeaderTruthful (mmCompress junk m0) mmDecompress := by
  refine ⟨?_, ?_⟩
  · intro inp n outSize ret out hn ho hc
    obtain ⟨h, V, t, _, _, _, hout, hol, hret⟩ := mmCompress_ok hn hc
    rw [Nat.mod_eq_of_lt (by omega)] at hret
    refine ⟨hret, V ++ [0] ++ t, ?_⟩
    rw [hret]
    exact hout
  · intro a r m' h
    unfold mmDecompress at h
    split at h
    · cases h
    · cases h
    · next src m h1 h2 =>
      split at h
      · cases h
      · split at h
        · cases h
        · next e r1 h3 =>
          split at h
          · cases h
          · next e2 r2 h4 =>
            split at h
            · cases h
            · split at h
              · cases h
              · cases h
              · cases h
                exact ⟨src, r1, h1, h3⟩

/-- C23: compress guards. -/
theorem C23_mmtf128_guards (junk : Vec) (m0 : Mem) : CompressGuards mmBounds (mmCompress junk m0) := by
  intro pIn n pOut outSize h
  cases pIn with
  | none => rfl
  | some inp =>
    simp only [mmCompress]
    rw [if_pos]
    rcases h with h | h | h | h
    · cases h
    · exact .inr (.inl h)
    · exact .inl h
    · exact .inr (.inr h)

/-- C24 is false: above the limit the bounds function says 0, and the compressor starts all the same,
even with an output buffer of no bytes. -/
theorem C24_mmtf128_violated (junk : Vec) (m0 inp : Mem) (n : Nat) (hn : 1073741824 < n) (hn2 : n < 4294967296) :
    mmBounds n = 0 ∧ (∀ outSize, mmCompress junk m0 (some inp) n true outSize ≠ .fail) ∧
      mmCompress junk m0 (some inp) n true 0 = .ub := by
  have hb : mmBounds n = 0 := by unfold mmBounds; rw [if_pos hn]
  obtain ⟨s, h1, W, X, Y, hcc, xs, H⟩ := meLoop_spec (n / 16) 0 _ _ _ _ _ _ (EInv.init junk m0 inp n) (by omega)
  rw [Nat.zero_add] at H
  obtain ⟨V, f1, f2, f3, f4, f5⟩ := meFinish_spec H (by omega) (rd inp (16 * (n / 16)) (n % 16)) (by rw [rd_length]; omega)
  refine ⟨hb, ?_, ?_⟩
  · intro outSize
    simp only [mmCompress]
    rw [if_neg (by simp [hb]; omega), h1]
    simp only
    split <;> exact fun h => by cases h
  · simp only [mmCompress]
    rw [if_neg (by simp [hb]; omega), h1]
    simp only
    rw [if_neg (by omega)]

/-- C25: decompress guards. -/
theorem C25_mmtf128_guards : DecompressGuards mmDecompress := by
  refine ⟨?_, ?_⟩
  · intro a h
    unfold mmDecompress
    split
    · rfl
    · rfl
    · next src m h1 h2 =>
      rw [if_pos]
      rcases h with h | h | h | h
      · rw [h1] at h; cases h
      · rw [h2] at h; cases h
      · exact .inl h
      · exact .inr h
  · intro a x y rest hx hy hp h
    unfold mmDecompress
    simp only [hp]
    split
    · rfl
    · rfl
    · next src m h1 h2 =>
      cases h1
      split
      · rfl
      · rw [List.append_assoc]
        simp only [rdU32_le32]
        rw [Nat.mod_eq_of_lt hx, Nat.mod_eq_of_lt hy, if_pos (by omega)]

theorem mm_whatever {junk : Vec} {m0 inp : Mem} {n outSize ret : Nat} {out : List Byte} (h0 : 0 < n) (hn : n < 4294967296)
    (ho : outSize < 4294967296) (hc : mmCompress junk m0 (some inp) n true outSize = .ok ret out) {m : Mem} {a : DArgs}
    (hpi : a.pIn = some out) (hpo : a.pOut = some m) (hcap : a.cap = n) : mmDecompress a ≠ .ub := by
  by_cases h : out.length ≤ a.inSize ∧ n ≤ a.outSize
  · obtain ⟨m', h1, _⟩ := C14_roundtrip junk m0 inp n outSize ret out h0 (by omega) ho hc [] m a (by simpa using hpi) h.1 hpo h.2
      (by omega)
    rw [h1]
    exact fun h => by cases h
  · obtain ⟨hret, body, hb⟩ := (C22_mmtf128_header junk m0).1 inp n outSize ret out hn ho hc
    obtain ⟨_, _, _, _, _, _, _, hol, _⟩ := mmCompress_ok hn hc
    rw [C25_mmtf128_guards.2 a n ret body hn (by omega) (by rw [hpi, hb]) (by omega)]
    exact fun h => by cases h

/-- C21: decompressing a compressed stream into a buffer of exactly the input's size writes nothing
outside and reads nothing behind the stream. -/
theorem C37_mmtf128_inside (junk : Vec) (m0 : Mem) : StaysInsideExact (fun _ _ => True) (mmCompress junk m0) mmDecompress := by
  intro inp n outSize ret out h0 hn ho _ hc m a hpi hpo hcap
  exact mm_whatever h0 hn ho hc hpi hpo hcap

/-- C26: bytes behind the stream do not matter. -/
theorem C26_mmtf128_trailing (junk : Vec) (m0 : Mem) :
    TrailingIgnoredExact (fun _ _ => True) (mmCompress junk m0) mmDecompress := by
  intro inp n outSize ret out h0 hn ho _ hc t m a hpo hos hcap
  obtain ⟨m₁, h1, h2, h3⟩ := C14_roundtrip junk m0 inp n outSize ret out h0 (by omega) ho hc [] m
    { a with pIn := some out, inSize := out.length } (by simp) (Nat.le_refl _) hpo hos hcap
  obtain ⟨m₂, h4, h5, h6⟩ := C14_roundtrip junk m0 inp n outSize ret out h0 (by omega) ho hc t m
    { a with pIn := some (out ++ t), inSize := out.length + t.length } (by simp) (Nat.le_add_right _ _) hpo hos hcap
  refine ⟨m₁, m₂, h1, h4, fun k => ?_⟩
  by_cases hk : k < n
  · rw [h2 k hk, h5 k hk]
  · rw [h3 k (by omega), h6 k (by omega)]

/-! ### Sizes -/

/-- C20, as far as it holds: room for 13 bytes more than the input has is enough. Missing: the 8 bytes
of `rle8_mmtf128_compress_bounds` are not, see `C20_mmtf128_violated`. -/
theorem C20_mmtf128_partial (junk : Vec) (m0 inp : Mem) (n outSize : Nat) (h0 : 0 < n) (hn : n ≤ maxInput)
    (ho : n + 13 ≤ outSize) : ∃ out, mmCompress junk m0 (some inp) n true outSize = .ok out.length out ∧ out.length ≤ n + 13 := by
  unfold maxInput at hn
  obtain ⟨out, h1, h2⟩ := mmCompress_fits junk m0 inp h0 (by omega) ho
  rw [Nat.mod_eq_of_lt (by omega)] at h1
  exact ⟨out, h1, h2⟩

theorem closeCopy_empty (b : Buf) (last pOut : Nat) (mask : Vec) (hp : pOut = last + 4) :
    (closeCopy b last pOut 0 mask).2 = last + 1 := by
  unfold closeCopy
  rw [if_pos (by omega)]
  subst hp
  split
  · split
    · rfl
    · split <;> rfl
  · rfl

/-- C20 is false: no input of less than 16 bytes fits into the `n + 8` bytes the bounds function asks
for. The compressor writes `n + 10` bytes, two of them behind the buffer. -/
theorem C20_mmtf128_violated (junk : Vec) (m0 inp : Mem) (n : Nat) (h0 : 0 < n) (hn : n < 16) :
    mmBounds n = n + 8 ∧ mmCompress junk m0 (some inp) n true (n + 8) = .ub ∧
      ∃ out, mmCompress junk m0 (some inp) n true (n + 13) = .ok out.length out ∧ out.length = n + 10 := by
  have hb : mmBounds n = n + 8 := by unfold mmBounds; rw [if_neg (by omega)]
  have hd : n / 16 = 0 := by omega
  have hm : n % 16 = n := by omega
  have hl : meLoop inp 0 (n / 16) (meInit junk m0 n) = some (meInit junk m0 n) := by rw [hd]; rfl
  have H := EInv.init junk m0 inp n
  obtain ⟨V, f1, f2, f3, f4, f5⟩ := meFinish_spec H (by omega) (rd inp (16 * (n / 16)) (n % 16)) (by rw [rd_length]; omega)
  have hlen : (meFinish (meInit junk m0 n) (rd inp (16 * (n / 16)) (n % 16))).2 = n + 10 := by
    have ht := (tail_rt H.good (HSame.refl _) (rd inp (16 * (n / 16)) (n % 16)) 0 [] (by rw [rd_length]; omega)).1
    rw [rd_length, hm] at ht
    unfold meFinish
    simp only [show (meInit junk m0 n).copying = true from rfl, if_true]
    rw [hm] at *
    rw [ht]
    have := closeCopy_empty (meInit junk m0 n).b (meInit junk m0 n).last (meInit junk m0 n).pOut (meInit junk m0 n).mask rfl
    rw [show (meInit junk m0 n).count = 0 from rfl, this]
    show 8 + 1 + 1 + n = _
    omega
  refine ⟨hb, ?_, ?_⟩
  · simp only [mmCompress]
    rw [if_neg (by simp [hb]; omega), hl]
    simp only
    rw [if_neg (by omega)]
  · obtain ⟨out, h1, h2⟩ := C20_mmtf128_partial junk m0 inp n (n + 13) h0 (by unfold maxInput; omega) (Nat.le_refl _)
    refine ⟨out, h1, ?_⟩
    simp only [mmCompress] at h1
    rw [if_neg (by simp [hb]; omega), hl] at h1
    simp only at h1
    split at h1
    · rw [CRes.ok.injEq] at h1
      rw [← h1.2, rd_length, hlen]
    · cases h1

/-! ### What the output depends on -/

theorem meLoop_congr {inp inp' : Mem} : ∀ (k i : Nat) (s : MEnc), (∀ j, j < 16 * (i + k) → inp j = inp' j) →
    meLoop inp i k s = meLoop inp' i k s
  | 0, _, _, _ => rfl
  | k + 1, i, s, h => by
    have e : rd inp (16 * i) 16 = rd inp' (16 * i) 16 := rd_congr fun j h1 h2 => h j (by omega)
    simp only [meLoop, e]
    cases mtfBlock false 1 16 s.hist (rd inp' (16 * i) 16) with
    | none => rfl
    | some p => exact meLoop_congr k (i + 1) _ (fun j hj => h j (by omega))

/-- C29: nothing behind the `n` input bytes is read. For the uninitialised register see
`C29_mmtf128_register`. -/
theorem C29_mmtf128_prefix (junk : Vec) (m0 : Mem) : DependsOnPrefix 0 (mmCompress junk m0) := by
  intro inp inp' n pOut outSize h
  rw [Nat.add_zero] at h
  have e : rd inp (16 * (n / 16)) (n % 16) = rd inp' (16 * (n / 16)) (n % 16) := rd_congr fun j h1 h2 => h j (by omega)
  simp only [mmCompress, e]
  rw [meLoop_congr (n / 16) 0 _ (fun j hj => h j (by omega))]

/-! ### Termination -/

theorem dcGroup_src {cap g d : Nat} {unp : List Byte → List Byte} {s s' : MDec} (h : dcGroup cap g d unp s = some s') :
    s'.src.length ≤ s.src.length := by
  unfold dcGroup at h
  cases h1 : takeN d s.src with
  | none => rw [h1] at h; cases h
  | some p =>
    rw [h1] at h
    simp only at h
    have hp : p.2.length ≤ s.src.length := by
      unfold takeN at h1
      split at h1
      · cases h1; simp
      · cases h1
    cases h2 : decBlocks s.h (blocks16 g (unp p.1)) with
    | none => rw [h2] at h; cases h
    | some q =>
      rw [h2] at h
      simp only [MDec.store] at h
      split at h
      · cases h; exact hp
      · cases h

theorem dcWhile_src {cap g d : Nat} {unp : List Byte → List Byte} : ∀ (fuel c : Nat) (s : MDec) (c' : Nat) (s' : MDec),
    dcWhile cap g d unp fuel c s = some (c', s') → s'.src.length ≤ s.src.length
  | 0, c, s, c', s', h => by
    rw [dcWhile] at h; cases h; exact Nat.le_refl _
  | fuel + 1, c, s, c', s', h => by
    rw [dcWhile] at h
    by_cases hg : g ≤ c
    · rw [if_pos hg] at h
      cases h1 : dcGroup cap g d unp s with
      | none => rw [h1] at h; cases h
      | some s1 =>
        rw [h1] at h
        exact Nat.le_trans (dcWhile_src fuel _ _ _ _ h) (dcGroup_src h1)
    · rw [if_neg hg] at h
      cases h; exact Nat.le_refl _

theorem dcWhile_map_src {cap g d c : Nat} {unp : List Byte → List Byte} {s s' : MDec}
    (h : (dcWhile cap g d unp c c s).map (·.2) = some s') : s'.src.length ≤ s.src.length := by
  cases h1 : dcWhile cap g d unp c c s with
  | none => rw [h1] at h; cases h
  | some p =>
    rw [h1] at h
    cases h
    exact dcWhile_src c c s p.1 p.2 h1

theorem dcCopy_src {cap : Nat} {mode : Byte} {c : Nat} {s s' : MDec} (h : dcCopy cap mode c s = some s') :
    s'.src.length ≤ s.src.length := by
  unfold dcCopy at h
  by_cases h0 : mode &&& 6 = 0
  · rw [if_pos h0] at h
    exact dcWhile_map_src h
  · rw [if_neg h0] at h
    by_cases h6 : mode &&& 6 = 6
    · rw [if_pos h6] at h
      cases h1 : dcWhile cap 4 16 unpack2x4 c c s with
      | none => rw [h1] at h; cases h
      | some p =>
        rw [h1] at h
        exact Nat.le_trans (dcWhile_map_src h) (dcWhile_src c c s p.1 p.2 h1)
    · rw [if_neg h6] at h
      by_cases h4 : mode &&& 6 = 4
      · rw [if_pos h4] at h
        cases h1 : dcWhile cap 6 36 unpack3x6 c c s with
        | none => rw [h1] at h; cases h
        | some p =>
          rw [h1] at h
          exact Nat.le_trans (dcWhile_map_src h) (dcWhile_src c c s p.1 p.2 h1)
      · rw [if_neg h4] at h
        cases h1 : dcWhile cap 2 16 unpack4x2 c c s with
        | none => rw [h1] at h; cases h
        | some p =>
          rw [h1] at h
          simp only at h
          have h2 := dcWhile_src c c s p.1 p.2 h1
          split at h
          · cases h; exact h2
          · exact Nat.le_trans (dcGroup_src h) h2

theorem rdU32_len {src r : List Byte} {v : Nat} (h : rdU32 src = some (v, r)) : r.length + 4 = src.length := by
  match src, h with
  | a :: b :: c :: d :: r', h =>
    simp only [rdU32, Option.some.injEq, Prod.mk.injEq] at h
    rw [← h.2]
    rfl

/-- Every section takes at least one byte. -/
theorem dcStep_src (cap e : Nat) (s : MDec) : Post (dcStep cap e s) (fun s' => True ∧ s'.src.length < s.src.length) (fun _ => True) := by
  unfold dcStep
  by_cases hr : s.rle = false
  · rw [if_pos hr]
    cases hs : s.src with
    | nil => trivial
    | cons mode r =>
      simp only
      by_cases hm : mode.toNat % 2 = 1
      · rw [if_pos hm]
        cases hv : rdU32 (mode :: r) with
        | none => trivial
        | some p =>
          simp only
          have := rdU32_len hv
          cases hc : dcCopy cap mode (p.1 >>> 3) { s with src := p.2 } with
          | none => trivial
          | some s' =>
            have h2 := dcCopy_src hc
            simp only [Post_inl, true_and]
            simp only at h2
            omega
      · rw [if_neg hm]
        cases hc : dcCopy cap mode (mode.toNat >>> 3) { s with src := r } with
        | none => trivial
        | some s' =>
          have h2 := dcCopy_src hc
          simp only [Post_inl, true_and, List.length_cons]
          simp only at h2
          omega
  · rw [if_neg hr]
    cases hs : s.src with
    | nil => trivial
    | cons last r =>
      simp only
      have key : ∀ p : Nat × List Byte, (if last.toNat % 2 = 1 then (rdU32 (last :: r)).map fun p => (p.1 >>> 1, p.2)
          else some (last.toNat >>> 1, r)) = some p → p.2.length < (last :: r).length := by
        intro p hp
        split at hp
        · cases hv : rdU32 (last :: r) with
          | none => rw [hv] at hp; cases hp
          | some q =>
            rw [hv] at hp
            cases hp
            have := rdU32_len hv
            simp only
            omega
        · cases hp; simp
      generalize (if last.toNat % 2 = 1 then (rdU32 (last :: r)).map fun p => (p.1 >>> 1, p.2)
          else some (last.toNat >>> 1, r)) = z at *
      cases z with
      | none => trivial
      | some p =>
        have hp := key p rfl
        simp only
        by_cases hc : p.1 = 0
        · rw [if_pos hc]
          by_cases h1 : e < s.o
          · rw [if_pos h1]; trivial
          · rw [if_neg h1]
            cases dcTail s.h (e - s.o) 0 p.2 with
            | none => trivial
            | some t =>
              simp only
              split <;> trivial
        · rw [if_neg hc]
          cases hp2 : p.2 with
          | nil => trivial
          | cons sym r2 =>
            rw [hp2] at hp
            simp only [MDec.store]
            split
            · trivial
            · next s' hs' =>
              split at hs'
              · cases hs'
                simp only [Post_inl, true_and]
                simp only [List.length_cons] at hp ⊢
                omega
              · cases hs'

/-- C36: neither direction hangs, whatever it is given. -/
theorem C36_mmtf128_terminates (junk : Vec) (m0 : Mem) : Terminates (mmCompress junk m0) mmDecompress := by
  refine ⟨?_, ?_⟩
  · intro pIn n pOut outSize
    simp only [mmCompress]
    split
    · exact fun h => by cases h
    · split
      · exact fun h => by cases h
      · split
        · exact fun h => by cases h
        · split <;> exact fun h => by cases h
  · intro a
    unfold mmDecompress
    split
    · exact fun h => by cases h
    · exact fun h => by cases h
    · next src m _ _ =>
      split
      · exact fun h => by cases h
      · split
        · exact fun h => by cases h
        · split
          · exact fun h => by cases h
          · next e r1 _ _ e2 r2 _ =>
            split
            · exact fun h => by cases h
            · obtain ⟨x, hx, _⟩ := loop_rule (body := dcStep a.cap e) (fun _ => True) (fun _ => True) (fun s => s.src.length)
                (fun s _ => dcStep_src a.cap e s) (r2.length + 1) ⟨false, fun r => vset1 (b8 r), r2, 0, m⟩ trivial
                (Nat.lt_succ_self _)
              rw [hx]
              cases x <;> exact fun h => by cases h

/-! ### Violations and examples -/

/-- The first block holds the values 0 and 1. -/
def regInp : Mem := fun k => b8 (k % 2)

/-- C29 is false if one counts the uninitialised register as not part of the input: the same 16 bytes
give 14 bytes or 26 bytes, depending on what the register held. -/
theorem C29_mmtf128_register_violated :
    mmCompress (vset1 0) (fun _ => 0) (some regInp) 16 true 64 =
      .ok 14 ([16, 0, 0, 0, 14, 0, 0, 0, 14] ++ [0, 0x55, 0, 0x55] ++ [0]) ∧
    mmCompress (vset1 255) (fun _ => 0) (some regInp) 16 true 64 =
      .ok 26 ([16, 0, 0, 0, 26, 0, 0, 0, 8] ++ [0, 1, 0, 1, 0, 1, 0, 1, 0, 1, 0, 1, 0, 1, 0, 1] ++ [0]) := by
  constructor <;> decide +kernel

/-- An empty copy section, then ten repeated blocks, in a stream that claims to hold one byte. -/
def mmMal : List Byte := le32 1 ++ le32 12 ++ [0, 20, 0, 0]

def mmMalArgs : DArgs :=
  { pIn := some (mmMal ++ List.replicate 64 0), inSize := mmMal.length, pOut := some fun _ => 0, outSize := 1, cap := 129,
    aIn := 0, aOut := 0 }

/-- C28 is false: on this stream the decompressor writes 160 bytes to a buffer of 129. -/
theorem C28_mmtf128_violated :
    ∃ (src : List Byte) (a : DArgs), a.pIn = some (src ++ List.replicate 64 0) ∧ a.inSize = src.length ∧
      a.outSize = 1 ∧ a.cap = a.outSize + 128 ∧ mmDecompress a = .ub := by
  refine ⟨mmMal, mmMalArgs, rfl, rfl, rfl, rfl, ?_⟩
  have h : (match mmDecompress mmMalArgs with
    | .ub => true
    | _ => false) = true := by decide +kernel
  revert h
  cases mmDecompress mmMalArgs <;> simp

/-- Four blocks that repeat, two blocks with five values, three blocks that repeat, six more bytes. -/
def mmEx : Mem := fun k => if k < 64 then 7 else if k < 96 then b8 (k % 5) else 9

/-- The hypotheses of the round trip are met: all kinds of sections, packed to three bits. -/
example : mmCompress (vset1 0) (fun _ => 0) (some mmEx) 150 true 163 =
    .ok 40 ([150, 0, 0, 0, 40, 0, 0, 0, 6, 2, 7, 0, 6, 0, 20, 107, 173, 140, 49, 49, 198, 148, 82, 231, 156, 24, 99, 2, 9, 0, 4,
      0, 0, 0, 0, 0, 0, 0, 0, 0]) := by decide +kernel

/-- `C20_mmtf128_partial` applies to it. -/
example : ∃ out, mmCompress (vset1 0) (fun _ => 0) (some mmEx) 150 true 163 = .ok out.length out ∧ out.length ≤ 163 :=
  C20_mmtf128_partial _ _ _ 150 163 (by decide) (by decide) (by decide)

end Hrk
