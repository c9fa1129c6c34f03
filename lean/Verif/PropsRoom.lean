import Verif.Table
import Verif.RleShApi
import Verif.Rle8mApi
import Verif.Rle8MmtfBuf

/-
C50: what a compressor writes does not depend on the output buffer, and it refuses no buffer that is large enough.
-/

namespace Hrk

/-- `comp m` is the compressor when the output buffer holds `m` before the call. If it succeeds, then it writes the same into every
buffer that is at least as large, whatever that one holds. -/
def RoomIndependent (comp : Mem → Compress) : Prop :=
  ∀ (inp : Mem) (n outSize outSize' ret : Nat) (out : List Byte) (m m' : Mem), outSize ≤ outSize' → outSize' < 4294967296 →
    comp m (some inp) n true outSize = .ok ret out → comp m' (some inp) n true outSize' = .ok ret out

/-- `comp` turns a call down without a look at the input exactly if a pointer is NULL, a size is 0, or `outSize` is below `bnd`. -/
def RefusesExactly (bnd : Nat → Nat) (comp : Compress) : Prop :=
  ∀ pIn n pOut outSize, comp pIn n pOut outSize = .fail ↔ (pIn = none ∨ pOut = false ∨ n = 0 ∨ outSize < bnd n)

theorem apiCompress_room (body : Mem → Nat → Option (List Byte)) : RoomIndependent (fun _ => apiCompress body) := by
  intro inp n o o' ret out m m' ho ho' h
  simp only [apiCompress] at h ⊢
  by_cases hg : n = 0 ∨ true = false ∨ o < bounds n
  · rw [if_pos hg] at h; cases h
  rw [if_neg hg] at h
  rw [if_neg (by simp; omega)]
  cases hb : body inp n with
  | none => rw [hb] at h; cases h
  | some b =>
    rw [hb] at h
    simp only at h ⊢
    by_cases hl : (le32 n ++ le32 (8 + b.length) ++ b).length ≤ o
    · rw [if_pos hl] at h
      rw [if_pos (by omega)]
      exact h
    · rw [if_neg hl] at h; cases h

theorem apiCompress_refuses (body : Mem → Nat → Option (List Byte)) : RefusesExactly bounds (apiCompress body) := by
  intro pIn n pOut outSize
  cases pIn with
  | none => simp [apiCompress]
  | some inp =>
    simp only [apiCompress, reduceCtorEq, false_or]
    by_cases hg : n = 0 ∨ pOut = false ∨ outSize < bounds n
    · rw [if_pos hg]
      exact ⟨fun _ => by rcases hg with h | h | h <;> simp [h], fun _ => rfl⟩
    · rw [if_neg hg]
      refine ⟨fun h => ?_, fun h => absurd (by rcases h with h | h | h <;> simp [h]) hg⟩
      cases hb : body inp n with
      | none => rw [hb] at h; cases h
      | some b =>
        rw [hb] at h
        simp only at h
        split at h <;> cases h

theorem LeCfg.room (c : LeCfg) : RoomIndependent (fun _ => c.compress) := by
  intro inp n o o' ret out m m' ho ho' h
  simp only [LeCfg.compress] at h ⊢
  by_cases hg : n = 0 ∨ true = false ∨ o < leBounds n
  · rw [if_pos hg] at h; cases h
  rw [if_neg hg] at h
  rw [if_neg (by simp; omega)]
  generalize writeInfo (c.info inp n) = w at *
  by_cases h1 : o < 8
  · rw [if_pos h1] at h; cases h
  rw [if_neg h1] at h
  by_cases h2 : o < 256 / 8 + 256 + 1
  · rw [if_pos h2] at h; cases h
  rw [if_neg h2] at h
  by_cases h3 : o < 8 + w.length
  · rw [if_pos h3] at h; cases h
  rw [if_neg h3] at h
  rw [Nat.mod_eq_of_lt (show o - (8 + w.length) < 4294967296 by omega)] at h
  by_cases h4 : o - (8 + w.length) < n
  · rw [if_pos h4] at h; cases h
  rw [if_neg h4] at h
  rw [if_neg (by omega), if_neg (by omega), if_neg (by omega), Nat.mod_eq_of_lt (show o' - (8 + w.length) < 4294967296 by omega),
    if_neg (by omega)]
  cases hb : leEncode c.blk (c.info inp n) inp n with
  | none => rw [hb] at h; cases h
  | some d =>
    rw [hb] at h
    simp only at h ⊢
    by_cases hl : 8 + w.length + d.length ≤ o
    · rw [if_pos hl] at h
      rw [if_pos (by omega)]
      exact h
    · rw [if_neg hl] at h; cases h

theorem LeCfg.refuses (c : LeCfg) : RefusesExactly leBounds c.compress := by
  intro pIn n pOut outSize
  refine ⟨fun h => ?_, C23_low_entropy_guards c pIn n pOut outSize⟩
  cases pIn with
  | none => exact Or.inl rfl
  | some inp =>
    simp only [LeCfg.compress] at h
    by_cases hg : n = 0 ∨ pOut = false ∨ outSize < leBounds n
    · rcases hg with h | h | h <;> simp [h]
    · rw [if_neg hg] at h
      split at h
      · cases h
      split at h
      · cases h
      split at h
      · cases h
      split at h
      · cases h
      split at h
      · cases h
      split at h <;> cases h

theorem mm_refuses (junk : Vec) (m : Mem) : RefusesExactly mmBounds (mmCompress junk m) := by
  intro pIn n pOut outSize
  refine ⟨fun h => ?_, C23_mmtf128_guards junk m pIn n pOut outSize⟩
  cases pIn with
  | none => exact Or.inl rfl
  | some inp =>
    simp only [mmCompress] at h
    by_cases hg : n = 0 ∨ pOut = false ∨ outSize < mmBounds n
    · rcases hg with h | h | h <;> simp [h]
    · rw [if_neg hg] at h
      split at h
      · cases h
      split at h <;> cases h

theorem sh_refuses (m : Mem) : RefusesExactly mmBounds (shCompress m) := by
  intro pIn n pOut outSize
  refine ⟨fun h => ?_, C23_sh_guards m pIn n pOut outSize⟩
  cases pIn with
  | none => exact Or.inl rfl
  | some inp =>
    simp only [shCompress] at h
    by_cases hg : n = 0 ∨ pOut = false ∨ outSize < mmBounds n
    · rcases hg with h | h | h <;> simp [h]
    · rw [if_neg hg] at h
      generalize (if ((shOps inp n).foldl (ShSink.op outSize) (shSink0 m n outSize)).nb = 0 then
        ((shOps inp n).foldl (ShSink.op outSize) (shSink0 m n outSize)).hs - 1
        else ((shOps inp n).foldl (ShSink.op outSize) (shSink0 m n outSize)).hs) = hs at h
      by_cases hb : ((shOps inp n).foldl (ShSink.op outSize) (shSink0 m n outSize)).bad = true ∨
          outSize < ((shOps inp n).foldl (ShSink.op outSize) (shSink0 m n outSize)).p + hs
      · rw [if_pos hb] at h; cases h
      · rw [if_neg hb] at h; cases h

theorem mm_room (junk : Vec) : RoomIndependent (mmCompress junk) := by
  intro inp n o o' ret out m m' ho ho' h
  rw [C29_mmtf128_buffer junk m m'] at h
  simp only [mmCompress] at h ⊢
  by_cases hg : n = 0 ∨ true = false ∨ o < mmBounds n
  · rw [if_pos hg] at h; cases h
  rw [if_neg hg] at h
  rw [if_neg (by simp; omega)]
  cases hb : meLoop inp 0 (n / 16) (meInit junk m' n) with
  | none => rw [hb] at h; cases h
  | some s =>
    rw [hb] at h
    simp only at h ⊢
    by_cases hl : (meFinish s (rd inp (16 * (n / 16)) (n % 16))).1.hi ≤ o
    · rw [if_pos hl] at h
      rw [if_pos (by omega)]
      exact h
    · rw [if_neg hl] at h; cases h

theorem sh_room : RoomIndependent shCompress := by
  intro inp n o o' ret out m m' ho ho' h
  obtain ⟨h0, h1, h2, h3, h4⟩ := sh_guard (by omega) h
  rw [shCompress_eq m' inp h0 (by omega) ho', if_pos (by omega), h3, h4]

theorem mSections_room {x : LeInfo} {inp : Mem} {sz last o o' : Nat} (ho : o ≤ o') (ho' : o' < 4294967296) : ∀ cnt start index ds,
    index ≤ o → mSections x inp sz last o cnt start index = .inr ds → mSections x inp sz last o' cnt start index = .inr ds := by
  have one : ∀ start size index d, index ≤ o → mSection x inp start size index o = .ok d → mSection x inp start size index o' = .ok d := by
    intro start size index d hi h
    unfold mSection at h ⊢
    by_cases h1 : size = 0
    · rw [if_pos h1] at h; cases h
    rw [if_neg h1] at h ⊢
    rw [Nat.mod_eq_of_lt (show o - index < 4294967296 by omega)] at h
    by_cases h2 : o - index < size
    · rw [if_pos h2] at h; cases h
    rw [if_neg h2] at h
    rw [Nat.mod_eq_of_lt (show o' - index < 4294967296 by omega), if_neg (by omega)]
    cases hb : leEncode 255 x (fun k => inp (start + k)) size with
    | none => rw [hb] at h; cases h
    | some e =>
      rw [hb] at h
      simp only at h ⊢
      by_cases hl : index + e.length ≤ o
      · rw [if_pos hl] at h
        rw [if_pos (by omega)]
        exact h
      · rw [if_neg hl] at h; cases h
  intro cnt
  induction cnt with
  | zero =>
    intro start index ds hi h
    unfold mSections at h ⊢
    cases hs : mSection x inp start last index o with
    | ok d => rw [hs] at h; rw [one _ _ _ _ hi hs]; exact h
    | giveUp => rw [hs] at h; cases h
    | ub => rw [hs] at h; cases h
    | hang => rw [hs] at h; cases h
  | succ cnt ih =>
    intro start index ds hi h
    unfold mSections at h ⊢
    cases hs : mSection x inp start sz index o with
    | ok d =>
      rw [hs] at h
      rw [one _ _ _ _ hi hs]
      simp only at h ⊢
      cases hr : mSections x inp sz last o cnt (start + sz) (index + d.length) with
      | inr es => rw [hr] at h; rw [ih _ _ _ (mSection_ok hs).2.2 hr]; exact h
      | inl e => rw [hr] at h; cases h
    | giveUp => rw [hs] at h; cases h
    | ub => rw [hs] at h; cases h
    | hang => rw [hs] at h; cases h

/-! ### C50 -/

/-- C50: a compressor of the codec table writes the same into every buffer that is at least as large as one it succeeded with, whatever
the two hold. -/
theorem C50_room (f : CName) (cpu : Cpu) (junk : Vec) : RoomIndependent (f.run cpu junk) := by
  cases f with
  | r8 s p => exact apiCompress_room _
  | x S u p => exact apiCompress_room _
  | sl N S u => exact apiCompress_room _
  | sh N S u m => exact apiCompress_room _
  | x128 u p => exact apiCompress_room _
  | rsh => exact sh_room
  | mm => exact mm_room junk
  | le s o => exact LeCfg.room ⟨s, o⟩

/-- The hypothesis can be met, and the conclusion says something: 73 bytes suffice for `rle8_mmtf128_compress` to compress 60 bytes, so the
stream is the same for a buffer of a thousand bytes that holds something else. -/
example (junk : Vec) : ∃ ret out, CName.mm.run noSimd junk (fun _ => 0) (some sampleInp) 60 true 73 = .ok ret out ∧
    CName.mm.run noSimd junk (fun k => b8 k) (some sampleInp) 60 true 1000 = .ok ret out := by
  obtain ⟨out, h, _⟩ := mmCompress_fits junk (fun _ => 0) sampleInp (n := 60) (outSize := 73) (by decide) (by decide) (by decide)
  generalize out.length % 4294967296 = r at h
  exact ⟨r, out, h, C50_room .mm noSimd junk sampleInp 60 73 1000 r out (fun _ => 0) (fun k => b8 k) (by omega) (by omega) h⟩

/-- C50 for `rle8m_compress`. -/
theorem C50_rle8m_room (k : Nat) : RoomIndependent (fun _ => mCompress k) := by
  intro inp n o o' ret out m m' ho ho' h
  simp only [mCompress] at h ⊢
  by_cases hg : n = 0 ∨ true = false ∨ o < mBounds k n ∨ k = 0
  · rw [if_pos hg] at h; cases h
  rw [if_neg hg] at h
  rw [if_neg (by simp; omega)]
  generalize writeInfo (LeCfg.info ⟨false, false⟩ inp n) = w at *
  by_cases h1 : o < 12
  · rw [if_pos h1] at h; cases h
  rw [if_neg h1] at h
  by_cases h2 : o < 256 / 8 + 256 + 1
  · rw [if_pos h2] at h; cases h
  rw [if_neg h2] at h
  by_cases h3 : o < 12 + 4 * (k - 1) + w.length
  · rw [if_pos h3] at h; cases h
  rw [if_neg h3] at h
  rw [if_neg (by omega), if_neg (by omega), if_neg (by omega)]
  cases hs : mSections (LeCfg.info ⟨false, false⟩ inp n) inp (n / k) (n - n / k * (k - 1)) o (k - 1) 0 (12 + 4 * (k - 1) + w.length) with
  | inr ds =>
    rw [hs] at h
    rw [mSections_room ho ho' _ _ _ _ (by omega) hs]
    exact h
  | inl e => rw [hs] at h; cases e <;> cases h

/-- The bound each compressor compares `outSize` with (src/rle_sh.c:271, src/rle8_mmtf.c:155, src/rle8_low_entropy_cpu.c:13,
src/rleX_extreme_cpu_encode.h:16). -/
def CName.bnd : CName → Nat → Nat
  | .rsh => mmBounds
  | .mm => mmBounds
  | .le _ _ => leBounds
  | _ => bounds

/-- C50: no compressor of the codec table turns down a call for any other reason than the documented ones. -/
theorem C50_refusal (f : CName) (cpu : Cpu) (junk : Vec) (m : Mem) : RefusesExactly f.bnd (f.run cpu junk m) := by
  cases f with
  | r8 s p => exact apiCompress_refuses _
  | x S u p => exact apiCompress_refuses _
  | sl N S u => exact apiCompress_refuses _
  | sh N S u m => exact apiCompress_refuses _
  | x128 u p => exact apiCompress_refuses _
  | rsh => exact sh_refuses m
  | mm => exact mm_refuses junk m
  | le s o => exact LeCfg.refuses ⟨s, o⟩

/-- A buffer of exactly `rle_compress_bounds` bytes is not turned down, one byte less is. -/
example (cpu : Cpu) (junk : Vec) (m : Mem) : (CName.x 4 true true).run cpu junk m (some sampleInp) 60 true 253 ≠ .fail ∧
    (CName.x 4 true true).run cpu junk m (some sampleInp) 60 true 252 = .fail := by
  have h := C50_refusal (.x 4 true true) cpu junk m (some sampleInp) 60 true
  refine ⟨fun e => ?_, (h 252).mpr (by decide)⟩
  have := (h 253).mp e
  simp [CName.bnd, bounds] at this

end Hrk
