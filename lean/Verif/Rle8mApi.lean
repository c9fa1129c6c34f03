import Verif.PropsRle8m
import Verif.LowEntropySize

/-
Headers, argument checks, extents and termination of `rle8m`, and the ways it fails.
-/

namespace Hrk

/-! ### C22, C23, C25 -/

/-- C22: `rle8m` stores the compressed and the uncompressed size and returns them. -/
theorem C22_rle8m_header (k : Nat) (cpu : Cpu) : HeaderTruthfulRev (mCompress k) (mDecompress cpu) := by
  refine ⟨?_, ?_⟩
  · intro inp n outSize ret out hn ho hc
    obtain ⟨hk0, x, w, ds, hx, hw, hs, hle, hret, hout⟩ := mCompress_ok hc
    have hl : out.length = 12 + 4 * (k - 1) + w.length + ds.flatten.length := by
      rw [hout]
      simp only [List.length_append, le32_length, mOffsets_length, hs.length]
      omega
    rw [Nat.mod_eq_of_lt (by omega)] at hret
    refine ⟨by omega, le32 k ++ (mOffsets (12 + 4 * (k - 1) + w.length) ds ++ (w ++ ds.flatten)), ?_⟩
    rw [hret, hout]
    simp only [List.append_assoc]
  · intro a r m' h
    simp only [mDecompress] at h
    split at h
    · cases h
    · cases h
    next src m hpi hpo =>
    split at h
    · cases h
    split at h
    · cases h
    next x rest hx =>
    split at h
    · cases h
    next y rest' hy =>
    split at h
    · cases h
    split at h
    · cases h
    split at h
    · cases h
    split at h
    · cases h
    split at h
    · cases h
    split at h
    · cases h
    · cases h
    · cases h
      exact ⟨src, rest, rest', x, hpi, hx, hy⟩

/-- `rle8_low_entropy_decompressed_size` (src/rle8_low_entropy_cpu.c:93-99); `none`: read behind the readable bytes. -/
def leDecompressedSize (pIn : Option (List Byte)) (inSize : Nat) : Option Nat :=
  match pIn with
  | none => some 0
  | some src => if inSize < 8 then some 0 else u32At src 4

/-- C22: `rle8_low_entropy_decompressed_size` tells the number of bytes to expect, for the streams of all low entropy compressors and of
`rle8m_compress`, and returns 0 for NULL and for fewer than 8 bytes. -/
theorem C22_decompressed_size (comp : Compress) (cpu : Cpu)
    (hcomp : (∃ c : LeCfg, comp = c.compress) ∨ ∃ k, comp = mCompress k)
    (inp : Mem) (n outSize ret : Nat) (out tail : List Byte) (hn : n < 4294967296) (ho : outSize < 4294967296)
    (hc : comp (some inp) n true outSize = .ok ret out) (inSize : Nat) :
    (8 ≤ inSize → leDecompressedSize (some (out ++ tail)) inSize = some n) ∧
    (inSize < 8 → leDecompressedSize (some (out ++ tail)) inSize = some 0) ∧ leDecompressedSize none inSize = some 0 := by
  have key : ∃ body, out = le32 ret ++ le32 n ++ body := by
    rcases hcomp with ⟨c, rfl⟩ | ⟨k, rfl⟩
    · exact ((C22_low_entropy_header c cpu).1 inp n outSize ret out hn ho hc).2
    · exact ((C22_rle8m_header k cpu).1 inp n outSize ret out hn ho hc).2
  obtain ⟨body, rfl⟩ := key
  refine ⟨?_, ?_, rfl⟩
  · intro h
    simp only [leDecompressedSize]
    rw [if_neg (by omega)]
    unfold u32At
    have : (le32 ret ++ le32 n ++ body ++ tail).drop 4 = le32 n ++ (body ++ tail) := by
      rw [show 4 = (le32 ret).length from rfl, List.append_assoc, List.append_assoc, List.drop_left]
    rw [this, rdU32_le32, Option.map_some, Nat.mod_eq_of_lt hn]
  · intro h
    simp only [leDecompressedSize]
    rw [if_pos h]

/-- C23: NULL pointers, an empty input, an output buffer below `rle8m_compress_bounds` and 0 sub-sections are refused. -/
theorem C23_rle8m_guards (k : Nat) :
    CompressGuards (mBounds k) (mCompress k) ∧ ∀ pIn n pOut outSize, mCompress 0 pIn n pOut outSize = .fail := by
  refine ⟨?_, ?_⟩
  · intro pIn n pOut outSize h
    cases pIn with
    | none => rfl
    | some inp =>
      simp only [mCompress]
      rw [if_pos]
      rcases h with h | h | h | h
      · cases h
      · exact Or.inr (Or.inl h)
      · exact Or.inl h
      · exact Or.inr (Or.inr (Or.inl h))
  · intro pIn n pOut outSize
    cases pIn with
    | none => rfl
    | some inp =>
      simp only [mCompress]
      rw [if_pos (Or.inr (Or.inr (Or.inr trivial)))]

example : mCompress 2 (some fun _ => 0) 10 true 314 = .fail := rfl

/-- C25: also a stream that claims to have 0 sub-sections is refused. -/
theorem C25_rle8m_guards (cpu : Cpu) :
    DecompressGuardsRev (mDecompress cpu) ∧
      ∀ a x y rest, x < 4294967296 → y < 4294967296 → a.pIn = some (le32 y ++ le32 x ++ le32 0 ++ rest) →
        mDecompress cpu a = .fail := by
  refine ⟨⟨?_, ?_⟩, ?_⟩
  · intro a h
    simp only [mDecompress]
    split
    · rfl
    · rfl
    next src m hpi hpo =>
    rw [if_pos]
    rcases h with h | h | h | h
    · rw [hpi] at h; cases h
    · rw [hpo] at h; cases h
    · exact Or.inl h
    · exact Or.inr h
  · intro a x y rest hx hy hpi h
    simp only [mDecompress, hpi]
    split
    · next h => cases h
    · rfl
    next src m hs hpo =>
    cases hs
    by_cases h0 : a.inSize = 0 ∨ a.outSize = 0
    · rw [if_pos h0]
    · rw [if_neg h0]
      simp only [List.append_assoc, rdU32_le32]
      rw [Nat.mod_eq_of_lt hx, Nat.mod_eq_of_lt hy, if_pos (by omega)]
  · intro a x y rest hx hy hpi
    simp only [mDecompress, hpi]
    split
    · next h => cases h
    · rfl
    next src m hs hpo =>
    cases hs
    by_cases h0 : a.inSize = 0 ∨ a.outSize = 0
    · rw [if_pos h0]
    · rw [if_neg h0]
      simp only [List.append_assoc, rdU32_le32]
      split
      · rfl
      · rfl

/-! ### C20 -/

theorem mSection_total (x : LeInfo) (hx : ∃ cnt : Byte → Nat, ∀ c, c < 256 → cnt (x.byProb.getD c 0) = c) (inp : Mem)
    (start size : Nat) : ∃ d, leEncode 255 x (fun k => inp (start + k)) size = some d ∧ d.length ≤ 2 * size := by
  obtain ⟨cnt, hc⟩ := hx
  obtain ⟨d, hd, _⟩ := leEncode_spec (cnt := cnt) (mx := 254) (x := x) (inp := fun k => inp (start + k)) (n := size)
    (blk := 255) (by omega) (by omega) (by omega) hc
  exact ⟨d, hd, leEncode_length (by omega) (by omega) hd⟩

theorem mSections_big {x : LeInfo} (hx : ∃ cnt : Byte → Nat, ∀ c, c < 256 → cnt (x.byProb.getD c 0) = c) {inp : Mem}
    {sz last outSize : Nat} (hsz : 0 < sz) (hl : 0 < last) (ho : outSize < 4294967296) : ∀ cnt start index,
    index + 2 * (cnt * sz + last) ≤ outSize →
    ∃ ds, mSections x inp sz last outSize cnt start index = .inr ds ∧ ds.flatten.length ≤ 2 * (cnt * sz + last) := by
  intro cnt
  induction cnt with
  | zero =>
    intro start index h
    obtain ⟨d, hd, hdl⟩ := mSection_total x hx inp start last
    refine ⟨[d], ?_, by simp; omega⟩
    unfold mSections mSection
    rw [if_neg (by omega), if_neg (by rw [Nat.mod_eq_of_lt (by omega)]; omega), hd]
    simp only
    rw [if_pos (by omega)]
  | succ cnt ih =>
    intro start index h
    have hmul : (cnt + 1) * sz = cnt * sz + sz := Nat.succ_mul _ _
    obtain ⟨d, hd, hdl⟩ := mSection_total x hx inp start sz
    obtain ⟨ds, h1, h2⟩ := ih (start + sz) (index + d.length) (by omega)
    refine ⟨d :: ds, ?_, by rw [List.flatten_cons, List.length_append]; omega⟩
    unfold mSections mSection
    rw [if_neg (by omega), if_neg (by rw [Nat.mod_eq_of_lt (by omega)]; omega), hd]
    simp only
    rw [if_pos (by omega)]
    simp only [h1]

/-- C20 for `rle8m_compress`: with room for two bytes per input byte (and the header) compression succeeds and nothing is written out of
bounds. Missing: the advertised bound, which is too small (`C20_rle8m_violated`). -/
theorem C20_rle8m_partial (k : Nat) (inp : Mem) (n outSize : Nat) (hk : 0 < k) (hkn : k ≤ n)
    (h1 : 2 * n + 4 * k + 300 ≤ outSize) (h2 : outSize < 4294967296) :
    ∃ out, mCompress k (some inp) n true outSize = .ok out.length out ∧ out.length ≤ outSize := by
  obtain ⟨y, _, _, hy3⟩ := C34_info_roundtrip ⟨false, false⟩ inp n []
  have hw : (writeInfo (LeCfg.info ⟨false, false⟩ inp n)).length ≤ 288 := by
    rw [LeCfg.info_eq, writeInfo_length]
    have := written_lt (tally (LeCfg.blk ⟨false, false⟩) inp n).pcount
      (if LeCfg.onlyMax ⟨false, false⟩ then flagMax (tally (LeCfg.blk ⟨false, false⟩) inp n)
        else flagAll (tally (LeCfg.blk ⟨false, false⟩) inp n))
    omega
  have hdiv : n / k * (k - 1) + n / k ≤ n := by
    have := Nat.div_mul_le_self n k
    have h3 : n / k * k = n / k * (k - 1) + n / k := by
      obtain ⟨j, rfl⟩ : ∃ j, k = j + 1 := ⟨k - 1, by omega⟩
      rw [Nat.mul_succ, Nat.add_sub_cancel]
    omega
  have hpos : 0 < n / k := Nat.div_pos hkn hk
  have hcomm : (k - 1) * (n / k) = n / k * (k - 1) := Nat.mul_comm _ _
  obtain ⟨ds, h3, h4⟩ := mSections_big (inp := inp) ⟨y.toCount, hy3⟩ (sz := n / k) (last := n - n / k * (k - 1)) (outSize := outSize) hpos
    (by omega) h2 (k - 1) 0 (12 + 4 * (k - 1) + (writeInfo (LeCfg.info ⟨false, false⟩ inp n)).length) (by omega)
  have hbd : mBounds k n ≤ n + 297 + 4 * k := by
    unfold mBounds
    have := Nat.mod_le (2 + k) 4294967296
    exact Nat.le_trans (Nat.mod_le _ _) (by omega)
  have hs := (mSections_ok _ _ _ _ h3).1.length
  simp only [mCompress]
  generalize LeCfg.info ⟨false, false⟩ inp n = x at *
  obtain ⟨out, hout⟩ : ∃ out, out = le32 (12 + 4 * (k - 1) + (writeInfo x).length + ds.flatten.length) ++ le32 n ++ le32 k ++
        mOffsets (12 + 4 * (k - 1) + (writeInfo x).length) ds ++ writeInfo x ++ ds.flatten := ⟨_, rfl⟩
  have hl : out.length = 12 + 4 * (k - 1) + (writeInfo x).length + ds.flatten.length := by
    rw [hout]
    simp only [List.length_append, le32_length, mOffsets_length, hs]
    omega
  refine ⟨out, ?_, by omega⟩
  rw [if_neg (by simp; omega), if_neg (by omega), if_neg (by omega), if_neg (by omega), h3]
  simp only
  rw [← hout, ← hl, Nat.mod_eq_of_lt (by omega)]

example : ∃ out, mCompress 3 (some sampleInp) 60 true 500 = .ok out.length out ∧ out.length ≤ 500 :=
  C20_rle8m_partial 3 sampleInp 60 500 (by omega) (by omega) (by omega) (by omega)

/-- The hypotheses of `C09_roundtrip_partial` can be met: `sampleInp` does not contain the byte 8. -/
example : (∃ ret out, mCompress 3 (some sampleInp) 60 true 500 = .ok ret out) ∧ ∃ v, ∀ j, j < 60 → sampleInp j ≠ v := by
  refine ⟨?_, 8, by decide +kernel⟩
  obtain ⟨out, h, _⟩ := C20_rle8m_partial 3 sampleInp 60 500 (by omega) (by omega) (by omega) (by omega)
  exact ⟨_, out, h⟩

/-- C20 is false for `rle8m_compress`. Given a buffer of exactly `rle8m_compress_bounds(1, 257)` = 558 bytes it writes 559; and with
2^30 sub-sections the computation of the bound wraps around, so that a buffer of 298 bytes is accepted and written past its end. -/
theorem C20_rle8m_violated :
    (mBounds 1 257 = 558 ∧ mCompress 1 (some ascInp) 257 true 558 = .ub ∧
      ∃ ret out, mCompress 1 (some ascInp) 257 true 1000 = .ok ret out ∧ out.length = 559) ∧
    (mBounds 1073741824 1 = 298 ∧ ∀ inp, mCompress 1073741824 (some inp) 1 true 298 = .ub) := by
  have hw := asc_info false
  obtain ⟨y, _, _, hy3⟩ := C34_info_roundtrip ⟨false, false⟩ ascInp 257 []
  obtain ⟨d, hd, _⟩ := leEncode_spec (cnt := y.toCount) (mx := 254) (x := LeCfg.info ⟨false, false⟩ ascInp 257)
    (inp := ascInp) (n := 257) (blk := 255) (by omega) (by omega) (by omega) hy3
  have hdl := leEncode_len hd (asc_flags false) (asc_len false)
  have hd' : leEncode 255 (LeCfg.info ⟨false, false⟩ ascInp 257) (fun k => ascInp (0 + k)) 257 = some d := by
    simpa only [Nat.zero_add] using hd
  refine ⟨⟨rfl, ?_, ?_⟩, rfl, ?_⟩
  · simp only [mCompress]
    generalize LeCfg.info ⟨false, false⟩ ascInp 257 = x at *
    rw [if_neg (by decide), if_neg (by decide), if_neg (by decide), if_neg (by omega), show 257 - 257 / 1 * (1 - 1) = 257 from rfl,
      show 1 - 1 = 0 from rfl, mSections, mSection, if_neg (by decide), if_neg (by omega), hd']
    simp only
    rw [if_neg (by omega)]
  · simp only [mCompress]
    generalize LeCfg.info ⟨false, false⟩ ascInp 257 = x at *
    rw [if_neg (by decide), if_neg (by decide), if_neg (by decide), if_neg (by omega), show 257 - 257 / 1 * (1 - 1) = 257 from rfl,
      show 1 - 1 = 0 from rfl, mSections, mSection, if_neg (by decide), if_neg (by omega), hd']
    simp only
    rw [if_pos (by omega)]
    refine ⟨_, _, rfl, ?_⟩
    simp only [List.length_append, le32_length, mOffsets, List.flatten_cons, List.flatten_nil, List.length_nil, hw, hdl]
  · intro inp
    simp only [mCompress]
    rw [if_neg (by decide), if_neg (by decide), if_neg (by decide), if_pos (by omega)]

/-! ### C21 -/

/-- C21 for `rle8m_decompress`: no slack is needed, neither for reading nor for writing, if `inSize` is not larger than the stream.
Missing: inputs with 256 run symbols. -/
theorem C37_rle8m_inside_partial (cpu : Cpu) (k : Nat) (hk : k < 4294967296) (inp : Mem) (n outSize ret : Nat) (out : List Byte)
    (hn : 0 < n) (hn2 : n < 4294967296) (ho : outSize < 4294967296) (h256 : LeCfg.notAll ⟨false, false⟩ inp n)
    (hc : mCompress k (some inp) n true outSize = .ok ret out) (m : Mem) (a : DArgs) (hpi : a.pIn = some out)
    (hin : a.inSize ≤ out.length) (hpo : a.pOut = some m) (hcap : a.cap = n) : mDecompress cpu a ≠ .ub := by
  by_cases h : a.inSize = out.length ∧ n ≤ a.outSize
  · obtain ⟨m', h1, _⟩ := C09_roundtrip_partial cpu k hk inp n outSize ret out hn hn2 ho hc (Or.inr h256) [] m a (by simpa using hpi)
      h.1 hpo h.2 (by omega)
    rw [h1]
    exact fun h => by cases h
  · obtain ⟨hret, body, hb⟩ := (C22_rle8m_header k cpu).1 inp n outSize ret out hn2 ho hc
    have hlt : out.length < 4294967296 := by
      obtain ⟨_, x, w, ds, _, _, hs, hle, hr, _⟩ := mCompress_ok hc
      rw [Nat.mod_eq_of_lt (by omega)] at hr
      omega
    have := (C25_rle8m_guards cpu).1.2 a n ret body hn2 (by omega) (by rw [hpi]; exact congrArg some hb) (by omega)
    rw [this]
    exact fun h => by cases h

/-! ### C29 -/

theorem mSections_congr {x : LeInfo} {inp inp' : Mem} {sz last outSize n : Nat} (h : ∀ k, k < n → inp k = inp' k) :
    ∀ cnt start index, start + (cnt * sz + last) ≤ n →
    mSections x inp sz last outSize cnt start index = mSections x inp' sz last outSize cnt start index := by
  have key : ∀ start size index, start + size ≤ n → mSection x inp start size index outSize = mSection x inp' start size index outSize := by
    intro start size index hs
    unfold mSection
    rw [leEncode_congr (inp' := fun k => inp' (start + k)) (by omega) (fun k hk => h _ (by omega))]
  intro cnt
  induction cnt with
  | zero =>
    intro start index hs
    rw [mSections, mSections, key _ _ _ (by omega)]
  | succ cnt ih =>
    intro start index hs
    have hmul : (cnt + 1) * sz = cnt * sz + sz := Nat.succ_mul _ _
    rw [mSections, mSections, key _ _ _ (by omega)]
    split
    · rw [ih _ _ (by omega)]
    · rfl

/-- C29: only the first `n` bytes at `pIn` influence the stream. -/
theorem C29_rle8m_prefix (k : Nat) : DependsOnPrefix 0 (mCompress k) := by
  intro inp inp' n pOut outSize h
  rw [Nat.add_zero] at h
  by_cases hn : n = 0
  · subst hn
    simp [mCompress]
  · by_cases hk : k = 0
    · subst hk
      simp [mCompress]
    have h1 : LeCfg.info ⟨false, false⟩ inp n = LeCfg.info ⟨false, false⟩ inp' n := by
      rw [LeCfg.info_eq, LeCfg.info_eq, tally_congr (by omega) (fun k hk => h k hk)]
    have hdiv : n / k * (k - 1) ≤ n := Nat.le_trans (Nat.mul_le_mul_left _ (by omega)) (Nat.div_mul_le_self n k)
    have hcomm : (k - 1) * (n / k) = n / k * (k - 1) := Nat.mul_comm _ _
    simp only [mCompress]
    rw [h1, mSections_congr (inp' := inp') h _ _ _ (by omega)]

/-! ### C36 -/

theorem mSections_term {x : LeInfo} (hx : ∃ cnt : Byte → Nat, ∀ c, c < 256 → cnt (x.byProb.getD c 0) = c) {inp : Mem}
    {sz last outSize : Nat} : ∀ cnt start index r, mSections x inp sz last outSize cnt start index = .inl r → r = .giveUp ∨ r = .ub := by
  have key : ∀ start size index, (∃ d, mSection x inp start size index outSize = .ok d) ∨
      mSection x inp start size index outSize = .giveUp ∨ mSection x inp start size index outSize = .ub := by
    intro start size index
    obtain ⟨d, hd, _⟩ := mSection_total x hx inp start size
    unfold mSection
    rw [hd]
    by_cases h1 : size = 0
    · rw [if_pos h1]; exact Or.inr (Or.inl rfl)
    · rw [if_neg h1]
      by_cases h2 : (outSize - index) % 4294967296 < size
      · rw [if_pos h2]; exact Or.inr (Or.inl rfl)
      · rw [if_neg h2]
        simp only
        by_cases h3 : index + d.length ≤ outSize
        · rw [if_pos h3]; exact Or.inl ⟨d, rfl⟩
        · rw [if_neg h3]; exact Or.inr (Or.inr rfl)
  intro cnt
  induction cnt with
  | zero =>
    intro start index r h
    rw [mSections] at h
    rcases key start last index with ⟨d, hd⟩ | hd | hd <;> rw [hd] at h
    · cases h
    · cases h; exact Or.inl rfl
    · cases h; exact Or.inr rfl
  | succ cnt ih =>
    intro start index r h
    rw [mSections] at h
    rcases key start sz index with ⟨d, hd⟩ | hd | hd <;> rw [hd] at h
    · simp only at h
      split at h
      · cases h
      · next e he => cases h; exact ih _ _ _ he
    · cases h; exact Or.inl rfl
    · cases h; exact Or.inr rfl

theorem mDecSections_term {cpu : Cpu} {y : LeDInfo} {src : List Byte} {inSize aOut cap sz last : Nat} :
    ∀ cnt i pos o m, mDecSections cpu y src inSize aOut cap sz last cnt i pos o m ≠ none := by
  intro cnt
  induction cnt with
  | zero =>
    intro i pos o m
    rw [mDecSections]
    exact leDecode_term
  | succ cnt ih =>
    intro i pos o m
    rw [mDecSections]
    split
    · exact fun h => by cases h
    · split
      · next h => exact absurd h leDecode_term
      · exact fun h => by cases h
      · exact ih _ _ _ _

/-- C36: `rle8m` terminates on every input, also on malformed streams. -/
theorem C36_rle8m_terminates (k : Nat) (cpu : Cpu) : Terminates (mCompress k) (mDecompress cpu) := by
  refine ⟨?_, ?_⟩
  · intro pIn n pOut outSize
    cases pIn with
    | none => exact fun h => by cases h
    | some inp =>
      obtain ⟨y, _, _, hy3⟩ := C34_info_roundtrip ⟨false, false⟩ inp n []
      have hterm := fun sz last cnt start index r => mSections_term (inp := inp) (sz := sz) (last := last) (outSize := outSize)
        ⟨y.toCount, hy3⟩ cnt start index r
      simp only [mCompress]
      generalize LeCfg.info ⟨false, false⟩ inp n = x at *
      split
      · exact fun h => by cases h
      split
      · exact fun h => by cases h
      split
      · exact fun h => by cases h
      split
      · exact fun h => by cases h
      split
      · exact fun h => by cases h
      · exact fun h => by cases h
      · next e h1 h2 he =>
        rcases hterm _ _ _ _ _ _ he with h | h
        · exact absurd h h1
        · exact absurd h h2
      · exact fun h => by cases h
  · intro a h
    simp only [mDecompress] at h
    split at h
    · cases h
    · cases h
    split at h
    · cases h
    split at h
    · cases h
    split at h
    · cases h
    split at h
    · cases h
    split at h
    · cases h
    split at h
    · cases h
    split at h
    · cases h
    split at h
    · cases h
    split at h
    · next hh => exact absurd hh (mDecSections_term _ _ _ _ _)
    · cases h
    · cases h

/-! ### C26, C28: violations -/

/-- The stream of `0 0 0` with one section. -/
def trailStream : List Byte :=
  match mCompress 1 (some fun _ => 0) 3 true 1000 with
  | .ok _ out => out
  | _ => []

theorem trailStream_eq : mCompress 1 (some fun _ => 0) 3 true 1000 = .ok trailStream.length trailStream := by
  decide +kernel

theorem trail_ub : ∀ a b c d e f : Bool,
    (mDecompress ⟨a, b, c, d, e, f⟩ ⟨some (trailStream ++ List.replicate 200 1 ++ List.replicate 64 0), trailStream.length + 200,
      some (fun _ => 0), 3, 131, 0, 0⟩).isUb = true := by
  decide +kernel

/-- C26 is false for `rle8m_decompress`: it decodes trailing bytes up to `pIn + inSize`, and leaves the output buffer doing so. -/
theorem C26_rle8m_violated (cpu : Cpu) : ¬ TrailingIgnored (mCompress 1) (mDecompress cpu) := by
  intro h
  obtain ⟨m₁, m₂, _, h2, _⟩ := h (fun _ => 0) 3 1000 _ _ (by omega) (by decide) trailStream_eq (List.replicate 200 1) (List.replicate 64 0)
    (List.replicate 64 0) (fun _ => 0) ⟨none, 0, some (fun _ => 0), 3, 131, 0, 0⟩ (by simp) (by simp) rfl (by simp) (by decide)
  have := trail_ub cpu.sse2 cpu.ssse3 cpu.sse41 cpu.avx cpu.avx2 cpu.avx512f
  rw [List.length_replicate] at h2
  rw [h2] at this
  cases this

/-- One run symbol (0), a run of 201 bytes, in a stream that claims to hold one byte. -/
def malM : List Byte :=
  le32 48 ++ le32 1 ++ le32 1 ++ ([1] ++ List.replicate 31 0 ++ [1, 0]) ++ [0, 200]

theorem malM_ub : ∀ a b c d e f : Bool, (mDecompress ⟨a, b, c, d, e, f⟩ (malArgs malM)).isUb = true := by
  decide +kernel

/-- C28 is false for `rle8m_decompress`. -/
theorem C28_rle8m_violated (cpu : Cpu) :
    ∃ (src : List Byte) (a : DArgs), a.pIn = some (src ++ List.replicate 64 0) ∧ a.inSize = src.length ∧
      a.outSize = 1 ∧ a.cap = a.outSize + 128 ∧ mDecompress cpu a = .ub := by
  refine ⟨malM, malArgs malM, rfl, rfl, rfl, rfl, ?_⟩
  have := malM_ub cpu.sse2 cpu.ssse3 cpu.sse41 cpu.avx cpu.avx2 cpu.avx512f
  revert this
  cases mDecompress ⟨cpu.sse2, cpu.ssse3, cpu.sse41, cpu.avx, cpu.avx2, cpu.avx512f⟩ (malArgs malM) <;> simp [DRes.isUb]

/-! ### C09: the violation -/

/-- C09 is false: `0 0 1 1 ... 255 255` is not reproduced, even with one sub-section. -/
theorem C09_violated (cpu : Cpu) :
    ∃ (inp : Mem) (n outSize ret : Nat) (out : List Byte), 0 < n ∧ n ≤ maxInput ∧ outSize < 4294967296 ∧
      mCompress 1 (some inp) n true outSize = .ok ret out ∧
      ∀ (tail : List Byte) (m : Mem) (a : DArgs), a.pIn = some (out ++ tail) → a.inSize = out.length → a.pOut = some m →
        ¬ ∃ m', mDecompress cpu a = .ok n m' ∧ ∀ j, j < n → m' j = inp j := by
  obtain ⟨out, hc, _⟩ := C20_rle8m_partial 1 pairsInp 512 2000 (by omega) (by omega) (by omega) (by omega)
  refine ⟨pairsInp, 512, 2000, out.length, out, by omega, by decide, by omega, hc, ?_⟩
  intro tail m a hpi hin hpo hex
  obtain ⟨m', h1, h2⟩ := hex
  obtain ⟨_, x, w, ds, hx, hw, hs, hle, hret, hout⟩ := mCompress_ok hc
  obtain ⟨d, rfl, hd⟩ := hs
  have hd' : leEncode (LeCfg.blk ⟨false, false⟩) x pairsInp 512 = some d := by
    simp only [Nat.zero_add] at hd
    exact hd
  have hall' : ∀ b, x.rle b = true := fun b => by rw [hx]; exact pairs_flags false b
  obtain ⟨t, ht⟩ := pairs_stream false x hall' hd'
  obtain ⟨y, hy1, hy2, hy3⟩ := C34_info_roundtrip ⟨false, false⟩ pairsInp 512 (d ++ tail)
  rw [← hx, ← hw] at hy1
  rw [← hx] at hy2
  have hcount : rleCount y.rle = 0 := by
    unfold rleCount
    rw [List.filter_eq_self.mpr (fun i _ => by rw [hy2]; exact hall' (b8 i)), List.length_range]
  simp only [Nat.sub_self, Nat.mul_zero, Nat.add_zero, List.flatten_cons, List.flatten_nil, List.append_nil, mOffsets] at hout hle
  have hol : out.length = 12 + w.length + d.length := by rw [hout]; simp; omega
  obtain ⟨src, hsrc⟩ : ∃ src, src = out ++ tail := ⟨_, rfl⟩
  have hsl : src.length = out.length + tail.length := by rw [hsrc]; simp
  rw [← hsrc] at hpi
  have hsrc2 : src = (le32 (12 + w.length + d.length) ++ le32 512 ++ le32 1 ++ w) ++ (d ++ tail) := by
    rw [hsrc, hout]; simp only [List.append_assoc]
  simp only [mDecompress, hpi, hpo] at h1
  split at h1
  · cases h1
  have e1 : rdU32 src = some (12 + w.length + d.length, le32 512 ++ (le32 1 ++ (w ++ (d ++ tail)))) := by
    rw [hsrc2]
    simp only [List.append_assoc, rdU32_le32]
    rw [Nat.mod_eq_of_lt (by omega)]
  rw [e1] at h1
  simp only [rdU32_le32] at h1
  split at h1
  · cases h1
  rw [if_neg (by decide), if_neg (by simp)] at h1
  simp only [show 4 * (1 % 4294967296 - 1) = 0 from rfl, List.drop_zero, hy1] at h1
  have hp : src.length - (d ++ tail).length = (le32 (12 + w.length + d.length) ++ le32 512 ++ le32 1 ++ w).length := by
    rw [hsl, hol]; simp; omega
  rw [show 1 % 4294967296 - 1 = 0 from rfl] at h1
  simp only [mDecSections, leDecode, if_pos hcount] at h1
  split at h1
  · cases h1
  · cases h1
  · next m'' hm =>
    cases h1
    split at hm
    · cases hm
      have e1 := h2 1 (by omega)
      have e3 := h2 3 (by omega)
      simp only [wr] at e1 e3
      rw [if_pos (by omega), hp, hsrc2, getD_app_r, ht] at e1 e3
      simp only [Nat.sub_zero, List.cons_append, List.getD_cons_succ, List.getD_cons_zero] at e1 e3
      have : pairsInp 1 = pairsInp 3 := e1.symm.trans e3
      exact absurd this (by decide)
    · cases hm

end Hrk
