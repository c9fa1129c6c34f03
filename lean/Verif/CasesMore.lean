import Verif.Cases
import Verif.PropsWithInfo
import Verif.PropsDescribe
import Verif.PropsWork
import Verif.PropsRecent
import Verif.PropsWhole
import Verif.PropsPays
import Verif.PropsSame
import Verif.PropsRoom
import Verif.RleShTight
import Verif.PropsToolAll

/-! # More concrete cases

Like `Cases.lean`: theorems about what a compressor wrote, applied to something it did write. -/

namespace Hrk

/-! ### C22: the sizes at the beginning -/

theorem HeaderTruthful.case {comp : Compress} {decomp : Decompress} (h : HeaderTruthful comp decomp) {inp : Mem} {n outSize size : Nat}
    (hs : (comp (some inp) n true outSize).size = size) (hn : n < 4294967296) (ho : outSize < 4294967296) (h0 : 0 < size) :
    ∃ body, comp (some inp) n true outSize = .ok size (le32 n ++ le32 size ++ body) := by
  obtain ⟨out, h1⟩ := CRes.ran hs h0
  obtain ⟨_, body, rfl⟩ := h.1 inp n outSize size out hn ho h1
  exact ⟨body, h1⟩

example : ∃ body, XCfg.compress ⟨2, true, false⟩ noSimd (some sampleInp) 60 true 400 = .ok 38 (le32 60 ++ le32 38 ++ body) :=
  (C22_multibyte_header ⟨2, true, false⟩ noSimd noSimd).case (by decide +kernel) (by decide) (by decide) (by decide)

example : ∃ body, (cdc128 true true).compress noSimd (some sample128) 110 true 400 = .ok 65 (le32 110 ++ le32 65 ++ body) :=
  (C22_rle128_header true true noSimd noSimd).case (by decide +kernel) (by decide) (by decide) (by decide)

example : ∃ body, R8Cfg.compress ⟨false, true⟩ withAvx2 (some sampleInp) 60 true 400 = .ok 63 (le32 60 ++ le32 63 ++ body) :=
  (C22_rle8_header ⟨false, true⟩ withAvx2 noSimd).case (by decide +kernel) (by decide) (by decide) (by decide)

example : ∃ body, SlCfg.compress ⟨3, 2, true⟩ noSimd (some sampleInp) 60 true 400 = .ok 34 (le32 60 ++ le32 34 ++ body) :=
  (C22_symlut_header ⟨3, 2, true⟩ noSimd noSimd).case (by decide +kernel) (by decide) (by decide) (by decide)

example : ∃ body, ShCfg.compress ⟨1, 2, true, .normal⟩ withAvx2 (some sampleInp) 60 true 400 = .ok 37 (le32 60 ++ le32 37 ++ body) :=
  (C22_short_header ⟨1, 2, true, .normal⟩ withAvx2 noSimd).case (by decide +kernel) (by decide) (by decide) (by decide)

example : ∃ body, mmCompress (vset1 0) (fun _ => 0) (some mmEx) 150 true 163 = .ok 40 (le32 150 ++ le32 40 ++ body) :=
  (C22_mmtf128_header _ _).case (by decide +kernel) (by decide) (by decide) (by decide)

example : ∃ body, shCompress (fun _ => 0) (some shEx) 62 true 100 = .ok 35 (le32 62 ++ le32 35 ++ body) :=
  (C22_sh_header _).case (by decide +kernel) (by decide) (by decide) (by decide)

/-- The low entropy codecs store the sizes the other way round. -/
example : ∃ body, LeCfg.compress ⟨false, true⟩ (some sampleInp) 60 true 400 = .ok 97 (le32 97 ++ le32 60 ++ body) := by
  obtain ⟨out, h1⟩ := CRes.ran (show (LeCfg.compress ⟨false, true⟩ (some sampleInp) 60 true 400).size = 97 by decide +kernel) (by decide)
  obtain ⟨_, body, rfl⟩ := (C22_low_entropy_header ⟨false, true⟩ noSimd).1 sampleInp 60 400 97 out (by decide) (by decide) h1
  exact ⟨body, h1⟩

/-! ### C25, C70: a buffer that is too small, for a stream that was written -/

example : ∃ out, SlCfg.compress ⟨3, 2, true⟩ noSimd (some sampleInp) 60 true 400 = .ok 34 out ∧
    SlCfg.decompress ⟨3, 2, true⟩ withAvx2 ⟨some (out ++ []), 34, some (fun _ => 0xCC), 59, 200, 1, 3⟩ = .fail := by
  obtain ⟨body, h1⟩ := (C22_symlut_header ⟨3, 2, true⟩ noSimd noSimd).case (inp := sampleInp) (n := 60) (outSize := 400) (size := 34)
    (by decide +kernel) (by decide) (by decide) (by decide)
  exact ⟨_, h1, (C25_symlut_guards ⟨3, 2, true⟩ withAvx2).2 _ 60 34 (body ++ []) (by decide) (by decide)
    (by dsimp only; rw [List.append_assoc]) (.inl (Nat.lt_succ_self 59))⟩

/-! ### C26: bytes behind the stream -/

/-- `comp` writes a stream, and with the five bytes `t` behind it, counted as part of it, the decompressor does the same. -/
def SameWith (t : List Byte) (comp : Compress) (decomp : Decompress) (inp : Mem) (n outSize size : Nat) : Prop :=
  ∃ out m₁ m₂, comp (some inp) n true outSize = .ok size out ∧
    decomp ⟨some (out ++ List.replicate 64 0), out.length, some (fun _ => 0xCC), n, n + addSize, 1, 3⟩ = .ok n m₁ ∧
    decomp ⟨some (out ++ t ++ List.replicate 64 1), out.length + t.length, some (fun _ => 0xCC), n, n + addSize, 1, 3⟩ = .ok n m₂ ∧
    ∀ k, k < n → m₁ k = m₂ k

theorem TrailingIgnored.case {comp : Compress} {decomp : Decompress} (h : TrailingIgnored comp decomp) (t : List Byte) {inp : Mem}
    {n outSize size : Nat} (hs : (comp (some inp) n true outSize).size = size) (hn : 0 < n) (hn2 : n ≤ maxInput) (h0 : 0 < size) :
    SameWith t comp decomp inp n outSize size := by
  obtain ⟨out, h1⟩ := CRes.ran hs h0
  obtain ⟨m₁, m₂, g⟩ := h inp n outSize size out hn hn2 h1 t (List.replicate 64 0) (List.replicate 64 1) (fun _ => 0xCC)
    ⟨none, 0, some (fun _ => 0xCC), n, n + addSize, 1, 3⟩ (by simp) (by simp) rfl (Nat.le_refl _) (Nat.le_refl _)
  exact ⟨out, m₁, m₂, h1, g⟩

example : SameWith [1, 2, 3, 4, 5] (XCfg.compress ⟨2, true, false⟩ noSimd) (XCfg.decompress ⟨2, true, false⟩ withAvx2) sampleInp 60 400 38 :=
  (C26_multibyte_trailing ⟨2, true, false⟩ (by decide) noSimd withAvx2).case _ (by decide +kernel) (by decide) (by decide) (by decide)

example : SameWith [1, 2, 3, 4, 5] ((cdc128 true true).compress noSimd) ((cdc128 true true).decompress withAvx2) sample128 110 400 65 :=
  (C26_rle128_trailing true true noSimd withAvx2).case _ (by decide +kernel) (by decide) (by decide) (by decide)

example : SameWith [1, 2, 3, 4, 5] (R8Cfg.compress ⟨false, true⟩ withAvx2) (R8Cfg.decompress true noSimd) sampleInp 60 400 63 :=
  (C26_rle8_trailing ⟨false, true⟩ withAvx2 noSimd).case _ (by decide +kernel) (by decide) (by decide) (by decide)

example : SameWith [1, 2, 3, 4, 5] (SlCfg.compress ⟨3, 2, true⟩ noSimd) (SlCfg.decompress ⟨3, 2, true⟩ withAvx2) sampleInp 60 400 34 :=
  (C26_symlut_trailing ⟨3, 2, true⟩ (by decide) noSimd withAvx2).case _ (by decide +kernel) (by decide) (by decide) (by decide)

example : SameWith [1, 2, 3, 4, 5] (ShCfg.compress ⟨1, 2, true, .normal⟩ withAvx2) (ShCfg.decompress ⟨1, 2, true, .normal⟩ noSimd) sampleInp 60 400 37 :=
  (C26_short_trailing ⟨1, 2, true, .normal⟩ (by decide) withAvx2 noSimd).case _ (by decide +kernel) (by decide) (by decide) (by decide)

/-! ### C29: bytes behind the input -/

/-- `sampleInp`, with other bytes from the 62nd on. -/
def sampleTail : Mem := fun k => if k < 62 then sampleInp k else 0xEE

example : XCfg.compress ⟨2, true, false⟩ noSimd (some sampleInp) 60 true 400 = XCfg.compress ⟨2, true, false⟩ noSimd (some sampleTail) 60 true 400 ∧
    SlCfg.compress ⟨3, 2, true⟩ noSimd (some sampleInp) 60 true 400 = SlCfg.compress ⟨3, 2, true⟩ noSimd (some sampleTail) 60 true 400 ∧
    ShCfg.compress ⟨1, 2, true, .normal⟩ noSimd (some sampleInp) 60 true 400 =
      ShCfg.compress ⟨1, 2, true, .normal⟩ noSimd (some sampleTail) 60 true 400 ∧
    (cdc128 true true).compress noSimd (some sampleInp) 40 true 400 = (cdc128 true true).compress noSimd (some sampleTail) 40 true 400 ∧
    sampleInp 70 ≠ sampleTail 70 :=
  ⟨C29_multibyte_prefix ⟨2, true, false⟩ (by decide) noSimd sampleInp sampleTail 60 true 400 fun k hk => (if_pos hk).symm,
    C29_symlut_prefix ⟨3, 2, true⟩ (by decide) noSimd sampleInp sampleTail 60 true 400 fun k hk => (if_pos hk).symm,
    C29_short_prefix ⟨1, 2, true, .normal⟩ (by decide) noSimd sampleInp sampleTail 60 true 400 fun k hk => (if_pos hk).symm,
    C29_rle128_prefix true true noSimd sampleInp sampleTail 40 true 400 fun k hk => (if_pos (by omega)).symm, by decide⟩

example (m0 : Mem) : shCompress m0 (some shEx) 62 true 100 = shCompress m0 (some fun k => if k < 62 then shEx k else 1) 62 true 100 :=
  C29_sh_prefix m0 shEx _ 62 true 100 fun _ hk => (if_pos hk).symm

/-! ### C20: what an accepted call of `rle8_sh` returns -/

example : ∃ out, shCompress (fun _ => 0) (some shEx) 62 true 100 = .ok 35 out ∧ 35 = out.length := by
  obtain ⟨out, h1⟩ := CRes.ran (show (shCompress (fun _ => 0) (some shEx) 62 true 100).size = 35 by decide +kernel) (by decide)
  exact ⟨out, h1, (C20_sh_accepted _ shEx 62 100 35 out (by decide) h1).1⟩

/-! ### C60: work -/

example : (DName.r8 false).work noSimd ⟨some (twenty (.r8 false false) ++ List.replicate 64 0), 29, some fun _ => 0, 20, 148, 0, 0⟩ ≤ 618 := by
  refine Nat.le_trans (C60_records ⟨"Extreme8", .r8 false false, .r8 false⟩ (by decide +kernel) ⟨by decide, by decide, fun s => by cases s <;> decide⟩
    noSimd _ _ rfl) ?_
  decide +kernel

/-! ### C68, C73: the table made from `[7, 7, 7, 1, 7, 7, 0]` -/

/-- Some data. -/
def sevens : Mem := fun k => [7, 7, 7, 1, 7, 7, 0].getD k 0

example : ∃ x, getInfoApi ⟨false, false⟩ (some sevens) 7 true = some x ∧ (7 : Byte) ∈ x.listed ∧ (3 : Byte) ∉ x.listed ∧ (∃ b, x.rle b = false) ∧
    (∃ w, writeInfoApi (some x) true 300 = .ok w.length w ∧ w.length ≤ 288) ∧
    ∃ ret d, compressWithApi true (some sampleInp) 60 (some x) true 120 = .ok ret d ∧ d.length ≤ 120 := by
  have hx : getInfoApi ⟨false, false⟩ (some sevens) 7 true = some (LeCfg.info ⟨false, false⟩ sevens 7) := rfl
  refine ⟨_, hx, (C73_listed _ sevens 7 (by decide) _ hx 7).mpr (by decide +kernel), fun h => ?_, C68_absent _ sevens 7 _ hx 3 (by decide +kernel), ?_, ?_⟩
  · exact absurd ((C73_listed _ sevens 7 (by decide) _ hx 3).mp h) (by decide +kernel)
  · obtain ⟨w, h1, _, h2, _⟩ := C68_table _ sevens 7 _ hx 300 (by decide)
    exact ⟨w, h1, h2⟩
  · exact C68_room _ sevens 7 _ hx true sampleInp 60 120 (by decide) (by decide)

/-! ### C77: the records of a stream that was written -/

example : ∃ out, XCfg.compress ⟨2, true, false⟩ noSimd (some sampleInp) 60 true 400 = .ok 38 out ∧
    (∃ fs src rs fs' src' rest T, (XCfg.cdc ⟨2, true, false⟩).start (out.drop 8) = some (some (fs, src)) ∧
      ReadsRecs (XCfg.hdr ⟨2, true, false⟩) fs src rs fs' src' ∧ rs.flatMap Rec.plain ++ rest = rd sampleInp 0 T ∧ 60 ≤ T ∧
      AllEnd 2 2 true sampleInp 60 rs) := by
  obtain ⟨out, h1⟩ := CRes.ran (show (XCfg.compress ⟨2, true, false⟩ noSimd (some sampleInp) 60 true 400).size = 38 by decide +kernel) (by decide)
  obtain ⟨fs, src, rs, fs', src', rest, T, g1, g2, _, g4, g5, _, g7⟩ :=
    C77_multibyte ⟨2, true, false⟩ (by decide) noSimd sampleInp 60 400 38 out (by decide) h1
  exact ⟨out, h1, fs, src, rs, fs', src', rest, T, g1, g2, g4, g5, g7⟩

end Hrk
