import Verif.PropsRle8Mmtf
import Verif.PropsRleSh
import Verif.PropsRle8m
import Verif.PropsStale
import Verif.PropsSafe
import Verif.PropsChanges
import Verif.PropsAnalyze
import Verif.LowEntropySize
import Verif.LowEntropyApi
import Verif.Rle8MmtfApi
import Verif.RleShApi
import Verif.Rle8mApi

/-! # Concrete cases

Inputs for which the hypotheses of property theorems are met, with the theorem applied to them: what one compressor wrote is given to the
decompressor, and the theorem says what comes out. These are the cases that are not beside their theorem. -/

namespace Hrk

theorem CRes.ran {r : CRes} {k : Nat} (h : r.size = k) (hk : 0 < k) : ∃ out, r = .ok k out := by
  cases r with
  | ok ret out => exact ⟨out, by rw [← h]; rfl⟩
  | _ => exact absurd h (Nat.ne_of_lt hk)

/-- `comp` returns `size` for the `n` bytes at `inp`, and `decomp` gives the input back from what was written. The output buffer is full of
`0xCC` before, and neither buffer is aligned. -/
def Restored (comp : Compress) (decomp : Decompress) (inp : Mem) (n outSize size : Nat) : Prop :=
  ∃ out, comp (some inp) n true outSize = .ok size out ∧
    ∃ m', decomp ⟨some (out ++ List.replicate 64 0), out.length, some (fun _ => 0xCC), n, n + addSize, 1, 3⟩ = .ok n m' ∧
      ∀ k, k < n → m' k = inp k

theorem RoundTrip.case {comp : Compress} {decomp : Decompress} (h : RoundTrip comp decomp) {inp : Mem} {n outSize size : Nat}
    (hs : (comp (some inp) n true outSize).size = size) (hn : 0 < n) (hn2 : n ≤ maxInput) (h0 : 0 < size) :
    Restored comp decomp inp n outSize size := by
  obtain ⟨out, h1⟩ := CRes.ran hs h0
  obtain ⟨m', h2, h3, _⟩ := h inp n outSize size out hn hn2 h1 (List.replicate 64 0) (fun _ => 0xCC)
    ⟨some (out ++ List.replicate 64 0), out.length, some (fun _ => 0xCC), n, n + addSize, 1, 3⟩ (by simp) rfl (Nat.le_refl _) rfl (Nat.le_refl _)
    (Nat.le_refl _)
  exact ⟨out, h1, m', h2, h3⟩

theorem RoundTripExact.case {lim : Nat} {comp : Compress} {decomp : Decompress} (h : RoundTripExact lim comp decomp) {inp : Mem}
    {n outSize size : Nat} (hs : (comp (some inp) n true outSize).size = size) (hn : 0 < n) (hn2 : n ≤ lim) (ho : outSize < 4294967296)
    (h0 : 0 < size) : Restored comp decomp inp n outSize size := by
  obtain ⟨out, h1⟩ := CRes.ran hs h0
  obtain ⟨m', h2, h3, _⟩ := h inp n outSize size out hn hn2 ho h1 (List.replicate 64 0) (fun _ => 0xCC)
    ⟨some (out ++ List.replicate 64 0), out.length, some (fun _ => 0xCC), n, n + addSize, 1, 3⟩ rfl (Nat.le_refl _) rfl (Nat.le_refl _)
    (Nat.le_add_right _ _)
  exact ⟨out, h1, m', h2, h3⟩

/-! ### C01 to C09, C14, C15: compress, then decompress on another processor -/

example : Restored (XCfg.compress ⟨2, true, false⟩ noSimd) (XCfg.decompress ⟨2, true, false⟩ withAvx2) sampleInp 60 400 38 :=
  (C01_multibyte_roundtrip ⟨2, true, false⟩ (by decide) noSimd withAvx2).2.case (by decide +kernel) (by decide) (by decide) (by decide)

example : Restored (XCfg.compress ⟨3, true, true⟩ withAvx2) (XCfg.decompress ⟨3, true, true⟩ noSimd) sampleInp 60 400 64 :=
  (C01_multibyte_roundtrip ⟨3, true, true⟩ (by decide) withAvx2 noSimd).2.case (by decide +kernel) (by decide) (by decide) (by decide)

example : Restored ((cdc128 true true).compress noSimd) ((cdc128 true true).decompress withAvx2) sample128 110 400 65 :=
  (C02_rle128_roundtrip true true noSimd withAvx2).2.case (by decide +kernel) (by decide) (by decide) (by decide)

example : Restored (R8Cfg.compress ⟨false, true⟩ withAvx2) (R8Cfg.decompress true noSimd) sampleInp 60 400 63 :=
  (C03_rle8_roundtrip ⟨false, true⟩ withAvx2 noSimd).case (by decide +kernel) (by decide) (by decide) (by decide)

example : Restored (SlCfg.compress ⟨3, 2, true⟩ noSimd) (SlCfg.decompress ⟨3, 2, true⟩ withAvx2) sampleInp 60 400 34 :=
  (C04_symlut_roundtrip ⟨3, 2, true⟩ (by decide) noSimd withAvx2).case (by decide +kernel) (by decide) (by decide) (by decide)

example : Restored (ShCfg.compress ⟨1, 2, true, .normal⟩ withAvx2) (ShCfg.decompress ⟨1, 2, true, .normal⟩ noSimd) sampleInp 60 400 37 :=
  (C05_short_roundtrip ⟨1, 2, true, .normal⟩ (by decide) (by decide) withAvx2 noSimd).case (by decide +kernel) (by decide) (by decide) (by decide)

example : Restored (ShCfg.compress ⟨3, 4, true, .greedy⟩ noSimd) (ShCfg.decompress ⟨3, 4, true, .normal⟩ withAvx2) greedyInp 60 400 40 :=
  (C06_greedy_roundtrip ⟨3, 4, true, .greedy⟩ (by decide) rfl noSimd withAvx2).case (by decide +kernel) (by decide) (by decide) (by decide)

example : Restored (LeCfg.compress ⟨false, true⟩) (leDecompress false withAvx2) sampleInp 60 400 97 :=
  (C07_only_max_roundtrip withAvx2).case (by decide +kernel) (by decide) (by decide) (by decide) (by decide)

example : Restored (LeCfg.compress ⟨true, true⟩) (leDecompress true noSimd) sampleInp 60 400 97 :=
  (C08_only_max_roundtrip noSimd).case (by decide +kernel) (by decide) (by decide) (by decide) (by decide)

/-- The hypotheses of `C07_roundtrip_partial` and of `C08_roundtrip_partial`: the byte 8 does not occur. -/
example (short : Bool) : ∃ out m', LeCfg.compress ⟨short, false⟩ (some sampleInp) 60 true 400 = .ok 97 out ∧
    leDecompress short withAvx2 ⟨some (out ++ [1, 2, 3]), out.length, some (fun _ => 0xCC), 60, 60, 1, 3⟩ = .ok 60 m' ∧
    (∀ k, k < 60 → m' k = sampleInp k) ∧ ∀ k, 60 ≤ k → m' k = 0xCC := by
  have h8 : ∃ v, ∀ k, k < 60 → sampleInp k ≠ v := ⟨8, by decide +kernel⟩
  cases short with
  | false =>
    obtain ⟨out, h1⟩ := CRes.ran (show (LeCfg.compress ⟨false, false⟩ (some sampleInp) 60 true 400).size = 97 by decide +kernel) (by decide)
    obtain ⟨m', h2, h3, h4⟩ := C07_roundtrip_partial withAvx2 sampleInp 60 400 97 out (by decide) (by decide) (by decide) h1 (.inl h8) [1, 2, 3]
      (fun _ => 0xCC) ⟨some (out ++ [1, 2, 3]), out.length, some (fun _ => 0xCC), 60, 60, 1, 3⟩ rfl (Nat.le_refl _) rfl (Nat.le_refl _) (Nat.le_refl _)
    exact ⟨out, m', h1, h2, h3, h4⟩
  | true =>
    obtain ⟨out, h1⟩ := CRes.ran (show (LeCfg.compress ⟨true, false⟩ (some sampleInp) 60 true 400).size = 97 by decide +kernel) (by decide)
    obtain ⟨m', h2, h3, h4⟩ := C08_roundtrip_partial withAvx2 sampleInp 60 400 97 out (by decide) (by decide) (by decide) h1 (.inl h8) [1, 2, 3]
      (fun _ => 0xCC) ⟨some (out ++ [1, 2, 3]), out.length, some (fun _ => 0xCC), 60, 60, 1, 3⟩ rfl (Nat.le_refl _) rfl (Nat.le_refl _) (Nat.le_refl _)
    exact ⟨out, m', h1, h2, h3, h4⟩

/-- The hypotheses of `C09_roundtrip_partial`: three sections. -/
example : ∃ out m', mCompress 3 (some sampleInp) 60 true 500 = .ok 113 out ∧
    mDecompress noSimd ⟨some (out ++ []), out.length, some (fun _ => 0xCC), 60, 60, 1, 3⟩ = .ok 60 m' ∧ ∀ k, k < 60 → m' k = sampleInp k := by
  obtain ⟨out, h1⟩ := CRes.ran (show (mCompress 3 (some sampleInp) 60 true 500).size = 113 by decide +kernel) (by decide)
  obtain ⟨m', h2, h3, _⟩ := C09_roundtrip_partial noSimd 3 (by decide) sampleInp 60 500 113 out (by decide) (by decide) (by decide) h1
    (.inl ⟨8, by decide +kernel⟩) [] (fun _ => 0xCC) ⟨some (out ++ []), out.length, some (fun _ => 0xCC), 60, 60, 1, 3⟩ rfl rfl rfl (Nat.le_refl _)
    (Nat.le_refl _)
  exact ⟨out, m', h1, h2, h3⟩

example : Restored (mmCompress (vset1 0) fun _ => 0) mmDecompress mmEx 150 163 40 :=
  (C14_roundtrip _ _).case (by decide +kernel) (by decide) (by decide) (by decide) (by decide)

example : Restored (shCompress fun _ => 0) shDecompress shEx 62 100 35 :=
  (C15_roundtrip _).case (by decide +kernel) (by decide) (by decide) (by decide) (by decide)

/-! ### C20, C34, C37: the low entropy codecs -/

/-- 60 bytes fit into the buffer `rle8_low_entropy_compress_bounds` asks for, if only one symbol has runs. -/
example (short : Bool) : leBounds 60 = 357 ∧ ∃ out, LeCfg.compress ⟨short, true⟩ (some sampleInp) 60 true 357 = .ok 97 out ∧ out.length ≤ 357 := by
  refine ⟨by decide, ?_⟩
  have h3 : (LeCfg.compress ⟨short, true⟩ (some sampleInp) 60 true 357).size = 97 := by revert short; decide +kernel
  obtain ⟨out, h, h2⟩ := C20_low_entropy_only_max_fits short sampleInp 60 357 (by decide) (by decide) (by decide) (by decide)
  rw [h] at h3
  have h3 : out.length = 97 := h3
  exact ⟨out, by rw [h, h3], by omega⟩

/-- The table of `sampleInp` has a symbol with runs and others without, and is read back behind itself. -/
example : (LeCfg.info ⟨false, false⟩ sampleInp 60).rle 9 = true ∧ (LeCfg.info ⟨false, false⟩ sampleInp 60).rle 17 = false ∧
    ∃ y, readInfo (writeInfo (LeCfg.info ⟨false, false⟩ sampleInp 60) ++ [5, 6]) = some (y, [5, 6]) ∧ y.rle 9 = true := by
  have h9 : (LeCfg.info ⟨false, false⟩ sampleInp 60).rle 9 = true := by decide +kernel
  refine ⟨h9, by decide +kernel, ?_⟩
  obtain ⟨y, h1, h2, _⟩ := C34_info_roundtrip ⟨false, false⟩ sampleInp 60 [5, 6]
  exact ⟨y, h1, by rw [h2]; exact h9⟩

/-- Nothing behind the 60 bytes is touched, whatever sizes are passed. -/
example (short : Bool) (cpu : Cpu) (inSize outSize : Nat) : ∃ out, LeCfg.compress ⟨short, true⟩ (some sampleInp) 60 true 400 = .ok 97 out ∧
    leDecompress short cpu ⟨some out, inSize, some (fun _ => 0xCC), outSize, 60, 1, 3⟩ ≠ .ub := by
  obtain ⟨out, h1⟩ := CRes.ran (show (LeCfg.compress ⟨short, true⟩ (some sampleInp) 60 true 400).size = 97 by revert short; decide +kernel) (by decide)
  exact ⟨out, h1, C37_low_entropy_only_max_inside short cpu sampleInp 60 400 97 out (by decide) (by decide) (by decide) trivial h1 _ _ rfl rfl rfl⟩

example (inSize outSize : Nat) : ∃ out, mmCompress (vset1 0) (fun _ => 0) (some mmEx) 150 true 163 = .ok 40 out ∧
    mmDecompress ⟨some out, inSize, some (fun _ => 0xCC), outSize, 150, 1, 3⟩ ≠ .ub := by
  obtain ⟨out, h1⟩ := CRes.ran (show (mmCompress (vset1 0) (fun _ => 0) (some mmEx) 150 true 163).size = 40 by decide +kernel) (by decide)
  exact ⟨out, h1, C37_mmtf128_inside _ _ mmEx 150 163 40 out (by decide) (by decide) (by decide) trivial h1 _ _ rfl rfl rfl⟩

example (inSize outSize : Nat) : ∃ out, shCompress (fun _ => 0) (some shEx) 62 true 100 = .ok 35 out ∧
    shDecompress ⟨some out, inSize, some (fun _ => 0xCC), outSize, 62, 1, 3⟩ ≠ .ub := by
  obtain ⟨out, h1⟩ := CRes.ran (show (shCompress (fun _ => 0) (some shEx) 62 true 100).size = 35 by decide +kernel) (by decide)
  exact ⟨out, h1, C37_sh_inside _ shEx 62 100 35 out (by decide) (by decide) (by decide) trivial h1 _ _ rfl rfl rfl⟩

/-! ### C28: twenty equal bytes in every format -/

example : (XCfg.cdc ⟨4, true, true⟩).ref (twenty (.x 4 true true)) = some (List.replicate 20 7) ∧
    (cdc128 false true).ref (twenty (.x128 false true)) = some (List.replicate 20 7) ∧
    (R8Cfg.cdc ⟨false, true⟩).ref (twenty (.r8 false true)) = some (List.replicate 20 7) ∧
    (SlCfg.cdc ⟨7, 4, false⟩).ref (twenty (.sl 7 4 false)) = some (List.replicate 20 7) ∧
    (ShCfg.cdc ⟨1, 2, true, .normal⟩).ref (twenty (.sh 1 2 true .normal)) = some (List.replicate 20 7) ∧
    ((twenty (.x 4 true true)).take 4 = le32 20 ∧ (twenty (.x128 false true)).take 4 = le32 20 ∧ (twenty (.r8 false true)).take 4 = le32 20 ∧
      (twenty (.sl 7 4 false)).take 4 = le32 20 ∧ (twenty (.sh 1 2 true .normal)).take 4 = le32 20) := by
  decide +kernel

/-! ### C48: 400 bytes, one value and then another -/

/-- The input has at most `S` changes; the theorems' bounds are below its length. -/
example : ∀ S ∈ [1, 2, 4, 6], changes S (fun i => if i < 200 then 2 else 3) 400 ≤ S ∧
    (2 * S + 12) * S + (5 * S + 30) < 400 ∧ (2 * S + 10) * S + (4 * S + 26) < 400 ∧ (2 * S + 11) * S + (4 * S + 36) < 400 := by decide +kernel

example : (XCfg.compress ⟨4, false, true⟩ noSimd (some fun i => if i < 200 then 2 else 3) 400 true 1000).size = 30 ∧
    (SlCfg.compress ⟨3, 4, false⟩ noSimd (some fun i => if i < 200 then 2 else 3) 400 true 1000).size = 26 ∧
    (ShCfg.compress ⟨3, 4, false, .normal⟩ noSimd (some fun i => if i < 200 then 2 else 3) 400 true 1000).size = 29 ∧
    (ShCfg.compress ⟨3, 4, true, .greedy⟩ noSimd (some fun i => if i < 200 then 2 else 3) 400 true 1000).size = 29 := by decide +kernel

end Hrk
