import Verif.Align
import Verif.PropsStale

/-
C59: the aligned vector accesses of the decompressors only ever get aligned addresses, whatever the caller passes.
-/

namespace Hrk

/-- `R8Cfg.decompress` with checked accesses (src/rle8_extreme_cpu.h:702-764). The nine bytes at its beginning are no vector access. -/
def R8Cfg.decompressC (packed : Bool) (cpu : Cpu) (a : DArgs) : Option DRes :=
  match a.pIn, a.pOut with
  | some src, some _ =>
    if a.inSize ≠ 0 ∧ a.outSize ≠ 0 ∧ src.length < 9 then some .ub
    else apiDecompressC R8Cfg.start (R8Cfg.hdr packed) (R8Cfg.decV cpu) a
  | _, _ => some .fail

/-- The decompressor of that name with the addresses of its aligned vector accesses checked; `none`: one of them is not a multiple of
the vector size. rle8_sh has no vector accesses; those of rle8_mmtf128 to the caller's buffers are `_mm_loadu_si128` and `_mm_storeu_si128`
(src/rle.h, src/rle8_mmtf.c:228-330). -/
def DName.runC (f : DName) (cpu : Cpu) (a : DArgs) : Option DRes :=
  match f with
  | .r8 packed => R8Cfg.decompressC packed cpu a
  | .x S unb packed => apiDecompressC (XCfg.cdc ⟨S, unb, packed⟩).start ((XCfg.cdc ⟨S, unb, packed⟩).hdrV cpu) ((XCfg.cdc ⟨S, unb, packed⟩).decV cpu) a
  | .sl N S unb => apiDecompressC (SlCfg.cdc ⟨N, S, unb⟩).start ((SlCfg.cdc ⟨N, S, unb⟩).hdrV cpu) ((SlCfg.cdc ⟨N, S, unb⟩).decV cpu) a
  | .sh N S unb mode =>
    apiDecompressC (ShCfg.cdc ⟨N, S, unb, mode⟩).start ((ShCfg.cdc ⟨N, S, unb, mode⟩).hdrV cpu) ((ShCfg.cdc ⟨N, S, unb, mode⟩).decV cpu) a
  | .x128 unb packed => apiDecompressC (cdc128 unb packed).start ((cdc128 unb packed).hdrV cpu) ((cdc128 unb packed).decV cpu) a
  | .rsh => some (shDecompress a)
  | .mm => some (mmDecompress a)
  | .le short => leDecompressC short cpu a

/-! ### Lemmas -/

theorem SetK.width_pos {k : SetK} {S : Nat} (h : k.ok S) : 0 < k.width := by
  cases k with
  | multi G reg => exact h.1
  | aligned W => exact h.1

theorem cdc_runC {σ : Type} {c : Cdc σ} {P D : σ → Prop} (h : c.OK P D) (cpu : Cpu) (a : DArgs) :
    apiDecompressC c.start (c.hdrV cpu) (c.decV cpu) a = some (c.decompress cpu a) :=
  apiDecompressC_eq _ _ _ (h.decV cpu).1 (SetK.width_pos (h.decV cpu).2.2.1) a

/-! ### The property -/

/-- **C59.** Whatever bytes, sizes, buffer addresses and processor a decompressor of the table is called with, no aligned vector load or
store gets an address that is not a multiple of the vector size: with every such access checked, the call does the same. -/
theorem C59_table (row : Row) (hrow : row ∈ table) (cpu : Cpu) (a : DArgs) : row.dec.runC cpu a = some (row.dec.run cpu a) := by
  have hg := table_good row hrow
  generalize row.dec = f at hg
  cases f with
  | r8 p =>
    have h := cdc_runC (R8Cfg.cdc_ok ⟨false, p⟩) cpu a
    show R8Cfg.decompressC p cpu a = some (R8Cfg.decompress p cpu a)
    unfold R8Cfg.decompressC R8Cfg.decompress
    cases a.pIn with
    | none => rfl
    | some src =>
      cases a.pOut with
      | none => rfl
      | some m =>
        dsimp only
        split
        · rfl
        · exact h
  | x S u p => exact cdc_runC (XCfg.cdc_ok ⟨S, u, p⟩ (of_decide_eq_true hg)) cpu a
  | sl N S u => exact cdc_runC (SlCfg.cdc_ok ⟨N, S, u⟩ (of_decide_eq_true hg)) cpu a
  | sh N S u m => exact cdc_runC (ShCfg.cdc_ok ⟨N, S, u, m⟩ (of_decide_eq_true hg)) cpu a
  | x128 u p => exact cdc_runC (cdc128_ok u p) cpu a
  | rsh => rfl
  | mm => rfl
  | le short => exact leDecompressC_eq short cpu a

/-- The same for rle8m. -/
theorem C59_rle8m (cpu : Cpu) (a : DArgs) : mDecompressC cpu a = some (mDecompress cpu a) := mDecompressC_eq cpu a

/-! ### The checks can fail, and the aligned accesses do happen -/

/-- What is left of a checked part. -/
def Chk.tag {α : Type} : Chk α → Nat
  | .fault => 0
  | .out => 1
  | .done _ => 2

/-- With the address 5 and without the unaligned first vector, the loops fault; the way the code does it they do not. -/
example : (copyLoopC 16 200 5 (List.replicate 60 1) 0 40 (fun _ => 0) 0).tag = 0 ∧
    (memcpyC 16 200 5 (List.replicate 60 1) 0 40 (fun _ => 0)).tag = 2 ∧
    (setLoopC 16 200 5 (fun _ => 1) 0 40 (fun _ => 0) 0).tag = 0 ∧ (memsetC (.aligned 16) 200 5 [1] 0 40 (fun _ => 0)).tag = 2 ∧
    (storeRepC 16 5 1 2 0 (fun _ => 0)).isNone = true ∧ (fillLongC 16 5 200 (fun _ => 0) 0 40 1).tag = 2 ∧
    (fillTailC 5 200 (fun _ => 0) 0 40 1).tag = 2 := by decide +kernel

/-- `C59_table`: a call at odd addresses that stores an aligned vector. -/
example : (match (DName.r8 false).runC ⟨true, true, true, false, false, false⟩
      ⟨some (twenty (.r8 false false) ++ List.replicate 64 0), 29, some fun _ => 0, 20, 148, 3, 5⟩ with
    | some (.ok r m') => r == 20 && m' 0 == 7 && m' 19 == 7
    | _ => false) = true := by decide +kernel

/-- `C59_rle8m`: a stream of one section, at odd addresses. -/
example : (match mDecompressC noSimd ⟨some mLong, mLong.length, some fun _ => 0, 1000, 1128, 3, 5⟩ with
    | some (.ok r _) => r == 1000
    | _ => false) = true := by decide +kernel

end Hrk
