import Verif.PropsToolReal
import Verif.LowEntropyTight
import Verif.RleShTight
import Verif.PropsMtf

/-
C46 for all codecs of the tool: `--sh`, `--rle-mmtf`, the low entropy codecs and the transforms besides `--extreme`.
-/

namespace Hrk.Cli

/-! ### The transforms -/

/-- The four transforms the tool tests (src/codec_funcs.h:404-407): `none` for everything else. -/
def trans (dec : Bool) (w : What) (cpu : Cpu) (aIn aOut : Nat) (src : List Byte) (outSize : Nat) : Option TRes :=
  match w with
  | .mtf 128 => some (mmtf 16 dec cpu aIn aOut src outSize)
  | .mtf 256 => some (mmtf 32 dec cpu aIn aOut src outSize)
  | .bitMtf 8 => some ((if dec then bitmmtf8Decode else bitmmtf8Encode) (some src) true outSize)
  | .bitMtf 16 => some ((if dec then bitmmtf16Decode else bitmmtf16Encode) (some src) true outSize)
  | _ => none

/-- The transforms of the tool are those of the library; `aIn`, `aBuf` and `aOut` are the addresses of the file, of the compressed
buffer and of the decompressed buffer. -/
structure Transforms (e : Env) (data : List Byte) (ce cd : Cpu) (aIn aBuf aOut : Nat) : Prop where
  comp : ∀ c buf ret out, trans false (what c) ce aIn aBuf data (toolBuffer data.length) = some (.ok ret out) →
    e.comp c data.length (toolBuffer data.length) buf = (ret, fun i => if i < out.length then out.getD i 0 else buf i)
  dec : ∀ c size buf m ret out,
    trans true (what c) cd aBuf aOut ((List.range size).map buf) (toolBuffer data.length) = some (.ok ret out) →
    e.dec c size buf (toolBuffer data.length) m = (ret, fun i => if i < out.length then out.getD i 0 else m i)

theorem trans_ok {w : What} (hw : (∃ k, w = .mtf k ∧ (k = 128 ∨ k = 256)) ∨ ∃ k, w = .bitMtf k ∧ (k = 8 ∨ k = 16)) (ce cd : Cpu)
    (hce : ce.sse2 = true) (hcd : cd.sse2 = true) (a1 a2 a3 a4 : Nat) (data : List Byte) (outSize : Nat) (ho : data.length ≤ outSize) :
    ∃ code, trans false w ce a1 a2 data outSize = some (.ok data.length code) ∧ code.length = data.length ∧
      trans true w cd a3 a4 code outSize = some (.ok data.length data) := by
  rcases hw with ⟨k, rfl, rfl | rfl⟩ | ⟨k, rfl, rfl | rfl⟩
  · obtain ⟨code, h1, h2, h3⟩ := C11_mmtf_roundtrip 16 (.inl rfl) ce cd hce hcd a1 a2 a3 a4 data outSize outSize ho ho
    exact ⟨code, congrArg some h1, h2, congrArg some h3⟩
  · obtain ⟨code, h1, h2, h3⟩ := C11_mmtf_roundtrip 32 (.inr rfl) ce cd hce hcd a1 a2 a3 a4 data outSize outSize ho ho
    exact ⟨code, congrArg some h1, h2, congrArg some h3⟩
  · obtain ⟨code, h1, h2, h3⟩ := C13_bitmmtf8_roundtrip data outSize outSize ho ho
    exact ⟨code, congrArg some h1, h2, congrArg some h3⟩
  · obtain ⟨code, h1, h2, h3⟩ := C13_bitmmtf16_roundtrip data outSize outSize ho ho
    exact ⟨code, congrArg some h1, h2, congrArg some h3⟩

theorem transforms_ok {e : Env} {data : List Byte} {ce cd : Cpu} {aIn aBuf aOut : Nat} (ht : Transforms e data ce cd aIn aBuf aOut)
    (hce : ce.sse2 = true) (hcd : cd.sse2 = true) (h0 : 0 < data.length) {c : CodecT}
    (hw : (∃ k, what c = .mtf k ∧ (k = 128 ∨ k = 256)) ∨ ∃ k, what c = .bitMtf k ∧ (k = 8 ∨ k = 16)) (a : Attempt e data c) : a.Ok := by
  obtain ⟨code, h1, h2, h3⟩ := trans_ok hw ce cd hce hcd aIn aBuf aBuf aOut data (toolBuffer data.length) (C45_buffer data.length).2.1
  have hcomp := ht.comp c a.buf _ _ h1
  have hag := a.agree
  rw [hcomp] at hag
  have hsize : a.size = data.length := by unfold Attempt.size; rw [hcomp]
  have hsrc : (List.range data.length).map a.buf' = code := by
    apply List.ext_getElem
    · simp [h2]
    · intro i g1 g2
      simp only [List.getElem_map, List.getElem_range]
      rw [hag i (by show i < data.length; omega)]
      show (if i < code.length then code.getD i 0 else a.buf i) = _
      rw [if_pos g2, List.getD_eq_getElem?_getD, List.getElem?_eq_getElem g2]
      rfl
  have hdec := ht.dec c data.length a.buf' a.out data.length data (by rw [hsrc]; exact h3)
  have hres : a.result = (data.length, fun i => if i < data.length then data.getD i 0 else a.out i) := by
    unfold Attempt.result; rw [hsize, hdec]
  refine ⟨by rw [hsize]; omega, by rw [hres]; show data.length ≠ 0; omega, fun i h => ?_⟩
  rw [hres]
  exact if_pos h

/-! ### The low entropy codecs -/

/-- How many byte values occur. -/
def values (inp : Mem) (n : Nat) : Nat := ((List.range 256).filter fun v => (List.range n).any fun i => inp i == b8 v).length

theorem values_absent {blk : Nat} {inp : Mem} {n : Nat} (hn : 0 < n) :
    256 ≤ values inp n + (absent (tally blk inp n).pcount 256 []).length := by
  rw [absent_eq, List.append_nil]
  unfold values
  have h1 := List.length_eq_countP_add_countP (l := List.range 256) (fun v => (List.range n).any fun i => inp i == b8 v)
  rw [List.length_range] at h1
  rw [← List.countP_eq_length_filter, ← List.countP_eq_length_filter]
  have h2 : List.countP (fun v => decide ¬((List.range n).any fun i => inp i == b8 v) = true) (List.range 256) ≤
      List.countP (fun j => (tally blk inp n).pcount j == 0) (List.range 256) := by
    refine List.countP_mono_left ?_
    intro v hv hc
    have hv := List.mem_range.mp hv
    have := tally_absent (blk := blk) (inp := inp) (n := n) (v := b8 v) hn (by
      intro k hk he
      have hc' := of_decide_eq_true hc
      exact hc' (List.any_eq_true.mpr ⟨k, List.mem_range.mpr hk, by simp [he]⟩))
    rw [show (b8 v).toNat = v from by simp [b8]; omega] at this
    simp [this]
  omega

theorem absent_lt {blk : Nat} (hb : blk = 32 ∨ blk = 255) {inp : Mem} {n : Nat} (hn : 0 < n) (hn2 : n < 4294967295) :
    (absent (tally blk inp n).pcount 256 []).length < 256 := by
  rw [absent_eq, List.append_nil]
  have h := (List.length_filter_lt_length_iff_exists (l := List.range 256) (p := fun j => (tally blk inp n).pcount j == 0)).mpr
    ⟨(inp (n - 1)).toNat, List.mem_range.mpr (inp (n - 1)).toNat_lt, by
      rw [(tally_spec (blk := blk) (by omega) inp hn hn2 _).2]
      have hc : 0 < curRun inp (inp (n - 1)).toNat n := by
        obtain ⟨k, rfl⟩ : ∃ k, n = k + 1 := ⟨n - 1, by omega⟩
        rw [curRun_succ, Nat.add_sub_cancel, if_pos rfl]
        omega
      rw [if_pos hc]
      simp⟩
  rwa [List.length_range] at h

/-- If not all byte values occur, one of them does not. -/
theorem values_lt {inp : Mem} {n : Nat} (h : values inp n ≤ 255) : ∃ v : Byte, ∀ k, k < n → inp k ≠ v := by
  have h1 := (List.length_filter_lt_length_iff_exists (l := List.range 256)
    (p := fun v => (List.range n).any fun i => inp i == b8 v)).mp (by unfold values at h; rw [List.length_range]; omega)
  obtain ⟨v, _, hv⟩ := h1
  refine ⟨b8 v, fun k hk he => hv (List.any_eq_true.mpr ⟨k, List.mem_range.mpr hk, by simp [he]⟩)⟩

theorem onlyMax_unflagged (s : Bool) (inp : Mem) (n : Nat) : ∃ v, (LeCfg.info ⟨s, true⟩ inp n).rle v = false := by
  show ∃ b : Byte, flagMax (tally (LeCfg.blk ⟨s, true⟩) inp n) b.toNat = false
  generalize tally (LeCfg.blk ⟨s, true⟩) inp n = t
  by_cases h : flagMax t 0 = true
  · refine ⟨1, ?_⟩
    cases h1 : flagMax t (1 : Byte).toNat with
    | false => rfl
    | true => exact absurd (flagMax_one t h h1) (by decide)
  · exact ⟨0, by simpa using h⟩

theorem written_values {blk : Nat} (hb : blk = 32 ∨ blk = 255) {inp : Mem} {n : Nat} (rle : Nat → Bool) (hn : 0 < n) (hn2 : n < 4294967295)
    (hv : values inp n ≤ 255) : (infoOf (tally blk inp n).pcount rle).written ≤ values inp n := by
  have h1 := values_absent (blk := blk) (inp := inp) hn
  have hab := absent_lt hb hn hn2 (inp := inp)
  have hsc : (infoOf (tally blk inp n).pcount rle).symbolCount = (256 - (absent (tally blk inp n).pcount 256 []).length) % 256 := rfl
  unfold LeInfo.written
  rw [hsc]
  generalize (absent (tally blk inp n).pcount 256 []).length = a at *
  split <;> omega

/-- C20 for the plain low entropy codecs when not all byte values occur: the header then takes one byte less for each that does not. -/
theorem C20_low_entropy_values_partial (short : Bool) (inp : Mem) (n outSize : Nat) (hn : 0 < n) (hv : values inp n ≤ 255)
    (h0 : n + 297 ≤ outSize) (h1 : n + n / (if short then 32 else 255) + 43 + values inp n ≤ outSize) (h2 : outSize < 4294967296) :
    ∃ out, LeCfg.compress ⟨short, false⟩ (some inp) n true outSize = .ok out.length out ∧
      out.length ≤ n + n / (if short then 32 else 255) + 43 + values inp n := by
  have hb := LeCfg.blk_cases ⟨short, false⟩
  have hb' : LeCfg.blk ⟨short, false⟩ = 32 ∨ LeCfg.blk ⟨short, false⟩ = 255 := by omega
  have hbe : (if short then 32 else 255) = LeCfg.blk ⟨short, false⟩ := rfl
  rw [hbe] at h1 ⊢
  have hbd : leBounds n ≤ n + 297 := Nat.mod_le _ _
  have hn2 : n < 4294967295 := by omega
  obtain ⟨y, _, _, hy3⟩ := C34_info_roundtrip ⟨short, false⟩ inp n []
  obtain ⟨d, hd, _⟩ := leEncode_spec (cnt := y.toCount) (mx := LeCfg.blk ⟨short, false⟩ - 1) (x := LeCfg.info ⟨short, false⟩ inp n)
    (inp := inp) (n := n) (blk := LeCfg.blk ⟨short, false⟩) (by omega) (by omega) (by omega) hy3
  have hw : (writeInfo (LeCfg.info ⟨short, false⟩ inp n)).length ≤ 33 + values inp n := by
    rw [LeCfg.info_eq, writeInfo_length]
    have := written_values hb' (if LeCfg.onlyMax ⟨short, false⟩ then flagMax (tally (LeCfg.blk ⟨short, false⟩) inp n)
        else flagAll (tally (LeCfg.blk ⟨short, false⟩) inp n)) hn hn2 hv
    omega
  have hsize : d.length ≤ n + n / LeCfg.blk ⟨short, false⟩ + 2 := leEncode_tight hb' hn hn2 (fun _ => rfl) hd
  clear hy3
  simp only [LeCfg.compress]
  generalize LeCfg.info ⟨short, false⟩ inp n = x at *
  generalize LeCfg.blk ⟨short, false⟩ = blk at *
  generalize n / blk = q at *
  generalize values inp n = vs at *
  obtain ⟨out, hout⟩ : ∃ out, out = le32 (8 + (writeInfo x).length + d.length) ++ le32 n ++ writeInfo x ++ d := ⟨_, rfl⟩
  have hl : out.length = 8 + (writeInfo x).length + d.length := by rw [hout]; simp; omega
  refine ⟨out, ?_, by omega⟩
  rw [if_neg (by simp; omega), if_neg (by omega), if_neg (by omega), if_neg (by omega), if_neg (by rw [Nat.mod_eq_of_lt (by omega)]; omega), hd]
  simp only
  rw [if_pos (by omega), Nat.mod_eq_of_lt (by omega), ← hout, ← hl]

/-! ### One attempt -/

/-- What is left to show for one codec: the stream fits into the tool's buffer and the decompressor, given all of that buffer, restores
the file. -/
theorem attempt_ok {e : Env} {data : List Byte} {ce cd : Cpu} {junk : CodecT → Vec} {inp : Mem} {aIn aOut : Nat}
    (hl : Library e data ce cd junk inp aIn aOut) (hi : Holds inp data) (h0 : 0 < data.length)
    (hn : data.length ≤ 1073741824) {c : CodecT} {row : Row} (hrow : rowOf c = some row) (a : Attempt e data c)
    {ret : Nat} {out : List Byte}
    (hc : row.comp.run ce (junk c) a.buf (some inp) data.length true (toolBuffer data.length) = .ok ret out)
    (hlen : out.length ≤ toolBuffer data.length)
    (hd : ∀ slack : List Byte, slack.length = toolBuffer data.length - out.length →
      ∃ m', row.dec.run cd ⟨some (out ++ slack), ret, some a.out, toolBuffer data.length, data.length + addSize, aIn, aOut⟩ =
        .ok data.length m' ∧ ∀ k, k < data.length → m' k = inp k) : a.Ok := by
  have htb := toolBuffer_lt hn
  obtain ⟨hret, hpos⟩ := run_ret (by omega) htb hc
  have hcomp := hl.comp c row a.buf ret out hrow hc
  have hag := a.agree
  rw [hcomp] at hag
  have hsize : a.size = ret := by unfold Attempt.size; rw [hcomp]
  have hsrc : (List.range (toolBuffer data.length)).map a.buf' =
      out ++ ((List.range (toolBuffer data.length)).map a.buf').drop out.length := by
    conv => lhs; rw [← List.take_append_drop out.length ((List.range (toolBuffer data.length)).map a.buf')]
    congr 1
    apply List.ext_getElem
    · simp; omega
    · intro i h1 h2
      simp only [List.getElem_take, List.getElem_map, List.getElem_range]
      have := hag i (by show i < ret; omega)
      rw [this]
      show (if i < out.length then out.getD i 0 else a.buf i) = _
      rw [if_pos h2, List.getD_eq_getElem?_getD, List.getElem?_eq_getElem h2]
      rfl
  obtain ⟨m', hd, hm⟩ := hd (((List.range (toolBuffer data.length)).map a.buf').drop out.length) (by simp)
  rw [← hsrc] at hd
  have hdec := hl.dec c row ret a.buf' a.out data.length m' hrow hd
  have hres : a.result = (data.length, m') := by unfold Attempt.result; rw [hsize, hdec]
  refine ⟨by rw [hsize]; omega, by rw [hres]; show data.length ≠ 0; omega, fun i h => ?_⟩
  rw [hres]
  exact (hm i h).trans (hi i h)

/-- For which files the output of a codec is known to fit the tool's buffer and to be restored: the extreme codecs as in `fitsFile`,
`rle8_mmtf128` and the low entropy codecs with one run symbol always, `rle8_sh` up to 47515 bytes, the plain low entropy codecs
if enough byte values do not occur (C20). -/
def Suits (inp : Mem) (n : Nat) : What → Prop
  | .rle .mm | .rle (.le _ true) => True
  | .rle .rsh => n ≤ 47515
  | .rle (.le short false) => n / (if short then 32 else 255) + values inp n ≤ 254
  | .rle f => n ≤ fitsFile f
  | _ => True

theorem dec_le {row : Row} (hr : row ∈ table) {s o : Bool} (h : row.comp = .le s o) : row.dec = .le s := by
  have key : table.all (fun r => match r.comp with | .le s _ => r.dec == .le s | _ => true) = true := by decide +kernel
  have := List.all_eq_true.mp key row hr
  rw [h] at this
  simpa using this

theorem what_trans (c : CodecT) : (∀ k, what c = .mtf k → k = 128 ∨ k = 256) ∧ (∀ k, what c = .bitMtf k → k = 8 ∨ k = 16) ∧
    (what c = .copy → c = .MemCopy) := by
  have h := codec_forall (fun c => match what c with
    | .mtf k => k == 128 || k == 256
    | .bitMtf k => k == 8 || k == 16
    | .copy => c == .MemCopy
    | _ => true) (by decide +kernel) c
  refine ⟨fun k hk => ?_, fun k hk => ?_, fun hk => ?_⟩ <;> rw [hk] at h <;> simpa using h

theorem toolBuffer_ge {n : Nat} (hn : n ≤ 1073741824) : n + 297 ≤ toolBuffer n := by
  have h := (C45_buffer n).2.2.2.2
  unfold leBounds at h
  omega

/-- C46, partial: with the codecs and transforms of the library, the test of a file exits with 0 with any options, the default of all 120
codecs included, if the file suits the codecs the options let through. Missing: the other files (C07, C08, C17 to C20 have violations). -/
theorem C46_any_options_partial (e : Env) (hw : Hw) (atoi : String → Int) (os : List Opt) (b : Mem × Mem)
    (ho : TestOf hw atoi os) (data : List Byte) (hf : e.file = some data) (hn : data.length ≤ 1073741824)
    (ce cd : Cpu) (hce : ce.sse2 = true) (hcd : cd.sse2 = true) (junk : CodecT → Vec) (inp : Mem) (aFile aBuf aOut : Nat)
    (hi : Holds inp data) (hl : Library e data ce cd junk inp aBuf aOut) (ht : Transforms e data ce cd aFile aBuf aOut)
    (hs : ∀ c, (∀ o ∈ os, o.admits (what c)) → Suits inp data.length (what c)) :
    tool e hw atoi (os.flatMap Opt.words) b = 0 := by
  by_cases h0 : data.length = 0
  · obtain ⟨s, hs, _, hz, _, _⟩ := ho.state
    unfold tool exitCode
    rw [hs]
    simp [hz, hf, h0]
  refine C45_no_false_alarm e hw atoi os b ho data hf (by omega) fun c hsel hc a => ?_
  have hsuit := hs c hsel
  have htb := toolBuffer_lt hn
  have hge := toolBuffer_ge hn
  have hpos : 0 < data.length := by omega
  obtain ⟨w1, w2, w3⟩ := what_trans c
  cases hwc : what c with
  | copy => exact absurd (w3 hwc) hc
  | mtf k => exact transforms_ok ht hce hcd hpos (.inl ⟨k, hwc, w1 k hwc⟩) a
  | bitMtf k => exact transforms_ok ht hce hcd hpos (.inr ⟨k, hwc, w2 k hwc⟩) a
  | rle f =>
    rw [hwc] at hsuit
    obtain ⟨row, hrow, hcomp⟩ := rowOf_what hwc
    have hmem := rowOf_mem hrow
    have roomy : (∀ s o, f ≠ .le s o) → (∀ buf, ∃ out, f.run ce (junk c) buf (some inp) data.length true (toolBuffer data.length) =
        .ok out.length out ∧ out.length + 64 ≤ toolBuffer data.length) → a.Ok := by
      intro hle hr
      refine library_ok hl hi hpos hn ⟨row, hrow, by rw [hcomp]; exact hle _ _, by rw [hcomp]; exact hle _ _, fun buf => ?_⟩ a
      obtain ⟨out, h1, h2⟩ := hr buf
      exact ⟨out.length, out, by rw [hcomp]; exact h1, h2⟩
    have extreme : What.family (.rle f) = some .extreme → data.length ≤ fitsFile f → a.Ok := by
      intro hfam hfit
      have hle : ∀ s o, f ≠ .le s o := by rintro s o rfl; cases hfam
      refine roomy hle fun buf => ?_
      have key : table.all (fun r => pairs r.comp r.dec || r.comp == .le false false || r.comp == .le true false) = true := by
        decide +kernel
      have hp := List.all_eq_true.mp key row hmem
      have hp2 : pairs f row.dec = true := by
        rw [hcomp] at hp
        simp only [Bool.or_eq_true, beq_iff_eq] at hp
        rcases hp with (hp | hp) | hp
        · exact hp
        · exact absurd hp (hle _ _)
        · exact absurd hp (hle _ _)
      obtain ⟨out, h1, h2⟩ := fitsFile_ok hp2 ce (junk c) buf inp data.length (toolBuffer data.length) hpos hn
        hfit (C45_buffer _).1 htb
      refine ⟨out, h1, ?_⟩
      unfold bounds at h2
      split at h2 <;> omega
    cases f with
    | r8 s p => exact extreme rfl hsuit
    | x S u p => exact extreme rfl hsuit
    | sl N S u => exact extreme rfl hsuit
    | sh N S u m => exact extreme rfl hsuit
    | x128 u p => exact extreme rfl hsuit
    | rsh =>
      refine roomy (fun _ _ h => nomatch h) fun buf => ?_
      have hsuit : data.length ≤ 47515 := hsuit
      obtain ⟨out, h1, h2⟩ := C20_sh_partial buf inp data.length (toolBuffer data.length) hpos hn (by omega) htb
      exact ⟨out, h1, by omega⟩
    | mm =>
      refine roomy (fun _ _ h => nomatch h) fun buf => ?_
      obtain ⟨out, h1, h2⟩ := C20_mmtf128_partial (junk c) buf inp data.length (toolBuffer data.length) hpos hn (by omega)
      exact ⟨out, h1, by omega⟩
    | le s o =>
      have hdec := dec_le hmem hcomp
      have hout : ∃ out, LeCfg.compress ⟨s, o⟩ (some inp) data.length true (toolBuffer data.length) = .ok out.length out ∧
          out.length ≤ toolBuffer data.length ∧ ∃ v, (LeCfg.info ⟨s, o⟩ inp data.length).rle v = false := by
        cases o with
        | true =>
          obtain ⟨out, h1, h2⟩ := C20_low_entropy_only_max_fits s inp data.length (toolBuffer data.length) hpos hn
            (C45_buffer _).2.2.2.2 htb
          exact ⟨out, h1, Nat.le_trans h2 (C45_buffer _).2.2.2.2, onlyMax_unflagged s inp data.length⟩
        | false =>
          have hsuit : data.length / (if s then 32 else 255) + values inp data.length ≤ 254 := hsuit
          have hv0 : values inp data.length ≤ 255 := Nat.le_trans (Nat.le_trans (Nat.le_add_left _ _) hsuit) (by decide)
          have hroom : data.length + data.length / (if s then 32 else 255) + 43 + values inp data.length ≤ toolBuffer data.length := by
            generalize data.length / (if s then 32 else 255) = q at *
            omega
          obtain ⟨out, h1, h2⟩ := C20_low_entropy_values_partial s inp data.length (toolBuffer data.length) hpos hv0 hge hroom htb
          refine ⟨out, h1, Nat.le_trans h2 hroom, ?_⟩
          obtain ⟨v, hv⟩ := values_lt (inp := inp) (n := data.length) hv0
          refine ⟨v, ?_⟩
          show flagAll (tally (LeCfg.blk ⟨s, false⟩) inp data.length) v.toNat = false
          unfold flagAll
          rw [tally_absent hpos hv]
          rfl
      obtain ⟨out, h1, h2, h3⟩ := hout
      refine attempt_ok hl hi hpos hn hrow a (ret := out.length) (out := out) (by rw [hcomp]; exact h1) h2 fun slack _ => ?_
      rw [hdec]
      obtain ⟨m', g1, g2, _⟩ := LeCfg.roundTrip ⟨s, o⟩ cd inp data.length (toolBuffer data.length) out.length out hpos (by omega) htb h1 h3
        slack a.out ⟨some (out ++ slack), out.length, some a.out, toolBuffer data.length, data.length + addSize, aBuf, aOut⟩ rfl
        (Nat.le_refl _) rfl (by show data.length ≤ toolBuffer data.length; omega) (Nat.le_add_right _ _)
      exact ⟨m', g1, g2⟩

theorem values_text {inp : Mem} {data : List Byte} (hi : Holds inp data) (ht : ∀ x ∈ data, x.toNat < 128) : values inp data.length ≤ 128 := by
  unfold values
  rw [← List.countP_eq_length_filter]
  have h1 : List.countP (fun v => (List.range data.length).any fun i => inp i == b8 v) (List.range 256) ≤
      List.countP (fun v => decide (v < 128)) (List.range 256) := by
    refine List.countP_mono_left ?_
    intro v hv h
    obtain ⟨i, h2, h3⟩ := List.any_eq_true.mp h
    have h4 := List.mem_range.mp h2
    have h5 : inp i = b8 v := by simpa using h3
    rw [hi i h4, List.getD_eq_getElem?_getD, List.getElem?_eq_getElem h4] at h5
    have h6 := ht _ (List.getElem_mem h4)
    have h7 : (b8 v).toNat = v := by
      have := List.mem_range.mp hv
      simp [b8]; omega
    have h5 : data[i] = b8 v := h5
    rw [h5, h7] at h6
    simpa using h6
  have h2 : List.countP (fun v => decide (v < 128)) (List.range 256) = 128 := by decide +kernel
  omega

/-- C46: `hsrlekit file --test` with any further options, or none, exits with 0 for every file of up to 4000 bytes of 7 bit text, on every
processor with SSE2: all 120 codecs restore it, at every address, whatever the buffers held before, and however often the clock makes
the tool repeat the calls. -/
theorem C46_text_passes (e : Env) (hw : Hw) (atoi : String → Int) (os : List Opt) (b : Mem × Mem)
    (ho : TestOf hw atoi os) (data : List Byte) (hf : e.file = some data) (hn : data.length ≤ 4000) (h7 : ∀ x ∈ data, x.toNat < 128)
    (ce cd : Cpu) (hce : ce.sse2 = true) (hcd : cd.sse2 = true) (junk : CodecT → Vec) (inp : Mem) (aFile aBuf aOut : Nat)
    (hi : Holds inp data) (hl : Library e data ce cd junk inp aBuf aOut) (ht : Transforms e data ce cd aFile aBuf aOut) :
    tool e hw atoi (os.flatMap Opt.words) b = 0 := by
  refine C46_any_options_partial e hw atoi os b ho data hf (by omega) ce cd hce hcd junk inp aFile aBuf aOut hi hl ht fun c _ => ?_
  have hv := values_text hi h7
  cases what c with
  | rle f =>
    cases f with
    | le s o =>
      cases o with
      | true => trivial
      | false =>
        show data.length / (if s then 32 else 255) + values inp data.length ≤ 254
        cases s <;> simp only [Bool.false_eq_true, if_true, if_false] <;> omega
    | rsh => show data.length ≤ 47515; omega
    | mm => trivial
    | r8 s p => exact Nat.le_trans (show data.length ≤ 10000 by omega) (fitsFile_small rfl)
    | x S u p => exact Nat.le_trans (show data.length ≤ 10000 by omega) (fitsFile_small rfl)
    | sl N S u => exact Nat.le_trans (show data.length ≤ 10000 by omega) (fitsFile_small rfl)
    | sh N S u m => exact Nat.le_trans (show data.length ≤ 10000 by omega) (fitsFile_small rfl)
    | x128 u p => exact Nat.le_trans (show data.length ≤ 10000 by omega) (fitsFile_small rfl)
  | _ => trivial

/-- `--test` alone. -/
example (hw : Hw) (atoi : String → Int) : TestOf hw atoi [.test] where
  accepted := rfl
  noFuzz := by decide
  documented := by decide +kernel
  short := by decide

/-- There is an environment that behaves like the library, transforms included. -/
theorem library_all_exists (data : List Byte) (ce cd : Cpu) (junk : CodecT → Vec) (inp : Mem) (aFile aBuf aOut : Nat) :
    ∃ e : Env, e.file = some data ∧ Library e data ce cd junk inp aBuf aOut ∧ Transforms e data ce cd aFile aBuf aOut := by
  obtain ⟨e, h1, h2⟩ := library_exists data ce cd junk inp aBuf aOut
  have hno : ∀ c row dec cpu a a' src o r, rowOf c = some row → trans dec (what c) cpu a a' src o = some r → False := by
    intro c row dec cpu a a' src o r hr ht
    have : ∃ f, what c = .rle f := by
      unfold what
      rw [List.lookup_append, lookup_find]
      unfold rowOf at hr
      rw [hr]
      exact ⟨_, rfl⟩
    obtain ⟨f, hf⟩ := this
    rw [hf] at ht
    cases ht
  refine ⟨{ e with
    comp := fun c n cap buf => match trans false (what c) ce aFile aBuf data cap with
      | some (.ok ret out) => (ret, fun i => if i < out.length then out.getD i 0 else buf i)
      | _ => e.comp c n cap buf
    dec := fun c size buf cap m => match trans true (what c) cd aBuf aOut ((List.range size).map buf) cap with
      | some (.ok ret out) => (ret, fun i => if i < out.length then out.getD i 0 else m i)
      | _ => e.dec c size buf cap m }, h1, ⟨?_, ?_⟩, ⟨?_, ?_⟩⟩
  · intro c row buf ret out hr hc
    cases ht : trans false (what c) ce aFile aBuf data (toolBuffer data.length) with
    | some r => exact (hno _ _ _ _ _ _ _ _ _ hr ht).elim
    | none => simp only [ht]; exact h2.comp c row buf ret out hr hc
  · intro c row size buf out ret m hr hd
    cases ht : trans true (what c) cd aBuf aOut ((List.range size).map buf) (toolBuffer data.length) with
    | some r => exact (hno _ _ _ _ _ _ _ _ _ hr ht).elim
    | none => simp only [ht]; exact h2.dec c row size buf out ret m hr hd
  · intro c buf ret out h; simp only [h]
  · intro c size buf m ret out h; simp only [h]

end Hrk.Cli
