import Verif.PropsStale
import Verif.PropsOcl
import Verif.PropsToolReal

/-! # C70: a stream that was cut off is refused

Someone gives a decompressor the beginning of a stream, as after a download that broke off, and says how many bytes there are. -/

namespace Hrk

/-- Of what `comp` wrote, `decomp` is given the first `k` bytes, fewer than all, and `inSize = k`. It returns 0 and touches nothing: neither
the output buffer, whatever that is, nor what lies `behind` the `k` bytes. -/
def RefusesCut (lo : Nat) (comp : Compress) (decomp : Decompress) : Prop :=
  ∀ (inp : Mem) (n outSize ret : Nat) (out : List Byte), n < 4294967296 → outSize < 4294967296 →
    comp (some inp) n true outSize = .ok ret out →
    ∀ (k : Nat) (behind : List Byte) (a : DArgs), lo ≤ k → k < out.length → a.pIn = some (out.take k ++ behind) → a.inSize = k →
      decomp a = .fail

/-- How many bytes a decompressor reads before it looks at them: the two sizes, and for `rle8[_packed]_decompress` the mode byte
(src/rle8_extreme_cpu.h:707-709). -/
def DName.head : DName → Nat
  | .r8 _ => 9
  | _ => 8

/-- The first eight bytes are a whole header. -/
theorem take_header {x y k : Nat} {body : List Byte} (hk : 8 ≤ k) :
    (le32 x ++ le32 y ++ body).take k = le32 x ++ le32 y ++ body.take (k - 8) := by
  rw [List.take_append, List.take_of_length_le (by simp; omega)]
  simp

theorem refuses_of {comp : Compress} {decomp : Decompress} {d : Decompress} (hh : HeaderTruthful comp d) (hg : DecompressGuards decomp)
    (hlen : ∀ inp n outSize ret out, n < 4294967296 → outSize < 4294967296 → comp (some inp) n true outSize = .ok ret out →
      out.length ≤ outSize) : RefusesCut 8 comp decomp := by
  intro inp n outSize ret out hn ho hc k behind a hk hlt hpi hin
  obtain ⟨h1, body, h2⟩ := hh.1 inp n outSize ret out hn ho hc
  have hl := hlen inp n outSize ret out hn ho hc
  refine hg.2 a n ret (body.take (k - 8) ++ behind) hn (by omega) ?_ (Or.inr (by omega))
  rw [hpi, h2, take_header hk, List.append_assoc]

theorem refuses_of_rev {comp : Compress} {decomp : Decompress} {d : Decompress} (hh : HeaderTruthfulRev comp d)
    (hg : DecompressGuardsRev decomp)
    (hlen : ∀ inp n outSize ret out, n < 4294967296 → outSize < 4294967296 → comp (some inp) n true outSize = .ok ret out →
      out.length ≤ outSize) : RefusesCut 8 comp decomp := by
  intro inp n outSize ret out hn ho hc k behind a hk hlt hpi hin
  obtain ⟨h1, body, h2⟩ := hh.1 inp n outSize ret out hn ho hc
  have hl := hlen inp n outSize ret out hn ho hc
  refine hg.2 a n ret (body.take (k - 8) ++ behind) hn (by omega) ?_ (Or.inr (by omega))
  rw [hpi, h2, take_header hk, List.append_assoc]

theorem refuses_of_next {comp : Compress} {decomp : Decompress} {d : Decompress} (hh : HeaderTruthful comp d) (hg : DecompressGuardsNext decomp)
    (hlen : ∀ inp n outSize ret out, n < 4294967296 → outSize < 4294967296 → comp (some inp) n true outSize = .ok ret out →
      out.length ≤ outSize) : RefusesCut 9 comp decomp := by
  intro inp n outSize ret out hn ho hc k behind a hk hlt hpi hin
  obtain ⟨h1, body, h2⟩ := hh.1 inp n outSize ret out hn ho hc
  have hl := hlen inp n outSize ret out hn ho hc
  have hb : 0 < (body.take (k - 8)).length := by
    rw [h2] at hlt
    simp only [List.length_append, le32_length] at hlt
    rw [List.length_take]
    omega
  cases ht : body.take (k - 8) with
  | nil => rw [ht] at hb; simp at hb
  | cons next rest =>
    refine hg.2 a n ret next (rest ++ behind) hn (by omega) ?_ (Or.inr (by omega))
    rw [hpi, h2, take_header (by omega), ht, List.append_assoc]
    rfl

theorem DName.guards (f : DName) (hf : ∀ s, f ≠ .le s) (h8 : ∀ p, f ≠ .r8 p) (cpu : Cpu) : DecompressGuards (f.run cpu) := by
  cases f with
  | r8 p => exact absurd rfl (h8 p)
  | x S u p => exact C25_multibyte_guards ⟨S, u, p⟩ cpu
  | sl N S u => exact C25_symlut_guards ⟨N, S, u⟩ cpu
  | sh N S u m => exact C25_short_guards ⟨N, S, u, m⟩ cpu
  | x128 u p => exact C25_rle128_guards u p cpu
  | rsh => exact C25_sh_guards
  | mm => exact C25_mmtf128_guards
  | le s => exact absurd rfl (hf s)

/-- C70: for every row of the table, whatever processor compressed and whatever processor decompresses, a stream of which at least the
header is there (eight bytes; nine for rle8) and at least one byte is missing is refused. Missing for the whole claim: fewer bytes. -/
theorem C70_table_partial (row : Row) (hrow : row ∈ table) (ce cd : Cpu) (junk : Vec) (m : Mem) :
    RefusesCut row.dec.head (row.comp.run ce junk m) (row.dec.run cd) := by
  have hp : ∀ row ∈ table, pairs row.comp row.dec = true ∨ ∃ s, row.dec = .le s := by
    have key : table.all (fun row => pairs row.comp row.dec || match row.dec with | .le _ => true | _ => false) = true := by decide +kernel
    intro row hr
    have := List.all_eq_true.mp key row hr
    rw [Bool.or_eq_true] at this
    rcases this with h | h
    · exact Or.inl h
    · cases hd : row.dec <;> rw [hd] at h <;> first | exact Or.inr ⟨_, rfl⟩ | cases h
  have hle : ∀ row ∈ table, (∃ s o, row.comp = .le s o ∧ row.dec = .le s) ∨ ((∀ s o, row.comp ≠ .le s o) ∧ ∀ s, row.dec ≠ .le s) := by
    have key : table.all (fun row => match row.comp, row.dec with
      | .le s _, .le s' => s == s'
      | .le _ _, _ => false
      | _, .le _ => false
      | _, _ => true) = true := by decide +kernel
    intro row hr
    have := List.all_eq_true.mp key row hr
    obtain ⟨id, comp, dec⟩ := row
    cases comp <;> cases dec <;> simp_all
  rcases hle row hrow with ⟨s, o, h1, h2⟩ | ⟨h1, h2⟩
  · rw [h1, h2]
    show RefusesCut 8 _ _
    refine refuses_of_rev (C22_low_entropy_header ⟨s, o⟩ cd) (C25_low_entropy_guards s cd) fun inp n outSize ret out hn ho hc => ?_
    obtain ⟨d, hd, hout, hret, hle⟩ := LeCfg.compress_ok hc
    rw [hout]
    simp
    omega
  · have hpr := (hp row hrow).resolve_right (fun ⟨s, h⟩ => h2 s h)
    by_cases h8 : ∃ p, row.dec = .r8 p
    · obtain ⟨p, hd⟩ := h8
      rw [hd] at hpr ⊢
      cases hf : row.comp with
      | r8 s q =>
        rw [hf] at hpr
        have hq : q = p := by simpa [pairs] using hpr
        subst hq
        exact refuses_of_next (C22_rle8_header ⟨s, q⟩ ce cd) (C25_rle8_guards_partial q cd)
          fun _ _ _ _ _ _ _ h => (apiCompress_len _ _ _ _ _ _ h).1
      | _ => rw [hf] at hpr; simp [pairs] at hpr
    have h8' : ∀ p, row.dec ≠ .r8 p := fun p h => h8 ⟨p, h⟩
    have hd8 : row.dec.head = 8 := by
      cases hd : row.dec <;> first | rfl | exact absurd hd (h8' _)
    rw [hd8]
    have hg := row.dec.guards h2 h8' cd
    cases hf : row.comp with
    | r8 s p =>
      rw [hf] at hpr
      cases hd : row.dec <;> rw [hd] at hpr <;> simp [pairs] at hpr
      exact absurd hd (h8' _)
    | x S u p => exact refuses_of (C22_multibyte_header ⟨S, u, p⟩ ce cd) hg fun _ _ _ _ _ _ _ h => (apiCompress_len _ _ _ _ _ _ h).1
    | sl N S u => exact refuses_of (C22_symlut_header ⟨N, S, u⟩ ce cd) hg fun _ _ _ _ _ _ _ h => (apiCompress_len _ _ _ _ _ _ h).1
    | sh N S u m => exact refuses_of (C22_short_header ⟨N, S, u, m⟩ ce cd) hg fun _ _ _ _ _ _ _ h => (apiCompress_len _ _ _ _ _ _ h).1
    | x128 u p => exact refuses_of (C22_rle128_header u p ce cd) hg fun _ _ _ _ _ _ _ h => (apiCompress_len _ _ _ _ _ _ h).1
    | rsh => exact refuses_of (C22_sh_header m) hg fun _ _ _ _ _ _ ho h => (C20_sh_accepted _ _ _ _ _ _ ho h).2
    | mm =>
      refine refuses_of (C22_mmtf128_header junk m) hg fun _ _ _ _ _ hn _ h => ?_
      obtain ⟨_, _, _, _, _, _, _, hl, _⟩ := mmCompress_ok hn h
      exact hl
    | le s o => exact absurd hf (h1 s o)

/-- C70: the same for rle8m, with any number of sections, and for the decompressor that uses OpenCL, which leaves the device alone. -/
theorem C70_rle8m_partial (sections : Nat) (cd : Cpu) (e : OclEnv) (st : OclSt) :
    RefusesCut 8 (mCompress sections) (mDecompress cd) ∧ RefusesCut 8 (mCompress sections) fun a => (oclDecompress e st a).2 := by
  have hlen : ∀ inp n outSize ret out, n < 4294967296 → outSize < 4294967296 →
      mCompress sections (some inp) n true outSize = .ok ret out → out.length ≤ outSize := by
    intro inp n outSize ret out hn ho hc
    obtain ⟨hk0, x, w, ds, hx, hw, hs, hle, hret, hout⟩ := mCompress_ok hc
    rw [hout]
    simp only [List.length_append, le32_length, mOffsets_length, hs.length]
    omega
  exact ⟨refuses_of_rev (C22_rle8m_header sections cd) (C25_rle8m_guards cd).1 hlen,
    refuses_of_rev (C22_rle8m_header sections cd) (C25_opencl_guards e st).1 hlen⟩

/-! ### Less than the header -/

/-- Whatever the bytes are, if there are fewer than `head`, then `head` are read. -/
def ReadsBehindCut (head : Nat) (decomp : Decompress) : Prop :=
  ∀ (src : List Byte) (a : DArgs), 0 < src.length → src.length < head → a.pIn = some src → a.inSize = src.length → a.pOut ≠ none →
    0 < a.outSize → decomp a = .ub

theorem rdU32_cut {src : List Byte} (h : src.length < 8) : rdU32 src = none ∨ ∃ x r, rdU32 src = some (x, r) ∧ rdU32 r = none := by
  match src with
  | [] | [_] | [_, _] | [_, _, _] => exact Or.inl rfl
  | a :: b :: c :: d :: r =>
    refine Or.inr ⟨_, r, rfl, ?_⟩
    match r with
    | [] | [_] | [_, _] | [_, _, _] => rfl
    | _ :: _ :: _ :: _ :: r => simp at h; omega

theorem apiDecompress_cut {σ : Type} (start : List Byte → Option (Option (σ × List Byte))) (hdr : σ → List Byte → Option (Hdr σ)) (v : DecV) :
    ReadsBehindCut 8 (apiDecompress start hdr v) := by
  intro src a h0 h8 hpi hin hpo ho
  obtain ⟨m, hm⟩ := Option.ne_none_iff_exists'.mp hpo
  unfold apiDecompress
  simp only [hpi, hm, hin]
  rw [if_neg (by omega)]
  rcases rdU32_cut h8 with h | ⟨x, r, h, h'⟩
  · simp only [h]
  · simp only [h, h']

theorem Cdc.cut {σ : Type} (c : Cdc σ) (cpu : Cpu) : ReadsBehindCut 8 (c.decompress cpu) := apiDecompress_cut _ _ _

/-- C70 is violated: given one to seven bytes of anything (eight for rle8), every decompressor reads behind them, because only `inSize == 0` is
checked before the two sizes of the header are read. -/
theorem C70_header_violated (f : DName) (cpu : Cpu) : ReadsBehindCut f.head (f.run cpu) := by
  cases f with
  | r8 p =>
    intro src a h0 h8 hpi hin hpo ho
    obtain ⟨m, hm⟩ := Option.ne_none_iff_exists'.mp hpo
    show R8Cfg.decompress p cpu a = .ub
    unfold R8Cfg.decompress
    simp only [hpi, hm]
    rw [if_pos ⟨by omega, by omega, h8⟩]
  | x S u p => exact Cdc.cut (XCfg.cdc ⟨S, u, p⟩) cpu
  | sl N S u => exact Cdc.cut (SlCfg.cdc ⟨N, S, u⟩) cpu
  | sh N S u m => exact Cdc.cut (ShCfg.cdc ⟨N, S, u, m⟩) cpu
  | x128 u p => exact Cdc.cut (cdc128 u p) cpu
  | rsh =>
    intro src a h0 h8 hpi hin hpo ho
    obtain ⟨m, hm⟩ := Option.ne_none_iff_exists'.mp hpo
    simp only [DName.run, shDecompress, hpi, hm, hin]
    rw [if_neg (by omega)]
    rcases rdU32_cut h8 with h | ⟨x, r, h, h'⟩
    · simp only [h]
    · simp only [h, h']
  | mm =>
    intro src a h0 h8 hpi hin hpo ho
    obtain ⟨m, hm⟩ := Option.ne_none_iff_exists'.mp hpo
    simp only [DName.run, mmDecompress, hpi, hm, hin]
    rw [if_neg (by omega)]
    rcases rdU32_cut h8 with h | ⟨x, r, h, h'⟩
    · simp only [h]
    · simp only [h, h']
  | le s =>
    intro src a h0 h8 hpi hin hpo ho
    obtain ⟨m, hm⟩ := Option.ne_none_iff_exists'.mp hpo
    simp only [DName.run, leDecompress, hpi, hm, hin]
    rw [if_neg (by omega)]
    rcases rdU32_cut h8 with h | ⟨x, r, h, h'⟩
    · simp only [h]
    · simp only [h, h']

/-- C70 is violated by rle8m in the same way, on the processor and with OpenCL. -/
theorem C70_rle8m_header_violated (cpu : Cpu) (e : OclEnv) (st : OclSt) :
    ReadsBehindCut 8 (mDecompress cpu) ∧ ReadsBehindCut 8 fun a => (oclDecompress e st a).2 := by
  constructor
  · intro src a h0 h8 hpi hin hpo ho
    obtain ⟨m, hm⟩ := Option.ne_none_iff_exists'.mp hpo
    simp only [mDecompress, hpi, hm, hin]
    rw [if_neg (by omega)]
    rcases rdU32_cut h8 with h | ⟨x, r, h, h'⟩
    · simp only [h]
    · simp only [h, h']
  · intro src a h0 h8 hpi hin hpo ho
    obtain ⟨m, hm⟩ := Option.ne_none_iff_exists'.mp hpo
    simp only [oclDecompress, hpi, hm, hin]
    rw [if_neg (by omega)]
    rcases rdU32_cut h8 with h | ⟨x, r, h, h'⟩
    · simp only [h]
    · simp only [h, h']

/-- C70 is violated also where the memory behind can be read. Of the stream for twenty bytes 7 only four bytes are there and zeros follow: of the
plain, packed and symbol table codecs and of rle8_mmtf128, every decompressor returns 20, as if it had restored everything, and the first byte
is not 7. -/
theorem C70_success_violated (row : Row) (hrow : row ∈ table) (hs : ∀ N S u m, row.comp ≠ .sh N S u m) (hl : ∀ s o, row.comp ≠ .le s o)
    (hsh : row.comp ≠ .rsh) :
    ∃ m', row.dec.run noSimd ⟨some ((twenty row.comp).take 4 ++ List.replicate 500 0), 4, some fun _ => 0xCC, 20, 148, 0, 0⟩ = .ok 20 m' ∧
      m' 0 ≠ 7 := by
  have key : table.all (fun row => match row.comp with
      | .sh _ _ _ _ => true
      | .le _ _ => true
      | .rsh => true
      | _ => match row.dec.run noSimd ⟨some ((twenty row.comp).take 4 ++ List.replicate 500 0), 4, some fun _ => 0xCC, 20, 148, 0, 0⟩ with
        | .ok r m' => r == 20 && m' 0 != 7
        | _ => false) = true := by decide +kernel
  have h := List.all_eq_true.mp key row hrow
  have h2 : (match row.dec.run noSimd ⟨some ((twenty row.comp).take 4 ++ List.replicate 500 0), 4, some fun _ => 0xCC, 20, 148, 0, 0⟩ with
        | .ok r m' => r == 20 && m' 0 != 7
        | _ => false) = true := by
    cases hc : row.comp with
    | sh N S u m => exact absurd hc (hs N S u m)
    | le s o => exact absurd hc (hl s o)
    | rsh => exact absurd hc hsh
    | _ => simpa only [hc] using h
  revert h2
  cases row.dec.run noSimd ⟨some ((twenty row.comp).take 4 ++ List.replicate 500 0), 4, some fun _ => 0xCC, 20, 148, 0, 0⟩ with
  | ok r m' =>
    intro h2
    simp at h2
    exact ⟨m', by rw [h2.1], h2.2⟩
  | _ => intro h2; cases h2

/-! ### Cases -/

/-- A stream of 23 bytes, of which 22 are there. -/
example : (⟨"Extreme8", .r8 false false, .r8 false⟩ : Row) ∈ table ∧ (twenty (.r8 false false)).length = 23 := by decide +kernel

example : (DName.r8 false).run noSimd ⟨some ((twenty (.r8 false false)).take 22 ++ []), 22, some fun _ => 0xCC, 20, 148, 0, 0⟩ = .fail :=
  C70_table_partial ⟨"Extreme8", .r8 false false, .r8 false⟩ (by decide +kernel) noSimd noSimd vzero (fun _ => 0) (fun _ => 7) 20 1000 23
    (twenty (.r8 false false)) (by decide) (by decide) (by decide +kernel) 22 [] _ (by decide) (by decide +kernel) rfl rfl

end Hrk
