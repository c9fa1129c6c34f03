import Verif.Rle8
import Verif.PropsX

/-
Properties of rle8_multi, rle8_single, rle8_packed_multi and rle8_packed_single.
-/

namespace Hrk

/-! ### C03, C31 -/

theorem R8Cfg.upTo {lim : Nat} {comp : Compress} {packed : Bool} {cpu : Cpu}
    (h : RoundTripUpTo lim comp (apiDecompress R8Cfg.start (R8Cfg.hdr packed) (R8Cfg.decV cpu))) :
    RoundTripUpTo lim comp (R8Cfg.decompress packed cpu) := by
  intro inp n outSize ret out h1 h2 h3 slack m a h5 h6 h7 h8 h9 h10
  obtain ⟨m', g1, g2⟩ := h inp n outSize ret out h1 h2 h3 slack m a h5 h6 h7 h8 h9 h10
  exact ⟨m', R8Cfg.decompress_of_ok g1, g2⟩

/-- C03: whenever compress succeeds, `rle8[_packed]_decompress` on any CPU gives the input
back. The decoder is the same for the multi and the single encoder. -/
theorem C03_rle8_roundtrip (c : R8Cfg) (ce cd : Cpu) :
    RoundTrip (c.compress ce) (R8Cfg.decompress c.packed cd) :=
  R8Cfg.upTo (c.cdc_ok.roundTrip ce cd)

/-- Runs of 9 bytes. -/
def runInp : Mem := fun k => if k % 30 < 9 then 5 else UInt8.ofNat k

example : ((⟨false, false⟩ : R8Cfg).compress noSimd (some runInp) 100 true 300).size = 96 := by decide +kernel
example : ((⟨false, true⟩ : R8Cfg).compress noSimd (some runInp) 100 true 300).size = 98 := by decide +kernel
example : ((⟨true, false⟩ : R8Cfg).compress noSimd (some runInp) 100 true 300).size = 92 := by decide +kernel
example : ((⟨true, true⟩ : R8Cfg).compress withAvx2 (some runInp) 100 true 300).size = 92 := by decide +kernel

/-- Zeros in pairs behind more than 255 other bytes: the single encoders go back to the first pair. -/
def wasteInp : Mem := fun k => if k < 300 then UInt8.ofNat (k % 250 + 1) else if k % 5 < 2 then 0 else UInt8.ofNat (k % 250 + 1)

example : ((⟨true, true⟩ : R8Cfg).compress noSimd (some wasteInp) 400 true 600).size = 424 := by decide +kernel

/-- C31: both encoders of a pair are served by one decoder, and any other mode byte makes it
return 0. -/
theorem C31_mode (packed : Bool) (ce cd : Cpu) :
    RoundTrip (R8Cfg.compress ⟨false, packed⟩ ce) (R8Cfg.decompress packed cd) ∧
    RoundTrip (R8Cfg.compress ⟨true, packed⟩ ce) (R8Cfg.decompress packed cd) ∧
    (∀ (a : DArgs) (m : Mem) (x y : Nat) (mode : Byte) (rest : List Byte), x < 4294967296 → y < 4294967296 →
      a.pIn = some (le32 x ++ le32 y ++ mode :: rest) → a.pOut = some m → mode ≠ 0 → mode ≠ 1 →
      R8Cfg.decompress packed cd a = .fail) := by
  refine ⟨C03_rle8_roundtrip ⟨false, packed⟩ ce cd, C03_rle8_roundtrip ⟨true, packed⟩ ce cd, ?_⟩
  intro a m x y mode rest hx hy hi ho h0 h1
  have hm : mode.toNat ≠ 0 ∧ mode.toNat ≠ 1 :=
    ⟨fun h => h0 (UInt8.toNat.inj h), fun h => h1 (UInt8.toNat.inj h)⟩
  have hs : R8Cfg.start (mode :: rest) = some none := by
    simp only [R8Cfg.start, rdU8_cons]
    rw [if_neg hm.1, if_neg hm.2]
  rw [R8Cfg.decompress_eq hi (by simp; omega)]
  unfold apiDecompress
  rw [hi, ho]
  simp only
  by_cases hz : a.inSize = 0 ∨ a.outSize = 0
  · rw [if_pos hz]
  · rw [if_neg hz]
    simp only [List.append_assoc, rdU32_le32, hs]
    split <;> rfl

example : (R8Cfg.decompress false noSimd
    ⟨some (le32 1 ++ le32 9 ++ [2]), 9, some (fun _ => 0), 5, 200, 0, 0⟩ matches .fail) = true := by decide +kernel

/-! ### C17 -/

namespace R8Cfg

/-- Bytes a far away run can cost more than it saves. -/
def grow (c : R8Cfg) : Nat := if c.single then (if c.packed then 4 else 2) else if c.packed then 0 else 1

theorem cnt8_length {x : Nat} : (cnt8 x).length = if x ≤ 255 then 1 else 5 := by
  unfold cnt8; split <;> simp

theorem off8_length (x : Nat) : (off8 x).length = if x + 1 ≤ 255 then 1 else 5 := by
  unfold off8; split <;> simp

theorem off7_length (x : Nat) : (off7 x).length ≤ 4 ∧ (x + 1 ≤ 127 → (off7 x).length = 1) := by
  unfold off7
  split
  · simp
  · simp; omega

theorem mRec_grow (c : R8Cfg) (hs : c.single = false) (hp : c.packed = false) {sym : List Byte} {cnt lits : Nat} (h : cnt ≥ c.short)
    (hl : sym.length = 1) : (c.mRec sym cnt lits).length ≤ cnt + if 255 ≤ lits then 1 else 0 := by
  have : c.short = 6 := by simp [short, r8short, hs, hp]
  simp only [mRec, List.length_append, hl, cnt8_length, off8_length, stored]
  split <;> split <;> split <;> omega

theorem sRec_size (c : R8Cfg) (hs : c.single = true) {cnt lits : Nat} (h : cnt ≥ c.short) :
    (c.sRec cnt lits).length ≤ cnt := by
  have : c.short = 2 ∨ c.short = 4 := by cases hp : c.packed <;> simp [short, r8short, hs, hp]
  simp only [sRec, List.length_append, List.length_singleton, cnt8_length, stored]
  split <;> omega

theorem lRec_size (c : R8Cfg) (hs : c.single = true) {cnt lits : Nat} (h : cnt ≥ 6) :
    (c.lRec cnt lits).length ≤ cnt := by
  have : c.short = 2 ∨ c.short = 4 := by cases hp : c.packed <;> simp [short, r8short, hs, hp]
  simp only [lRec, offL8, List.length_append, List.length_cons, le32_length, cnt8_length, stored]
  split <;> omega

theorem emit_grow (c : R8Cfg) : EmitGrowIf c.emit c.Enc 1 true c.grow 255 := by
  rintro fs sym cnt lits bytes fs' ⟨hf, hl0⟩ hl _ he
  have hf' : fs.single = c.single := hf
  unfold emit at he
  rw [if_neg (by simp [hf])] at he
  unfold grow
  cases hc : c.single
  · simp only [hc, Bool.false_eq_true, if_false] at he ⊢
    cases hp : c.packed
    · simp only [hp, Bool.false_eq_true, if_false] at he ⊢
      by_cases h1 : cnt ≥ c.short
      · rw [if_pos h1] at he
        simp only [Option.some.injEq, Prod.mk.injEq] at he
        obtain ⟨rfl, rfl⟩ := he
        exact ⟨⟨hc.symm, hl⟩, c.mRec_grow hc hp h1 hl⟩
      · rw [if_neg h1] at he; cases he
    · simp only [hp, if_true] at he ⊢
      by_cases h1 : cnt ≥ c.long ∨ (lits + 1 ≤ 127 ∧ ((sym = fs.sym ∧ cnt ≥ c.short) ∨ cnt ≥ 4))
      · rw [if_pos h1] at he
        simp only [Option.some.injEq, Prod.mk.injEq] at he
        obtain ⟨rfl, rfl⟩ := he
        refine ⟨⟨hc.symm, hl⟩, ?_⟩
        have h2 : c.short = 3 ∧ c.long = 11 := by simp [short, r8short, long, hc, hp]
        obtain ⟨o1, o2⟩ := off7_length lits
        have : (c.pRec fs.sym sym cnt lits).length =
            (if c.stored cnt ≤ 127 then 1 else 5) + (if sym = fs.sym then 0 else 1) + (off7 lits).length := by
          unfold pRec
          simp only [List.length_append]
          congr 1
          congr 1
          · split <;> simp
          · split <;> simp [hl]
        rw [this]
        unfold stored
        split <;> split <;> split <;> omega
      · rw [if_neg h1] at he; cases he
  · simp only [hc, if_true] at he ⊢
    by_cases h0 : fs.sym ≠ sym ∨ cnt < c.short
    · rw [if_pos h0] at he; cases he
    · rw [if_neg h0] at he
      by_cases h1 : lits + 1 ≤ 255
      · rw [if_pos h1] at he
        simp only [Option.some.injEq, Prod.mk.injEq] at he
        obtain ⟨rfl, rfl⟩ := he
        have := c.sRec_size hc (cnt := cnt) (lits := lits) (by omega)
        exact ⟨⟨hf', hl0⟩, by omega⟩
      · rw [if_neg h1] at he
        by_cases h2 : cnt ≥ c.long ∨ (c.packed = true ∧ c.stored cnt ≤ 255 ∧ cnt ≥ 6)
        · rw [if_pos h2] at he
          simp only [Option.some.injEq, Prod.mk.injEq] at he
          obtain ⟨rfl, rfl⟩ := he
          have hl6 : c.long ≥ 6 := by unfold long; split <;> (try split) <;> omega
          have := c.lRec_size hc (cnt := cnt) (lits := lits) (by omega)
          exact ⟨⟨hf', hl0⟩, by omega⟩
        · rw [if_neg h2] at he; cases he

theorem emitT_grow (c : R8Cfg) : EmitGrowIf c.emitT c.Enc 1 true c.grow 255 := by
  rintro fs sym cnt lits bytes fs' ⟨hf, hl0⟩ hl _ he
  have hf' : fs.single = c.single := hf
  unfold emitT at he
  rw [if_neg (by simp [hf])] at he
  unfold grow
  cases hc : c.single
  · simp only [hc, Bool.false_eq_true, if_false] at he ⊢
    cases hp : c.packed
    · simp only [hp, Bool.false_eq_true, if_false] at he ⊢
      by_cases h1 : cnt ≥ c.short
      · rw [if_pos h1] at he
        simp only [Option.some.injEq, Prod.mk.injEq] at he
        obtain ⟨rfl, rfl⟩ := he
        exact ⟨⟨hc.symm, hl⟩, c.mRec_grow hc hp h1 hl⟩
      · rw [if_neg h1] at he; cases he
    · simp only [hp, if_true] at he ⊢
      by_cases h1 : cnt ≥ c.long
      · rw [if_pos h1] at he
        simp only [Option.some.injEq, Prod.mk.injEq] at he
        obtain ⟨rfl, rfl⟩ := he
        refine ⟨⟨hc.symm, hl⟩, ?_⟩
        have h2 : c.long = 11 := by simp [long, hc]
        obtain ⟨o1, o2⟩ := off7_length lits
        have h3 : c.short = 3 := by simp [short, r8short, hc, hp]
        unfold pRecT stored
        simp only [List.length_append, hl]
        split <;> split <;> simp <;> omega
      · rw [if_neg h1] at he; cases he
  · simp only [hc, if_true] at he ⊢
    by_cases h0 : fs.sym ≠ sym
    · rw [if_pos h0] at he; cases he
    · rw [if_neg h0] at he
      by_cases h1 : lits + 1 ≤ 255 ∧ cnt ≥ c.short
      · rw [if_pos h1] at he
        simp only [Option.some.injEq, Prod.mk.injEq] at he
        obtain ⟨rfl, rfl⟩ := he
        have := c.sRec_size hc (cnt := cnt) (lits := lits) (by omega)
        exact ⟨⟨hf', hl0⟩, by omega⟩
      · rw [if_neg h1] at he
        by_cases h2 : cnt ≥ c.long
        · rw [if_pos h2] at he
          simp only [Option.some.injEq, Prod.mk.injEq] at he
          obtain ⟨rfl, rfl⟩ := he
          have hl6 : c.long ≥ 6 := by unfold long; split <;> (try split) <;> omega
          have := c.lRec_size hc (cnt := cnt) (lits := lits) (by omega)
          exact ⟨⟨hf', hl0⟩, by omega⟩
        · rw [if_neg h2] at he; cases he

theorem emitF_grow (c : R8Cfg) : EmitGrowIf c.emitF c.Enc 1 true c.grow 255 := by
  rintro fs sym cnt lits bytes fs' ⟨hf, hl0⟩ hl _ he
  unfold emitF at he
  by_cases h : c.single = true ∧ fs = ⟨true, sym⟩ ∧ c.short ≤ cnt ∧ c.stored cnt ≤ 255 ∧ 255 ≤ lits
  · rw [if_pos h] at he
    simp only [Option.some.injEq, Prod.mk.injEq] at he
    obtain ⟨rfl, rfl⟩ := he
    refine ⟨⟨hf, hl0⟩, ?_⟩
    have h2 := h.2.2.1
    rw [if_pos h.2.2.2.2]
    unfold grow
    simp only [force, offL8, List.length_append, List.length_cons, List.length_nil, le32_length]
    cases hp : c.packed <;> simp [short, r8short, h.1, hp] at h2 ⊢ <;> omega
  · rw [if_neg h] at he; cases he

theorem body_size (c : R8Cfg) (cpu : Cpu) (inp : Mem) (n : Nat) :
    ∃ b, c.cdc.body cpu inp n = some b ∧ b.length ≤ n + 14 + c.grow * ((n + 1) / 255) := by
  obtain ⟨b, h1, h2⟩ := c.cdc_ok.grow cpu 2 11 c.grow 255 (by omega)
    (by
      intro e he
      change e ∈ [c.emit, c.emitT, c.emitF] at he
      simp only [List.mem_cons, List.not_mem_nil, or_false] at he
      rcases he with rfl | rfl | rfl
      · exact c.emit_grow.grow (by omega)
      · exact c.emitT_grow.grow (by omega)
      · exact c.emitF_grow.grow (by omega))
    (c.emitT_grow.grow (by omega))
    (by show c.endRun.length ≤ 11; unfold endRun; split <;> (try split) <;> simp)
    (by intro j; show (c.endLit j).length ≤ 11; unfold endLit; split <;> (try split) <;> simp)
    (by intro fs hfs; show (c.pre fs).length ≤ 2; unfold pre; split <;> simp [hfs.2]) inp n
  exact ⟨b, h1, by change _ ≤ n + 1 + (2 + 11) + c.grow * ((n + 1) / 255) at h2; omega⟩

end R8Cfg

/-- C17 for rle8_packed_multi: the returned size is at most `rle_compress_bounds`. -/
theorem C17_packed_multi_bounds (cpu : Cpu) : FitsBounds bounds (R8Cfg.compress ⟨false, true⟩ cpu) := by
  refine fitsBounds_of_size _ fun inp n _ _ => ?_
  obtain ⟨b, h1, h2⟩ := R8Cfg.body_size ⟨false, true⟩ cpu inp n
  exact ⟨b, h1, by simp [R8Cfg.grow] at h2; omega⟩

/-- C17, what holds of all four: the expansion is at most 26 bytes plus `c.grow` (0 packed
multi, 1 multi, 2 single, 4 packed single) for every 255 bytes of input. Missing: for long
inputs this exceeds `rle_compress_bounds`, and so does the output of the multi and the packed
single codec (`C17_multi_violated`, `C17_packed_single_violated`); that of the single codec
does not (`C17_single_bounds`). -/
theorem C17_rle8_growth_partial (c : R8Cfg) (cpu : Cpu) : GrowsAtMost 26 c.grow 255 (c.compress cpu) :=
  Cdc.growsAtMost (a := 14) (by show 1 ≤ 255; omega) (by omega) (c.body_size cpu)
    (by have : c.grow ≤ 4 := by unfold R8Cfg.grow; split <;> (try split) <;> omega
        omega)

/-- C17 for inputs of at most 10000 bytes. -/
theorem C17_rle8_small_partial (c : R8Cfg) (cpu : Cpu) : FitsUpTo 10000 bounds (c.compress cpu) :=
  Cdc.fitsUpTo (a := 14) (e := c.grow) (L := 255) (c.body_size cpu)
    (by have : c.grow ≤ 4 := by unfold R8Cfg.grow; split <;> (try split) <;> omega
        show 14 + c.grow * (10001 / 255) ≤ 185
        omega)

/-- C17 for rle8_multi and inputs of at most 43858 bytes. -/
theorem C17_multi_small_partial (cpu : Cpu) : FitsUpTo 43858 bounds (R8Cfg.compress ⟨false, false⟩ cpu) :=
  Cdc.fitsUpTo (a := 14) (e := R8Cfg.grow ⟨false, false⟩) (L := 255) (R8Cfg.body_size ⟨false, false⟩ cpu) (by decide)

/-- C17 for rle8_packed_single and inputs of at most 10963 bytes. -/
theorem C17_packed_single_small_partial (cpu : Cpu) : FitsUpTo 10963 bounds (R8Cfg.compress ⟨true, true⟩ cpu) :=
  Cdc.fitsUpTo (a := 14) (e := R8Cfg.grow ⟨true, true⟩) (L := 255) (R8Cfg.body_size ⟨true, true⟩ cpu) (by decide)

/-! ### C21-C29, C36 -/

/-- C21: decompression of a compressed stream stays inside `n + 128` output bytes and 64
bytes behind the stream. -/
theorem C21_rle8_inside (c : R8Cfg) (ce cd : Cpu) :
    StaysInside (c.compress ce) (R8Cfg.decompress c.packed cd) := by
  intro inp n outSize ret out h1 h2 h3 h4 slack m a h5 h6 h7 h8
  rw [R8Cfg.decompress_eq h6 (by simp; omega)]
  exact c.cdc_ok.inside ce cd inp n outSize ret out h1 h2 h3 h4 slack m a h5 h6 h7 h8

/-- C22: header fields and return values. -/
theorem C22_rle8_header (c : R8Cfg) (ce cd : Cpu) : HeaderTruthful (c.compress ce) (R8Cfg.decompress c.packed cd) :=
  ⟨(c.cdc.header ce cd).1, fun a r m' h => (c.cdc.header ce cd).2 a r m' (R8Cfg.ok_of_decompress h)⟩

/-- C23: compress guards. -/
theorem C23_rle8_guards (c : R8Cfg) (cpu : Cpu) : CompressGuards bounds (c.compress cpu) :=
  c.cdc.cguards cpu

/-- C24 is false: see `C24_multibyte_violated`. -/
theorem C24_rle8_violated (c : R8Cfg) (cpu : Cpu) (inp : Mem) (n : Nat) (hn : 1073741824 < n) :
    bounds n = 0 ∧ (∀ outSize, c.compress cpu (some inp) n true outSize ≠ .fail) ∧
      c.compress cpu (some inp) n true 0 = .ub :=
  c.cdc_ok.huge cpu inp n hn

/-- C25: decompress guards. Missing: a header with no byte behind it that can be read (`C25_rle8_violated`). -/
theorem C25_rle8_guards_partial (packed : Bool) (cpu : Cpu) : DecompressGuardsNext (R8Cfg.decompress packed cpu) := by
  have hg := (R8Cfg.cdc ⟨false, packed⟩).dguards cpu
  refine ⟨fun a h => ?_, fun a x y next rest hx hy hi h => ?_⟩
  · unfold R8Cfg.decompress
    split
    · next src m hi ho =>
      rw [hi, ho] at h
      rw [if_neg (by simp at h; omega)]
      exact hg.1 a (by rw [hi, ho]; exact h)
    · rfl
  · rw [R8Cfg.decompress_eq hi (by simp; omega)]
    exact hg.2 a x y (next :: rest) hx hy hi h

/-- C25 is false: the mode byte behind the sizes is read before the sizes are compared, so that eight bytes which are all there is
are not refused, whatever sizes they hold. -/
theorem C25_rle8_violated (packed : Bool) (cpu : Cpu) (a : DArgs) (m : Mem) (x y : Nat) (hi : a.pIn = some (le32 x ++ le32 y))
    (ho : a.pOut = some m) (h1 : 0 < a.inSize) (h2 : 0 < a.outSize) : R8Cfg.decompress packed cpu a = .ub := by
  unfold R8Cfg.decompress
  simp only [hi, ho]
  rw [if_pos ⟨by omega, by omega, by simp⟩]

/-- The sizes say 100 and 50, the caller has 8 and 5. -/
example : (R8Cfg.decompress false noSimd ⟨some (le32 100 ++ le32 50), 8, some (fun _ => 0), 5, 200, 0, 0⟩).isUb = true ∧
    (R8Cfg.decompress false noSimd ⟨some (le32 100 ++ le32 50 ++ [0]), 9, some (fun _ => 0), 5, 200, 0, 0⟩ matches .fail) = true := by
  decide +kernel

/-- C26: trailing bytes are ignored. -/
theorem C26_rle8_trailing (c : R8Cfg) (ce cd : Cpu) :
    TrailingIgnored (c.compress ce) (R8Cfg.decompress c.packed cd) := by
  intro inp n outSize ret out h1 h2 h3 t s₁ s₂ m a h4 h5 h6 h7 h8
  obtain ⟨m₁, m₂, g1, g2, g3⟩ := c.cdc_ok.trailing ce cd inp n outSize ret out h1 h2 h3 t s₁ s₂ m a h4 h5 h6 h7 h8
  exact ⟨m₁, m₂, R8Cfg.decompress_of_ok g1, R8Cfg.decompress_of_ok g2, g3⟩

/-- C27: every byte string that stands for some bytes is decoded to these bytes by every
decoder variant, and no decoder variant returns on anything else. -/
theorem C27_rle8_portable (packed : Bool) : Portable (R8Cfg.cdc ⟨false, packed⟩).ref (R8Cfg.decompress packed) := by
  have h := (R8Cfg.cdc_ok ⟨false, packed⟩).portable fun _ => rfl
  refine ⟨fun i src a r m' h1 h2 => h.1 i src a r m' h1 (R8Cfg.ok_of_decompress h2),
    fun src out h1 x y rest h2 h3 i slack a m h4 h5 h6 h7 h8 h9 h10 h11 => ?_⟩
  obtain ⟨m', g1, g2⟩ := h.2 src out h1 x y rest h2 h3 i slack a m h4 h5 h6 h7 h8 h9 h10 h11
  exact ⟨m', R8Cfg.decompress_of_ok g1, g2⟩

/-- A stream no encoder writes: a run of 6 right after the start, stored with 32 bit fields. -/
example : (R8Cfg.cdc ⟨false, false⟩).ref
    (le32 6 ++ le32 31 ++ ([0, 9, 0] : List Byte) ++ le32 1 ++ (0 :: le32 1) ++ ([0, 0] : List Byte) ++ le32 0 ++ (0 :: le32 0)) =
    some [9, 9, 9, 9, 9, 9] := by decide +kernel

/-- A run of 5000 symbols in a stream that claims to hold one byte. -/
def malR8 (packed : Bool) : List Byte :=
  le32 1 ++ le32 8 ++ (if packed then ([0, 0] : List Byte) else [0, 7, 0]) ++ le32 5000 ++
    (if packed then ([7, 2] : List Byte) else [1])

theorem malR8_ub : ∀ p a b c d e f : Bool,
    (R8Cfg.decompress p ⟨a, b, c, d, e, f⟩ (malArgs (malR8 p))).isUb = true := by
  decide +kernel

/-- C28 is false: for every codec and CPU there are bytes that make decompress
write outside `outSize + 128`. -/
theorem C28_rle8_violated (packed : Bool) (cpu : Cpu) :
    ∃ (src : List Byte) (a : DArgs), a.pIn = some (src ++ List.replicate 64 0) ∧ a.inSize = src.length ∧
      a.outSize = 1 ∧ a.cap = a.outSize + 128 ∧ R8Cfg.decompress packed cpu a = .ub := by
  refine ⟨malR8 packed, malArgs (malR8 packed), rfl, rfl, rfl, rfl, ?_⟩
  have := malR8_ub packed cpu.sse2 cpu.ssse3 cpu.sse41 cpu.avx cpu.avx2 cpu.avx512f
  revert this
  cases R8Cfg.decompress packed ⟨cpu.sse2, cpu.ssse3, cpu.sse41, cpu.avx, cpu.avx2, cpu.avx512f⟩
    (malArgs (malR8 packed)) <;> simp [DRes.isUb]

/-- C29: only the first `n + 1` bytes at `pIn` influence the stream. -/
theorem C29_rle8_prefix (c : R8Cfg) (cpu : Cpu) : DependsOnPrefix 1 (c.compress cpu) :=
  c.cdc_ok.prefix cpu

/-- C36: neither direction hangs, on any argument. -/
theorem C36_rle8_terminates (c : R8Cfg) (ce cd : Cpu) :
    Terminates (c.compress ce) (R8Cfg.decompress c.packed cd) := by
  refine ⟨(c.cdc_ok.terminates ce cd).1, fun a => ?_⟩
  rcases R8Cfg.decompress_api c.packed cd a with h | ⟨h, _⟩
  · rw [h]
    exact (c.cdc_ok.terminates ce cd).2 a
  · rw [h]
    simp

end Hrk
