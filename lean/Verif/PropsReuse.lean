import Verif.PropsReadme
import Verif.PropsRoom
import Verif.RleShTight
import Verif.LowEntropySize

/-
C80: one pair of buffers serves for a whole file, block by block.
-/

namespace Hrk

/-! ### Specification -/

/-- One round of a program that works block by block: `n` bytes at `inp`, of which `lim` may be read, are compressed with the codec `row` of
the table on the processor `ce` and decompressed on `cd`. `behind` is what the buffer of the stream holds behind the stream afterwards: the
compressor may have written anything there. `junk` is the uninitialised register of src/rle8_mmtf.c. -/
structure Round where
  row : Row
  inp : Mem
  n : Nat
  lim : Nat
  ce : Cpu
  cd : Cpu
  junk : Vec
  behind : Mem
  aIn : Nat
  aOut : Nat

/-- The bytes of the block. -/
def Round.bytes (x : Round) : List Byte := rd x.inp 0 x.n

/-- What the buffer of the stream holds after the stream `out` was written into it. -/
def Round.buffer (x : Round) (out : List Byte) : Mem := fun i => if i < out.length then out.getD i 0 else x.behind i

/-- One round with the buffers every round uses: one of `B` bytes for the stream, which holds `b.1`, and one of
`M + rle_decompress_additional_size()` bytes, which holds `b.2`. The decompressor is told the size of its buffer, not that of the block. The result is
what was decompressed and what the two buffers hold then; `none` if a call failed or was undefined. -/
def Round.run (M B : Nat) (x : Round) (b : Mem × Mem) : Option (List Byte × (Mem × Mem)) :=
  match x.row.comp.runIn x.ce x.junk b.1 x.lim (some x.inp) x.n true B with
  | .ok ret out =>
    match x.row.dec.run x.cd ⟨some (rd (x.buffer out) 0 B), ret, some b.2, M, M + addSize, x.aIn, x.aOut⟩ with
    | .ok r m => some (rd m 0 r, (x.buffer out, m))
    | _ => none
  | _ => none

/-- All rounds, one after the other, with the same two buffers. -/
def session (M B : Nat) : List Round → Mem × Mem → Option (List (List Byte))
  | [], _ => some []
  | x :: xs, b =>
    match x.run M B b with
    | none => none
    | some (o, b') =>
      match session M B xs b' with
      | none => none
      | some os => some (o :: os)

/-- The size the library's header tells the user to provide for the stream of `n` bytes: `rle8_sh_bounds`, `rle8_mmtf128_compress_bounds`,
`rle8_low_entropy_compress_bounds` or `rle_compress_bounds` (src/rle.h:53, 90, 100, 442, 455). -/
def CName.advertised : CName → Nat → Nat
  | .rsh => shBounds
  | .mm => mmBounds
  | .le _ _ => leBounds
  | _ => bounds

/-- Compressed for itself, into a new buffer of at most `B` bytes, the block gives a stream that ends at least 64 bytes before `B`. -/
def Round.alone (x : Round) (B : Nat) : Prop :=
  ∃ (held : Mem) (size : Nat) (out : List Byte), size ≤ B ∧
    x.row.comp.run x.ce x.junk held (some x.inp) x.n true size = .ok out.length out ∧ out.length + 64 ≤ B

/-- The file in blocks of `M` bytes. -/
def slices (M : Nat) (data : List Byte) : List (List Byte) :=
  if _h : M = 0 ∨ data = [] then [] else data.take M :: slices M (data.drop M)
termination_by data.length
decreasing_by
  have : data.length ≠ 0 := fun e => _h (.inr (List.eq_nil_of_length_eq_zero e))
  simp only [List.length_drop]
  omega

/-! ### Lemmas -/

theorem buffer_rd (x : Round) {out : List Byte} {B : Nat} (h : out.length ≤ B) :
    rd (x.buffer out) 0 B = out ++ rd x.behind out.length (B - out.length) := by
  apply List.ext_getElem
  · simp; omega
  · intro i h1 h2
    simp only [rd, List.getElem_map, List.getElem_range, Nat.zero_add, Round.buffer]
    by_cases hi : i < out.length
    · rw [if_pos hi, List.getElem_append_left hi]
      simp [hi]
    · rw [if_neg hi, List.getElem_append_right (by omega)]
      simp only [List.getElem_map, List.getElem_range]
      congr 1
      omega

theorem Round.run_ok {M B : Nat} (hM : M ≤ maxInput) (hB : B < 4294967296) (x : Round) (hr : x.row ∈ table) (hp : pairs x.row.comp x.row.dec = true)
    (h0 : 0 < x.n) (hn : x.n ≤ M) (hl : x.n + x.row.comp.slack ≤ x.lim) (ha : x.alone B) (b : Mem × Mem) : ∃ b', x.run M B b = some (x.bytes, b') := by
  obtain ⟨held, size, out, hsz, h1, h2⟩ := ha
  have key : table.all (fun r => decide r.comp.exists?) = true := by decide +kernel
  have hk := List.all_eq_true.mp key x.row hr
  rw [decide_eq_true_eq] at hk
  have hrun : x.row.comp.run x.ce x.junk b.1 (some x.inp) x.n true B = .ok out.length out :=
    C50_room x.row.comp x.ce x.junk x.inp x.n size B out.length out held b.1 hsz hB h1
  have hv : x.row.dec.vec x.cd ≤ 64 := by
    by_cases h0 : x.row.dec.vec x.cd = 0
    · omega
    · exact ((C65_vec x.row hr x.cd).2 h0).2.1
  unfold Round.run
  rw [x.row.comp.runIn_eq hk x.ce x.junk b.1 (some x.inp) hl true B, hrun]
  dsimp only
  rw [buffer_rd x (by omega)]
  obtain ⟨m', g1, g2, _⟩ := ahead_sound hp x.ce x.cd x.junk b.1 x.inp x.n B out.length out h0 (by omega) hB hrun
    (rd x.behind out.length (B - out.length)) b.2
    ⟨some (out ++ rd x.behind out.length (B - out.length)), out.length, some b.2, M, M + addSize, x.aIn, x.aOut⟩
    (by simp; omega) rfl (Nat.le_refl _) rfl hn (by simp; omega)
  rw [g1]
  refine ⟨(x.buffer out, m'), ?_⟩
  dsimp only
  congr 2
  unfold Round.bytes rd
  apply List.map_congr_left
  intro k hk
  rw [Nat.zero_add]
  exact g2 k (by simpa using hk)

/-! ### The property -/

/-- C80: the advertised size never shrinks when the block grows, so the size for the largest block is enough for all of them. -/
theorem C80_monotone (f : CName) {n M : Nat} (h : n ≤ M) (hM : M ≤ maxInput) : f.advertised n ≤ f.advertised M := by
  unfold maxInput at hM
  cases f <;> simp only [CName.advertised, bounds, mmBounds, shBounds, leBounds] <;> repeat' split
  all_goals omega

/-- C80: buffers for the largest block serve for every block, in any order, with a different codec for each block, and whatever the blocks before have
left in them, as long as each block could have been compressed for itself. Missing: streams closer than 64 bytes to the end of the buffer
(`C65_violated`), blocks that do not fit by themselves (C17 to C20), the two low entropy codecs of C07 and C08, and blocks of which only the `n` bytes
may be read (C63). -/
theorem C80_session_partial {M B : Nat} (hM : M ≤ maxInput) (hB : B < 4294967296) (xs : List Round)
    (h : ∀ x ∈ xs, x.row ∈ table ∧ x.row.comp ≠ .le false false ∧ x.row.comp ≠ .le true false ∧ 0 < x.n ∧ x.n ≤ M ∧
      x.n + x.row.comp.slack ≤ x.lim ∧ x.alone B) (b : Mem × Mem) :
    session M B xs b = some (xs.map Round.bytes) := by
  induction xs generalizing b with
  | nil => rfl
  | cons x xs ih =>
    obtain ⟨hr, he, he', h0, hn, hl, ha⟩ := h x (by simp)
    have hp : pairs x.row.comp x.row.dec = true := by
      have key : table.all (fun r => pairs r.comp r.dec || r.comp == .le false false || r.comp == .le true false) = true := by decide +kernel
      have := List.all_eq_true.mp key x.row hr
      simpa [he, he'] using this
    obtain ⟨b', e⟩ := x.run_ok hM hB hr hp h0 hn hl ha b
    simp only [session, e, ih (fun y hy => h y (by simp [hy])) b', List.map_cons]

theorem upTo_le (f : CName) : f.upTo ≤ 1073741824 := by
  unfold CName.upTo
  repeat' split
  all_goals omega

theorem Round.alone_extreme (x : Round) (hr : x.row ∈ table) (h0 : 0 < x.n) (hu : x.n ≤ x.row.comp.upTo) : x.alone (bounds x.n) := by
  have key : table.all (fun r => decide r.comp.exists?) = true := by decide +kernel
  have hk := List.all_eq_true.mp key x.row hr
  rw [decide_eq_true_eq] at hk
  obtain ⟨out, h1, h2⟩ := x.row.comp.fits hk x.ce x.junk (fun _ => 0) (inp := x.inp) h0 hu
  exact ⟨fun _ => 0, _, out, Nat.le_refl _, h1, h2⟩

theorem Round.alone_mono {x : Round} {B B' : Nat} (h : B ≤ B') (ha : x.alone B) : x.alone B' := by
  obtain ⟨held, size, out, h1, h2, h3⟩ := ha
  exact ⟨held, size, out, by omega, h2, by omega⟩

/-- C80 for the codecs `rle_compress_bounds` is for, without the condition that each block fits by itself: two buffers, of `rle_compress_bounds(M)` and
`M + rle_decompress_additional_size()` bytes, restore every sequence of blocks of at most `M` bytes. Missing: larger blocks, see `CName.upTo` and
`C75_larger_violated`. -/
theorem C80_extreme_partial {M : Nat} (hM : M ≤ maxInput) (xs : List Round)
    (h : ∀ x ∈ xs, x.row ∈ table ∧ 0 < x.n ∧ x.n ≤ M ∧ x.n ≤ x.row.comp.upTo ∧ x.n + x.row.comp.slack ≤ x.lim) (b : Mem × Mem) :
    session M (bounds M) xs b = some (xs.map Round.bytes) := by
  have hb := bounds_of_le hM
  refine C80_session_partial hM (by unfold maxInput at hM; omega) xs (fun x hx => ?_) b
  obtain ⟨hr, h0, hn, hu, hl⟩ := h x hx
  have hbn := bounds_of_le (n := x.n) (by omega)
  refine ⟨hr, ?_, ?_, h0, hn, hl, Round.alone_mono (by omega) (x.alone_extreme hr h0 hu)⟩
  · intro e; rw [e] at hu; simp only [CName.upTo] at hu; omega
  · intro e; rw [e] at hu; simp only [CName.upTo] at hu; omega

/-- C80 for all codecs of the table, mixed as one likes, except the two low entropy codecs of C07 and C08: a buffer with one byte more per 221 and
361 more suffices. Missing: as in `C80_extreme_partial`. -/
theorem C80_mixed_partial {M B : Nat} (hM : M ≤ maxInput) (hB : M + M / 221 + 361 ≤ B) (hB' : B < 4294967296) (xs : List Round)
    (h : ∀ x ∈ xs, x.row ∈ table ∧ 0 < x.n ∧ x.n ≤ M ∧ x.n + x.row.comp.slack ≤ x.lim ∧
      (x.n ≤ x.row.comp.upTo ∨ x.row.comp = .rsh ∨ x.row.comp = .mm ∨ ∃ s, x.row.comp = .le s true)) (b : Mem × Mem) :
    session M B xs b = some (xs.map Round.bytes) := by
  refine C80_session_partial hM hB' xs (fun x hx => ?_) b
  obtain ⟨hr, h0, hn, hl, hu⟩ := h x hx
  have hbn := bounds_of_le (n := x.n) (by omega)
  have hx : x.n ≤ maxInput := by omega
  have hd : x.n / 221 ≤ M / 221 := Nat.div_le_div_right hn
  rcases hu with hu | e | e | ⟨s, e⟩
  · refine ⟨hr, ?_, ?_, h0, hn, hl, Round.alone_mono (by omega) (x.alone_extreme hr h0 hu)⟩
    · intro e; rw [e] at hu; simp only [CName.upTo] at hu; omega
    · intro e; rw [e] at hu; simp only [CName.upTo] at hu; omega
  · obtain ⟨out, h1, h2⟩ := C20_sh_partial (fun _ => 0) x.inp x.n (x.n + x.n / 221 + 18) h0 hx (Nat.le_refl _) (by omega)
    exact ⟨hr, by simp [e], by simp [e], h0, hn, hl, fun _ => 0, x.n + x.n / 221 + 18, out, by omega, by rw [e]; exact h1, by omega⟩
  · obtain ⟨out, h1, h2⟩ := C20_mmtf128_partial x.junk (fun _ => 0) x.inp x.n (x.n + 13) h0 hx (Nat.le_refl _)
    exact ⟨hr, by simp [e], by simp [e], h0, hn, hl, fun _ => 0, x.n + 13, out, by omega, by rw [e]; exact h1, by omega⟩
  · have hle : leBounds x.n = x.n + 297 := Nat.mod_eq_of_lt (by unfold maxInput at hx; omega)
    obtain ⟨out, h1, h2⟩ := C20_low_entropy_only_max_fits s x.inp x.n (leBounds x.n) h0 hx (Nat.le_refl _) (by unfold maxInput at hx; omega)
    exact ⟨hr, by simp [e], by simp [e], h0, hn, hl, fun _ => 0, leBounds x.n, out, by rw [hle]; omega, by rw [e]; exact h1, by omega⟩

theorem slices_flatten {M : Nat} (hM : 0 < M) (data : List Byte) : (slices M data).flatten = data := by
  induction hk : data.length using Nat.strongRecOn generalizing data with
  | ind k ih =>
    unfold slices
    by_cases h : M = 0 ∨ data = []
    · rw [dif_pos h]
      rcases h with h | h
      · omega
      · rw [h]; rfl
    · rw [dif_neg h, List.flatten_cons, ih (data.drop M).length ?_ _ rfl, List.take_append_drop]
      have : data.length ≠ 0 := fun e => h (.inr (List.eq_nil_of_length_eq_zero e))
      simp only [List.length_drop]
      omega

theorem slices_length {M : Nat} (hM : 0 < M) (data : List Byte) : ∀ l ∈ slices M data, 0 < l.length ∧ l.length ≤ M := by
  induction hk : data.length using Nat.strongRecOn generalizing data with
  | ind k ih =>
    intro l hl
    unfold slices at hl
    by_cases h : M = 0 ∨ data = []
    · rw [dif_pos h] at hl; cases hl
    · rw [dif_neg h] at hl
      have : data.length ≠ 0 := fun e => h (.inr (List.eq_nil_of_length_eq_zero e))
      rcases List.mem_cons.mp hl with rfl | hl
      · simp only [List.length_take]; omega
      · exact ih (data.drop M).length (by simp only [List.length_drop]; omega) _ rfl l hl

/-- C80: a file of any length, also one that is far larger than the library supports, is restored block by block with two buffers, if the blocks are not
too large for the codecs. -/
theorem C80_file_partial {M : Nat} (h0 : 0 < M) (hM : M ≤ maxInput) (data : List Byte) (xs : List Round) (hd : xs.map Round.bytes = slices M data)
    (h : ∀ x ∈ xs, x.row ∈ table ∧ M ≤ x.row.comp.upTo ∧ x.n + x.row.comp.slack ≤ x.lim) (b : Mem × Mem) :
    (session M (bounds M) xs b).map List.flatten = some data := by
  rw [C80_extreme_partial hM xs (fun x hx => ?_) b, hd]
  · exact congrArg some (slices_flatten h0 data)
  · obtain ⟨hr, hu, hl⟩ := h x hx
    have hm := slices_length h0 data x.bytes (by rw [← hd]; exact List.mem_map_of_mem hx)
    simp only [Round.bytes, rd_length] at hm
    exact ⟨hr, hm.1, hm.2, by omega, hl⟩

theorem Round.run_refused {M B : Nat} (x : Round) (hr : x.row ∈ table) (hl : x.n + x.row.comp.slack ≤ x.lim) (h : B < x.row.comp.bnd x.n) (b : Mem × Mem) :
    x.run M B b = none := by
  have key : table.all (fun r => decide r.comp.exists?) = true := by decide +kernel
  have hk := List.all_eq_true.mp key x.row hr
  rw [decide_eq_true_eq] at hk
  unfold Round.run
  rw [x.row.comp.runIn_eq hk x.ce x.junk b.1 (some x.inp) hl true B,
    (C50_refusal x.row.comp x.ce x.junk b.1 (some x.inp) x.n true B).mpr (.inr (.inr (.inr h)))]

/-- C80 does not hold for blocks the library does not support, although all blocks that really occur are small: with a buffer of the size advertised
for `M` bytes the first block of more than four bytes is refused. -/
theorem C80_large_violated (x : Round) (xs : List Round) (M : Nat) (hr : x.row ∈ table) (hn : 4 < x.n) (hx : x.n ≤ maxInput)
    (hl : x.n + x.row.comp.slack ≤ x.lim) (b : Mem × Mem)
    (hM : M = 4294967295 ∨ maxInput < M ∧ x.row.comp ≠ .rsh ∧ ∀ s o, x.row.comp ≠ .le s o) :
    session M (x.row.comp.advertised M) (x :: xs) b = none := by
  have h : x.row.comp.advertised M < x.row.comp.bnd x.n := by
    unfold maxInput at hx hM
    revert hM
    generalize x.row.comp = f
    intro hM
    cases f <;> simp [CName.advertised, CName.bnd, bounds, mmBounds, shBounds, leBounds] at hM ⊢ <;> (repeat' split) <;> omega
  simp only [session, x.run_refused hr hl h b]

/-! ### The hypotheses can be met -/

/-- Three blocks of different lengths with three codecs: 60 bytes with `rle16_3symlut_byte`, 7 with `rle8_multi` and 60 with `rle8_mmtf128`, on different
processors. -/
def threeRounds : List Round :=
  [⟨⟨"Extreme16Byte_3SL", .sl 3 2 true, .sl 3 2 true⟩, sampleInp, 60, 64, noSimd, withAvx2, fun _ => 0, fun _ => 0xCC, 3, 8⟩,
   ⟨⟨"Extreme8", .r8 false false, .r8 false⟩, fun k => sampleInp (k + 20), 7, 7, withAvx2, noSimd, fun _ => 0, fun k => b8 k, 3, 8⟩,
   ⟨⟨"Extreme8MultiMTF128", .mm, .mm⟩, sampleInp, 60, 60, noSimd, noSimd, fun _ => 0, fun _ => 1, 3, 8⟩]

example (b : Mem × Mem) :
    session 60 421 threeRounds b = some [rd sampleInp 0 60, rd sampleInp 20 7, rd sampleInp 0 60] := by
  rw [C80_mixed_partial (by decide) (by decide) (by decide) threeRounds ?_ b]
  · rfl
  · intro x hx
    simp only [threeRounds, List.mem_cons, List.not_mem_nil, or_false] at hx
    rcases hx with rfl | rfl | rfl
    · exact ⟨by decide +kernel, by decide, by decide, by decide, .inl (by decide)⟩
    · exact ⟨by decide +kernel, by decide, by decide, by decide, .inl (by decide)⟩
    · exact ⟨by decide +kernel, by decide, by decide, by decide, .inr (.inr (.inl rfl))⟩

/-- With the buffer `rle_compress_bounds` asks for, for the first two blocks. -/
example (b : Mem × Mem) :
    session 60 253 (threeRounds.take 2) b = some [rd sampleInp 0 60, rd sampleInp 20 7] := by
  have e : bounds 60 = 253 := by decide
  rw [← e, C80_extreme_partial (by decide) (threeRounds.take 2) ?_ b]
  · rfl
  · intro x hx
    simp only [threeRounds, List.take, List.mem_cons, List.not_mem_nil, or_false] at hx
    rcases hx with rfl | rfl
    · exact ⟨by decide +kernel, by decide, by decide, by decide, by decide⟩
    · exact ⟨by decide +kernel, by decide, by decide, by decide, by decide⟩

/-- A file of 67 bytes in blocks of at most 60. -/
example (b : Mem × Mem) :
    (session 60 (bounds 60) (threeRounds.take 2) b).map List.flatten = some (rd sampleInp 0 60 ++ rd sampleInp 20 7) := by
  refine C80_file_partial (by decide) (by decide) _ _ ?_ (fun x hx => ?_) b
  · show [rd sampleInp 0 60, rd sampleInp 20 7] = _
    have h1 : (rd sampleInp 0 60).length = 60 := by simp
    have h2 : (rd sampleInp 20 7).length = 7 := by simp
    generalize rd sampleInp 0 60 = u at *
    generalize rd sampleInp 20 7 = v at *
    have hu : ¬((60 : Nat) = 0 ∨ u ++ v = []) := by
      rintro (h | h)
      · omega
      · rw [List.append_eq_nil_iff.mp h |>.1] at h1; cases h1
    have hv : ¬((60 : Nat) = 0 ∨ v = []) := by
      rintro (h | h)
      · omega
      · rw [h] at h2; cases h2
    rw [slices, dif_neg hu, List.take_left' h1, List.drop_left' h1, slices, dif_neg hv, List.take_of_length_le (by omega),
      List.drop_of_length_le (by omega), slices, dif_pos (.inr rfl)]
  · simp only [threeRounds, List.take, List.mem_cons, List.not_mem_nil, or_false] at hx
    rcases hx with rfl | rfl
    · exact ⟨by decide +kernel, by decide, by decide⟩
    · exact ⟨by decide +kernel, by decide, by decide⟩

/-- Blocks of 60 and 7 bytes are refused with a buffer of `rle_compress_bounds(1073741825)` bytes. -/
example (b : Mem × Mem) : session 1073741825 (bounds 1073741825) (threeRounds.take 2) b = none := by
  have h := C80_large_violated (threeRounds.head (by simp [threeRounds])) (threeRounds.tail.take 1) 1073741825 (by decide +kernel) (by decide) (by decide)
    (by decide) b (.inr ⟨by decide, by decide, fun s o => by cases s <;> cases o <;> decide⟩)
  exact h

example : (CName.sl 3 2 true).advertised 7 = 200 ∧ (CName.sl 3 2 true).advertised 60 = 253 := by decide

end Hrk
