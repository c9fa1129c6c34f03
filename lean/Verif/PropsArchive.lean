import Verif.PropsRoom

/-
C51: streams are self-delimiting. Many of them can be stored one behind the other and be taken apart again with nothing but the sizes
at their beginning.
-/

namespace Hrk

/-! ### Specification -/

/-- A file that is to be stored: `n` bytes at `inp`; the processor, the buffer size and what the buffer held when it was compressed, and
the uninitialised register. -/
structure Item where
  inp : Mem
  n : Nat
  cpu : Cpu
  outSize : Nat
  junk : Vec
  held : Mem

/-- The bytes of the file. -/
def Item.bytes (x : Item) : List Byte := rd x.inp 0 x.n

/-- `out` is the stream the compressor `f` wrote for the file. -/
def Item.stored (f : CName) (x : Item) (out : List Byte) : Prop :=
  0 < x.n ∧ x.n ≤ maxInput ∧ x.outSize < 4294967296 ∧ ∃ ret, f.run x.cpu x.junk x.held (some x.inp) x.n true x.outSize = .ok ret out

/-- What a reader brings along for one stream: its processor, the buffer it decompresses into and the addresses of the two buffers. -/
structure Desk where
  cpu : Cpu
  m : Mem
  aIn : Nat
  aOut : Nat

/-- The two sizes at the beginning: uncompressed and compressed. The low entropy codecs store them the other way round. -/
def sizes (f : CName) (src : List Byte) : Option (Nat × Nat) :=
  match rdU32 src with
  | none => none
  | some (a, r) =>
    match rdU32 r with
    | none => none
    | some (b, _) => some (match f with | .le _ _ => (b, a) | _ => (a, b))

/-- Take one stream from the front: read its sizes, provide a buffer with room for the uncompressed size and
`rle_decompress_additional_size` bytes, decompress, and go on behind the stream. The last 64 bytes are not part of the archive. -/
def readOne (f : CName) (g : DName) (d : Desk) (src : List Byte) : Option (List Byte × List Byte) :=
  match sizes f src with
  | none => none
  | some (x, y) =>
    match g.run d.cpu ⟨some src, src.length - 64, some d.m, x, x + addSize, d.aIn, d.aOut⟩ with
    | .ok r m => some (rd m 0 r, src.drop y)
    | _ => none

/-- Take as many streams from the front as there are desks. -/
def readAll (f : CName) (g : DName) : List Desk → List Byte → Option (List (List Byte) × List Byte)
  | [], src => some ([], src)
  | d :: ds, src =>
    match readOne f g d src with
    | none => none
    | some (o, rest) =>
      match readAll f g ds rest with
      | none => none
      | some (os, rest') => some (o :: os, rest')

/-! ### Lemmas -/

/-- The first eight bytes. -/
theorem stored_header {f : CName} {x : Item} {out : List Byte} (h : x.stored f out) :
    out.length < 4294967296 ∧ ∀ tail, sizes f (out ++ tail) = some (x.n, out.length) := by
  obtain ⟨h0, hn, ho, ret, hc⟩ := h
  unfold maxInput at hn
  have hn' : x.n < 4294967296 := by omega
  have fwd : ∀ (d : Decompress), HeaderTruthful (f.run x.cpu x.junk x.held) d → (∀ s o, f ≠ .le s o) → ret < 4294967296 →
      out.length < 4294967296 ∧ ∀ tail, sizes f (out ++ tail) = some (x.n, out.length) := by
    intro d ht hf hr
    obtain ⟨e, body, hb⟩ := ht.1 _ _ _ _ _ hn' ho hc
    refine ⟨by omega, fun tail => ?_⟩
    unfold sizes
    rw [← e]
    rw [hb]
    simp only [List.append_assoc, rdU32_le32]
    rw [Nat.mod_eq_of_lt hn', Nat.mod_eq_of_lt hr]
  have api : ∀ body, f.run x.cpu x.junk x.held = apiCompress body → ret < 4294967296 := by
    intro body e
    rw [e] at hc
    simp only [apiCompress] at hc
    split at hc
    · cases hc
    split at hc
    · cases hc
    split at hc
    · cases hc; omega
    · cases hc
  cases f with
  | r8 s p => exact fwd _ (C22_rle8_header ⟨s, p⟩ x.cpu x.cpu) (by intro s o e; cases e) (api _ rfl)
  | x S u p => exact fwd _ (C22_multibyte_header ⟨S, u, p⟩ x.cpu x.cpu) (by intro s o e; cases e) (api _ rfl)
  | sl N S u => exact fwd _ (C22_symlut_header ⟨N, S, u⟩ x.cpu x.cpu) (by intro s o e; cases e) (api _ rfl)
  | sh N S u m => exact fwd _ (C22_short_header ⟨N, S, u, m⟩ x.cpu x.cpu) (by intro s o e; cases e) (api _ rfl)
  | x128 u p => exact fwd _ (C22_rle128_header u p x.cpu x.cpu) (by intro s o e; cases e) (api _ rfl)
  | rsh =>
    have h1 := C20_sh_accepted x.held x.inp x.n x.outSize ret out ho hc
    exact fwd _ (C22_sh_header x.held) (by intro s o e; cases e) (by omega)
  | mm =>
    obtain ⟨_, _, _, _, _, _, _, h1, h2⟩ := mmCompress_ok hn' hc
    exact fwd _ (C22_mmtf128_header x.junk x.held) (by intro s o e; cases e) (by omega)
  | le s o =>
    obtain ⟨e, body, hb⟩ := (C22_low_entropy_header ⟨s, o⟩ x.cpu).1 _ _ _ _ _ hn' ho hc
    have h1 : out.length < 4294967296 := by
      obtain ⟨d, _, hout, _, hle⟩ := LeCfg.compress_ok (show LeCfg.compress ⟨s, o⟩ _ _ _ _ = _ from hc)
      have : out.length = 8 + (writeInfo (LeCfg.info ⟨s, o⟩ x.inp x.n)).length + d.length := by rw [hout]; simp; omega
      omega
    refine ⟨h1, fun tail => ?_⟩
    unfold sizes
    rw [← e]
    rw [hb]
    simp only [List.append_assoc, rdU32_le32]
    rw [Nat.mod_eq_of_lt hn', Nat.mod_eq_of_lt (by omega)]

/-! ### C51 -/

/-- C51: no stream of a compressor is the beginning of a longer one of the same compressor. -/
theorem C51_prefix_free (f : CName) (x y : Item) (out out' t : List Byte) (hx : x.stored f out) (hy : y.stored f out')
    (h : out ++ t = out') : t = [] ∧ x.n = y.n := by
  have h1 := (stored_header hx).2 t
  have h2 := (stored_header hy).2 []
  rw [List.append_nil, ← h, h1] at h2
  simp only [Option.some.injEq, Prod.mk.injEq, List.length_append] at h2
  exact ⟨List.eq_nil_of_length_eq_zero (by omega), h2.1⟩

/-- C51: different files have different streams, even if they were compressed on different processors, except with the two codecs C38
leaves out. -/
theorem C51_injective_partial (row : Row) (hr : row ∈ table) (hn : row.comp ≠ .le false false) (hn' : row.comp ≠ .le true false)
    (x y : Item) (out : List Byte) (hx : x.stored row.comp out) (hy : y.stored row.comp out) : x.bytes = y.bytes := by
  have e := (C51_prefix_free row.comp x y out out [] hx hy (List.append_nil _)).2
  obtain ⟨h0, h1, h2, ret, h3⟩ := hx
  obtain ⟨g0, g1, g2, ret', g3⟩ := hy
  have r1 := C38_table_partial row hr hn hn' x.cpu noSimd x.junk x.held x.inp x.n x.outSize ret out h0 h1 h2 h3
    (List.replicate 64 0) (fun _ => 0) ⟨some (out ++ List.replicate 64 0), out.length, some fun _ => 0, x.n, x.n + addSize, 0, 0⟩
    (by simp) rfl (Nat.le_refl _) rfl (Nat.le_refl _) (Nat.le_refl _)
  have r2 := C38_table_partial row hr hn hn' y.cpu noSimd y.junk y.held y.inp y.n y.outSize ret' out g0 g1 g2 g3
    (List.replicate 64 0) (fun _ => 0) ⟨some (out ++ List.replicate 64 0), out.length, some fun _ => 0, x.n, x.n + addSize, 0, 0⟩
    (by simp) rfl (Nat.le_refl _) rfl (by simp only; omega) (by simp only; omega)
  obtain ⟨m1, e1, e2, _⟩ := r1
  obtain ⟨m2, e3, e4, _⟩ := r2
  rw [e1] at e3
  injection e3 with _ em
  subst em
  unfold Item.bytes
  rw [← e]
  exact rd_congr fun j _ hj => by rw [← e2 j (by omega), e4 j (by omega)]

/-- C51: streams that were stored one behind the other are read back as the files they were made of, in order, whatever processors and
buffers were involved on both sides. Missing: the two codecs C38 leaves out, and rle8m, which does not ignore what follows
(`C26_rle8m_violated`). -/
theorem C51_archive_partial (row : Row) (hr : row ∈ table) (hn : row.comp ≠ .le false false) (hn' : row.comp ≠ .le true false) :
    ∀ (files : List (Item × List Byte × Desk)) (slack : List Byte), 64 ≤ slack.length →
      (∀ x ∈ files, x.1.stored row.comp x.2.1) →
      readAll row.comp row.dec (files.map fun x => x.2.2) ((files.map fun x => x.2.1).flatten ++ slack) =
        some (files.map fun x => x.1.bytes, slack) := by
  intro files
  induction files with
  | nil => intro slack _ _; rfl
  | cons x xs ih =>
    intro slack hs hx
    obtain ⟨it, out, d⟩ := x
    have h := hx _ (List.mem_cons_self ..)
    have ht := ih slack hs (fun y hy => hx y (List.mem_cons_of_mem _ hy))
    obtain ⟨h4, h5⟩ := stored_header h
    obtain ⟨h0, h1, h2, ret, h3⟩ := h
    simp only at h0 h1 h2 h3 h4 h5
    obtain ⟨m', e1, e2, _⟩ := C38_table_partial row hr hn hn' it.cpu d.cpu it.junk it.held it.inp it.n it.outSize ret out h0 h1 h2 h3
      ((xs.map fun x => x.2.1).flatten ++ slack) d.m
      ⟨some (out ++ ((xs.map fun x => x.2.1).flatten ++ slack)), (out ++ ((xs.map fun x => x.2.1).flatten ++ slack)).length - 64,
        some d.m, it.n, it.n + addSize, d.aIn, d.aOut⟩
      (by simp; omega) rfl (by simp; omega) rfl (Nat.le_refl _) (Nat.le_refl _)
    simp only [List.map_cons, List.flatten_cons, List.append_assoc, readAll]
    have hone : readOne row.comp row.dec d (out ++ ((xs.map fun x => x.2.1).flatten ++ slack)) =
        some (it.bytes, (xs.map fun x => x.2.1).flatten ++ slack) := by
      unfold readOne
      rw [h5]
      simp only
      rw [e1]
      simp only [List.drop_left, Option.some.injEq, Prod.mk.injEq, and_true]
      exact rd_congr fun j _ hj => e2 j (by omega)
    rw [hone]
    simp only
    rw [ht]

/-- The hypotheses can be met: `sampleInp`, once as a whole and once its first 40 bytes, compressed with `rle32_byte_packed_compress`
on two different processors. -/
example : ∃ row ∈ table, row.comp = .x 4 true true ∧ ∃ a b : List Byte,
    (Item.mk sampleInp 60 noSimd 300 vzero fun _ => 1).stored row.comp a ∧ (Item.mk sampleInp 40 withAvx2 300 vzero fun _ => 2).stored row.comp b ∧
      a ≠ b := by
  have fits := fun cpu => (C01_multibyte_roundtrip ⟨4, true, true⟩ (by decide) cpu noSimd).1
  obtain ⟨a, ha, _⟩ := fits noSimd sampleInp 60 300 (by decide) (by decide) (by decide) (by decide)
  obtain ⟨b, hb, _⟩ := fits withAvx2 sampleInp 40 300 (by decide) (by decide) (by decide) (by decide)
  have ga : (Item.mk sampleInp 60 noSimd 300 vzero fun _ => 1).stored (.x 4 true true) a :=
    ⟨by decide, by decide, by decide, _, ha⟩
  have gb : (Item.mk sampleInp 40 withAvx2 300 vzero fun _ => 2).stored (.x 4 true true) b :=
    ⟨by decide, by decide, by decide, _, hb⟩
  refine ⟨⟨"Extreme32BytePacked", .x 4 true true, .x 4 true true⟩, by decide +kernel, rfl, a, b, ga, gb, ?_⟩
  intro e
  have := (C51_prefix_free _ _ _ a b [] ga gb (by rw [List.append_nil, e])).2
  cases this

end Hrk
