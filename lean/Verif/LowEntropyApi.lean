import Verif.PropsLowEntropy
import Verif.PropsX

/-
Headers, argument checks, extents, portability and termination of the low entropy codecs.
-/

namespace Hrk

/-- Inputs of which not all 256 byte values are run symbols. -/
def LeCfg.notAll (c : LeCfg) (inp : Mem) (n : Nat) : Prop := ∃ b, (c.info inp n).rle b = false

theorem LeCfg.notAll_onlyMax (short : Bool) (inp : Mem) (n : Nat) : LeCfg.notAll ⟨short, true⟩ inp n := by
  show ∃ b : Byte, flagMax (tally (LeCfg.blk ⟨short, true⟩) inp n) b.toNat = false
  generalize tally (LeCfg.blk ⟨short, true⟩) inp n = t
  by_cases h : flagMax t 0 = true
  · refine ⟨1, ?_⟩
    cases h1 : flagMax t (1 : Byte).toNat with
    | false => rfl
    | true => exact absurd (flagMax_one t h h1) (by decide)
  · exact ⟨0, by simpa using h⟩

/-! ### C21 -/

theorem LeCfg.inside (c : LeCfg) (cpu : Cpu) : StaysInsideExact c.notAll c.compress (leDecompress c.short cpu) := by
  intro inp n outSize ret out hn hn2 ho hd hc m a hpi hpo hcap
  by_cases h : out.length ≤ a.inSize ∧ n ≤ a.outSize
  · obtain ⟨m', h1, _⟩ := c.roundTrip cpu inp n outSize ret out hn hn2 ho hc hd [] m a (by simpa using hpi) h.1 hpo h.2 (by omega)
    rw [h1]
    exact fun h => by cases h
  · obtain ⟨d, hd, hout, _, hle⟩ := LeCfg.compress_ok hc
    simp only [leDecompress, hpi, hpo]
    by_cases h0 : a.inSize = 0 ∨ a.outSize = 0
    · rw [if_pos h0]; exact fun h => by cases h
    · rw [if_neg h0]
      have hl : out.length = 8 + (writeInfo (c.info inp n)).length + d.length := by rw [hout]; simp; omega
      rw [hout]
      simp only [List.append_assoc, rdU32_le32]
      rw [Nat.mod_eq_of_lt (by omega), Nat.mod_eq_of_lt (by omega), if_pos (by omega)]
      exact fun h => by cases h

/-- C21 for `rle8_low_entropy_compress_only_max_frequency` and the short version: the decompressor needs no slack at all. -/
theorem C37_low_entropy_only_max_inside (short : Bool) (cpu : Cpu) :
    StaysInsideExact (fun _ _ => True) (LeCfg.compress ⟨short, true⟩) (leDecompress short cpu) := by
  intro inp n outSize ret out hn hn2 ho _ hc m a hpi hpo hcap
  exact LeCfg.inside ⟨short, true⟩ cpu inp n outSize ret out hn hn2 ho (LeCfg.notAll_onlyMax short inp n) hc m a hpi hpo hcap

/-- C21 for `rle8_low_entropy_compress` and the short version. Missing: inputs with 256 run symbols, where it is false. -/
theorem C37_low_entropy_inside_partial (short : Bool) (cpu : Cpu) :
    StaysInsideExact (LeCfg.notAll ⟨short, false⟩) (LeCfg.compress ⟨short, false⟩) (leDecompress short cpu) :=
  LeCfg.inside ⟨short, false⟩ cpu

/-! ### C22 -/

/-- C22: sizes in the header and returned sizes; the low entropy codecs store the compressed size first. -/
theorem C22_low_entropy_header (c : LeCfg) (cpu : Cpu) : HeaderTruthfulRev c.compress (leDecompress c.short cpu) := by
  refine ⟨?_, ?_⟩
  · intro inp n outSize ret out hn ho hc
    obtain ⟨d, hd, hout, hret, hle⟩ := LeCfg.compress_ok hc
    have hl : out.length = 8 + (writeInfo (c.info inp n)).length + d.length := by rw [hout]; simp; omega
    rw [Nat.mod_eq_of_lt (by omega)] at hret
    refine ⟨by omega, writeInfo (c.info inp n) ++ d, ?_⟩
    rw [hret, hout, List.append_assoc]
  · intro a r m' h
    simp only [leDecompress] at h
    split at h
    · cases h
    · cases h
    next src m hpi hpo =>
    split at h
    · cases h
    split at h
    · cases h
    next x rest hx =>
    split at h
    · cases h
    next y rest' hy =>
    split at h
    · cases h
    split at h
    · cases h
    split at h
    · cases h
    · cases h
    · cases h
      exact ⟨src, rest, rest', x, hpi, hx, hy⟩

/-! ### C23 -/

/-- C23: NULL pointers, an empty input and an output buffer below `rle8_low_entropy_compress_bounds` are refused. -/
theorem C23_low_entropy_guards (c : LeCfg) : CompressGuards leBounds c.compress := by
  intro pIn n pOut outSize h
  cases pIn with
  | none => rfl
  | some inp =>
    simp only [LeCfg.compress]
    rw [if_pos]
    rcases h with h | h | h | h
    · cases h
    · exact Or.inr (Or.inl h)
    · exact Or.inl h
    · exact Or.inr (Or.inr h)

example : LeCfg.compress ⟨false, false⟩ (some fun _ => 0) 10 true 306 = .fail := rfl

/-! ### C25 -/

/-- C25. -/
theorem C25_low_entropy_guards (short : Bool) (cpu : Cpu) : DecompressGuardsRev (leDecompress short cpu) := by
  refine ⟨?_, ?_⟩
  · intro a h
    simp only [leDecompress]
    split
    · rfl
    · rfl
    next src m hpi hpo =>
    rw [if_pos]
    rcases h with h | h | h | h
    · rw [hpi] at h; cases h
    · rw [hpo] at h; cases h
    · exact Or.inl h
    · exact Or.inr h
  · intro a x y rest hx hy hpi h
    simp only [leDecompress, hpi]
    split
    · next h => cases h
    · rfl
    next src m hs hpo =>
    cases hs
    by_cases h0 : a.inSize = 0 ∨ a.outSize = 0
    · rw [if_pos h0]
    · rw [if_neg h0]
      simp only [List.append_assoc, rdU32_le32]
      rw [Nat.mod_eq_of_lt hx, Nat.mod_eq_of_lt hy, if_pos (by omega)]

/-! ### C26 -/

theorem LeCfg.trailing (c : LeCfg) (cpu : Cpu) : TrailingIgnoredExact c.notAll c.compress (leDecompress c.short cpu) := by
  intro inp n outSize ret out hn hn2 ho hd hc t m a hpo hos hcap
  obtain ⟨m₁, h1, h2, h3⟩ := c.roundTrip cpu inp n outSize ret out hn hn2 ho hc hd [] m
    { a with pIn := some out, inSize := out.length } (by simp) (Nat.le_refl _) hpo hos hcap
  obtain ⟨m₂, g1, g2, g3⟩ := c.roundTrip cpu inp n outSize ret out hn hn2 ho hc hd t m
    { a with pIn := some (out ++ t), inSize := out.length + t.length } rfl (by simp) hpo hos hcap
  refine ⟨m₁, m₂, h1, g1, ?_⟩
  intro k
  by_cases hk : k < n
  · rw [h2 k hk, g2 k hk]
  · rw [h3 k (by omega), g3 k (by omega)]

/-- C26: trailing bytes are ignored. -/
theorem C26_low_entropy_only_max_trailing (short : Bool) (cpu : Cpu) :
    TrailingIgnoredExact (fun _ _ => True) (LeCfg.compress ⟨short, true⟩) (leDecompress short cpu) := by
  intro inp n outSize ret out hn hn2 ho _ hc
  exact LeCfg.trailing ⟨short, true⟩ cpu inp n outSize ret out hn hn2 ho (LeCfg.notAll_onlyMax short inp n) hc

/-- C26 for the plain versions. Missing: inputs with 256 run symbols. -/
theorem C26_low_entropy_trailing_partial (short : Bool) (cpu : Cpu) :
    TrailingIgnoredExact (LeCfg.notAll ⟨short, false⟩) (LeCfg.compress ⟨short, false⟩) (leDecompress short cpu) :=
  LeCfg.trailing ⟨short, false⟩ cpu

/-! ### C21: the violation -/

/-- Every byte value three times. -/
def triplesInp : Mem := fun k => b8 (k / 3)

theorem triples_tally (blk : Nat) (hb : 4 ≤ blk) : ∀ i, i < 768 →
    (tallyLoop blk triplesInp (i + 1)).last = i / 3 ∧ (tallyLoop blk triplesInp (i + 1)).count = i % 3 + 1 ∧
      ∀ s, (tallyLoop blk triplesInp (i + 1)).prob s = (if s < i / 3 then 3 else 0) ∧
        (tallyLoop blk triplesInp (i + 1)).pcount s = if s < i / 3 then 1 else 0 := by
  intro i
  have hv : ∀ k, k < 768 → (triplesInp k).toNat = k / 3 := by
    intro k hk
    unfold triplesInp
    rw [b8_toNat]
    omega
  induction i with
  | zero =>
    intro _
    rw [tallyLoop_succ, show tallyLoop blk triplesInp 0 = tallyInit triplesInp from rfl]
    unfold tallyStep tallyInit
    rw [hv 0 (by omega)]
    simp
  | succ i ih =>
    intro hi
    obtain ⟨h1, h2, h3⟩ := ih (by omega)
    rw [tallyLoop_succ]
    generalize tallyLoop blk triplesInp (i + 1) = t at *
    unfold tallyStep
    rw [hv (i + 1) hi, h1, h2]
    by_cases he : (i + 1) / 3 = i / 3
    · rw [if_pos he]
      simp only
      refine ⟨by omega, by omega, ?_⟩
      rw [he]
      exact h3
    · rw [if_neg he]
      refine ⟨rfl, by simp only; omega, ?_⟩
      intro s
      simp only [upd]
      have h4 : (i % 3 + 1) / blk = 0 := Nat.div_eq_of_lt (by omega)
      have h5 : i % 3 = 2 := by omega
      rw [h4, h5, (h3 s).1, (h3 s).2, (h3 _).1, (h3 _).2, if_neg (Nat.lt_irrefl _), if_neg (Nat.lt_irrefl _)]
      by_cases hs : s = i / 3
      · rw [if_pos hs, if_pos hs, if_pos (by omega), if_pos (by omega)]
        exact ⟨rfl, rfl⟩
      · rw [if_neg hs, if_neg hs]
        by_cases hl : s < i / 3
        · rw [if_pos hl, if_pos hl, if_pos (by omega), if_pos (by omega)]
          exact ⟨rfl, rfl⟩
        · rw [if_neg hl, if_neg hl, if_neg (by omega), if_neg (by omega)]
          exact ⟨rfl, rfl⟩

theorem triples_flags (short : Bool) (b : Byte) : (LeCfg.info ⟨short, false⟩ triplesInp 768).rle b = true := by
  show flagAll (tally (LeCfg.blk ⟨short, false⟩) triplesInp 768) b.toNat = true
  have hb : 4 ≤ LeCfg.blk ⟨short, false⟩ := by cases short <;> decide
  obtain ⟨h1, h2, h3⟩ := triples_tally _ hb 767 (by omega)
  rw [show 767 + 1 = 768 from rfl] at h1 h2 h3
  have hlt := b.toNat_lt
  have hp : (tally (LeCfg.blk ⟨short, false⟩) triplesInp 768).prob b.toNat = 3 ∧
      (tally (LeCfg.blk ⟨short, false⟩) triplesInp 768).pcount b.toNat = 1 := by
    simp only [tally, upd, h1, h2, (h3 _).1, (h3 _).2]
    by_cases hs : b.toNat = 767 / 3
    · rw [if_pos hs, if_pos hs]
      exact ⟨rfl, rfl⟩
    · rw [if_neg hs, if_neg hs, if_pos (by omega), if_pos (by omega)]
      exact ⟨rfl, rfl⟩
  simp only [flagAll, hp.1, hp.2]
  rfl

/-- The number of bytes written depends on the flags only. -/
theorem leStep_length {x y : LeInfo} (h : ∀ b, x.rle b = y.rle b) (inp : Mem) (range i : Nat) :
    (leStep x inp range i).1.length = (leStep y inp range i).1.length ∧ (leStep x inp range i).2 = (leStep y inp range i).2 := by
  unfold leStep
  simp only [h]
  by_cases hb : y.rle (inp i) = true
  · simp [hb]
  · simp [hb]

/-- The lengths `leEncode` writes, without the bytes. -/
def leLenStep (blk : Nat) (rle : Byte → Bool) (inp : Mem) (n : Nat) (s : Nat × Nat) : (Nat × Nat) ⊕ Nat :=
  if s.1 < n - 256 then
    let r := leStep ⟨rle, [], 0⟩ inp blk s.1
    .inl (r.2, s.2 + r.1.length)
  else if s.1 < n then
    let r := leStep ⟨rle, [], 0⟩ inp (min (n - s.1 - 1) blk) s.1
    .inl (r.2, s.2 + r.1.length)
  else .inr s.2

theorem leLen_step {blk : Nat} {x : LeInfo} {inp : Mem} {n i : Nat} {out : List Byte} :
    (∃ i' out', leLoopStep blk x inp n (i, out) = .inl (i', out') ∧
      leLenStep blk x.rle inp n (i, out.length) = .inl (i', out'.length)) ∨
    leLoopStep blk x inp n (i, out) = .inr out ∧ leLenStep blk x.rle inp n (i, out.length) = .inr out.length := by
  unfold leLoopStep leLenStep
  generalize n - 256 = T
  by_cases h1 : i < T
  · refine Or.inl ⟨_, _, by rw [if_pos h1], ?_⟩
    rw [if_pos h1]
    obtain ⟨g1, g2⟩ := leStep_length (x := x) (y := ⟨x.rle, [], 0⟩) (fun _ => rfl) inp blk i
    simp only [List.length_append, g1, g2]
  · by_cases h2 : i < n
    · refine Or.inl ⟨_, _, by rw [if_neg h1, if_pos h2], ?_⟩
      rw [if_neg h1, if_pos h2]
      obtain ⟨g1, g2⟩ := leStep_length (x := x) (y := ⟨x.rle, [], 0⟩) (fun _ => rfl) inp (min (n - i - 1) blk) i
      simp only [List.length_append, g1, g2]
    · refine Or.inr ⟨by rw [if_neg h1, if_neg h2], by rw [if_neg h1, if_neg h2]⟩

theorem leLen_loop {f1 : Nat × List Byte → (Nat × List Byte) ⊕ List Byte} {f2 : Nat × Nat → (Nat × Nat) ⊕ Nat}
    (h : ∀ i out, (∃ i' out', f1 (i, out) = .inl (i', out') ∧ f2 (i, out.length) = .inl (i', out'.length)) ∨
      f1 (i, out) = .inr out ∧ f2 (i, out.length) = .inr out.length) :
    ∀ (k : Nat) (s : Nat × List Byte), (loop f1 k s).map List.length = loop f2 k (s.1, s.2.length) := by
  intro k
  induction k with
  | zero => intro s; rfl
  | succ k ih =>
    intro s
    obtain ⟨i, out⟩ := s
    rw [loop, loop]
    rcases h i out with ⟨i', out', h1, h2⟩ | ⟨h1, h2⟩
    · simp only [h1, h2]
      exact ih (i', out')
    · simp only [h1, h2]
      rfl

theorem leEncode_len {blk : Nat} {x : LeInfo} {inp : Mem} {n : Nat} {d : List Byte} {rle : Byte → Bool} {len : Nat}
    (h : leEncode blk x inp n = some d) (hr : x.rle = rle)
    (hl : loop (leLenStep blk rle inp n) (n + 1) (0, 0) = some len) : d.length = len := by
  have h1 := leLen_loop (f1 := leLoopStep blk x inp n) (f2 := leLenStep blk rle inp n)
    (by intro i out; rw [← hr]; exact leLen_step) (n + 1) (0, [])
  unfold leEncode at h
  rw [h] at h1
  have h2 : (some d).map List.length = some len := h1.trans hl
  exact Option.some.inj h2

theorem triples_len : ∀ short, loop (leLenStep (LeCfg.blk ⟨short, false⟩) (fun _ => true) triplesInp 768) (768 + 1) (0, 0) = some 514 := by
  decide +kernel

/-- C21 is false for `rle8_low_entropy_compress` and `rle8_low_entropy_short_compress`: with 256 run symbols the
decompressor copies `n` bytes from a stream that is shorter. -/
theorem C37_low_entropy_violated (short : Bool) (cpu : Cpu) :
    ∃ (inp : Mem) (n outSize ret : Nat) (out : List Byte), 0 < n ∧ n ≤ maxInput ∧ outSize < 4294967296 ∧
      LeCfg.compress ⟨short, false⟩ (some inp) n true outSize = .ok ret out ∧
      ∀ (slack : List Byte) (m : Mem) (a : DArgs), slack.length = 64 → a.pIn = some (out ++ slack) → a.pOut = some m →
        out.length ≤ a.inSize → n ≤ a.outSize → leDecompress short cpu a = .ub := by
  obtain ⟨ret, out, hc⟩ := LeCfg.compress_big ⟨short, false⟩ triplesInp 768 2000 (by omega) (by omega) (by omega)
  refine ⟨triplesInp, 768, 2000, ret, out, by omega, by unfold maxInput; omega, by omega, hc, ?_⟩
  intro slack m a hsl hpi hpo hin hos
  obtain ⟨d, hd, hout, _, hle⟩ := LeCfg.compress_ok hc
  have hdl := leEncode_len hd (funext fun b => triples_flags short b) (triples_len short)
  obtain ⟨y, hy1, hy2, hy3⟩ := C34_info_roundtrip ⟨short, false⟩ triplesInp 768 (d ++ slack)
  have hall : ∀ b, y.rle b = true := by intro b; rw [hy2]; exact triples_flags short b
  have hcount : rleCount y.rle = 0 := by
    unfold rleCount
    rw [List.filter_eq_self.mpr (fun i _ => hall (b8 i)), List.length_range]
  generalize LeCfg.info ⟨short, false⟩ triplesInp 768 = x at *
  have hl : out.length = 8 + (writeInfo x).length + d.length := by rw [hout]; simp; omega
  simp only [leDecompress, hpi, hpo]
  rw [if_neg (by omega), hout]
  simp only [List.append_assoc, rdU32_le32]
  rw [if_neg (by omega), hy1]
  simp only [leDecode, if_pos hcount]
  rw [if_neg]
  simp only [List.length_append, le32_length]
  omega

/-! ### C27 -/

/-- The bytes `src` starts with (header, information block, symbols and pairs) stand for `t`. Not all 256
byte values are run symbols; counts of the short codec are at most 32. -/
def LeStands (short : Bool) (src t : List Byte) : Prop :=
  ∃ w d tail x, src = le32 (8 + w.length + d.length) ++ le32 t.length ++ w ++ d ++ tail ∧
    8 + w.length + d.length < 4294967296 ∧ 0 < t.length ∧ t.length < 4294967296 ∧
    readInfo (w ++ (d ++ tail)) = some (x, d ++ tail) ∧ (∃ b, x.rle b = false) ∧
    leRef x.rle x.toCount (if short then 32 else 255) d = some t

/-- C27: whatever the CPU, every stream (not only an encoded one) that stands for `t` is decoded to `t`, if
`inSize` is at least the stored size. -/
theorem C27_low_entropy_portable (short : Bool) (cpu : Cpu) (src t : List Byte) (h : LeStands short src t) (m : Mem) (a : DArgs)
    (hpi : a.pIn = some src) (hin : ∀ y rest, rdU32 src = some (y, rest) → y ≤ a.inSize) (hpo : a.pOut = some m) (hos : t.length ≤ a.outSize)
    (hcap : t.length ≤ a.cap) :
    ∃ m', leDecompress short cpu a = .ok t.length m' ∧ (∀ k, k < t.length → m' k = t.getD k 0) ∧
      ∀ k, t.length ≤ k → m' k = m k := by
  obtain ⟨w, d, tail, x, hsrc, hl1, hl0, hl2, hx, h256, ht⟩ := h
  have hsl : src.length = 8 + w.length + d.length + tail.length := by rw [hsrc]; simp; omega
  have hr1 : rdU32 src = some (8 + w.length + d.length, le32 t.length ++ (w ++ (d ++ tail))) := by
    rw [hsrc]
    simp only [List.append_assoc, rdU32_le32]
    rw [Nat.mod_eq_of_lt hl1]
  have hin := hin _ _ hr1
  simp only [leDecompress, hpi, hpo]
  rw [if_neg (by omega), hr1]
  simp only [rdU32_le32]
  rw [Nat.mod_eq_of_lt hl2, if_neg (by omega), hx]
  simp only
  have := leDecode_spec (short := short) (cpu := cpu) (x := x) (src := fun k => src.getD k 0) (len := src.length)
    (pos := src.length - (d ++ tail).length) (pEnd := 8 + w.length + d.length) (aOut := a.aOut) (cap := a.cap)
    (o := 0) (m := m) (d := d) (t := t) (mx := if short then 32 else 255) ?_ ?_ ?_ ?_ ht (by split <;> omega)
    (by intro hs; rw [hs]; decide) h256
  · obtain ⟨m', h1, h2, h3⟩ := this
    rw [h1]
    refine ⟨m', rfl, ?_, fun k hk => h3 k (by omega)⟩
    intro k hk
    have := h2 k hk
    rw [Nat.zero_add] at this
    exact this
  · apply List.ext_getElem?
    intro j
    rw [rd_getElem?]
    split
    · next hj =>
      have h1 : src = (le32 (8 + w.length + d.length) ++ le32 t.length ++ w) ++ (d ++ tail) := by
        rw [hsrc]; simp only [List.append_assoc]
      have h2 : src.length - (d ++ tail).length =
          (le32 (8 + w.length + d.length) ++ le32 t.length ++ w).length := by
        rw [hsl]; simp; omega
      rw [h2, h1, getD_app_r, getD_app_l hj, List.getElem?_eq_getElem hj, List.getD_eq_getElem?_getD,
        List.getElem?_eq_getElem hj]
      rfl
    · next hj => simp; omega
  · rw [hsl, List.length_append]; omega
  · rw [hsl]; omega
  · omega

/-- A stream no encoder writes: one run symbol (7), its run split in two. -/
example : LeStands false (le32 47 ++ le32 6 ++ ([0x80] ++ List.replicate 31 0 ++ [1, 7]) ++ [7, 0, 7, 1, 5] ++ [9])
    [7, 7, 7, 7, 7, 5] := by
  have h : (readInfo (([0x80] ++ List.replicate 31 0 ++ [1, 7]) ++ ([7, 0, 7, 1, 5] ++ [9]))).map
      (fun p => (p.2, p.1.rle 0, leRef p.1.rle p.1.toCount 255 [7, 0, 7, 1, 5])) =
      some ([7, 0, 7, 1, 5] ++ [9], false, some [7, 7, 7, 7, 7, 5]) := by decide +kernel
  obtain ⟨p, hp, h1⟩ := Option.map_eq_some_iff.mp h
  simp only [Prod.mk.injEq] at h1
  exact ⟨[0x80] ++ List.replicate 31 0 ++ [1, 7], [7, 0, 7, 1, 5], [9], p.1, by decide +kernel, by decide +kernel, by decide +kernel, by decide +kernel,
    by rw [hp, ← h1.1], ⟨0, h1.2.1⟩, h1.2.2⟩

/-! ### C28 -/

/-- One run symbol (0), a run of 201 bytes, in a stream that claims to hold one byte. -/
def malLe : List Byte :=
  le32 44 ++ le32 1 ++ ([1] ++ List.replicate 31 0 ++ [1, 0]) ++ [0, 200]

theorem malLe_ub : ∀ short a b c d e f : Bool,
    (leDecompress short ⟨a, b, c, d, e, f⟩ (malArgs malLe)).isUb = true := by
  decide +kernel

/-- C28 is false: there are bytes that make decompress write outside `outSize + 128`. -/
theorem C28_low_entropy_violated (short : Bool) (cpu : Cpu) :
    ∃ (src : List Byte) (a : DArgs), a.pIn = some (src ++ List.replicate 64 0) ∧ a.inSize = src.length ∧
      a.outSize = 1 ∧ a.cap = a.outSize + 128 ∧ leDecompress short cpu a = .ub := by
  refine ⟨malLe, malArgs malLe, rfl, rfl, rfl, rfl, ?_⟩
  have := malLe_ub short cpu.sse2 cpu.ssse3 cpu.sse41 cpu.avx cpu.avx2 cpu.avx512f
  revert this
  cases leDecompress short ⟨cpu.sse2, cpu.ssse3, cpu.sse41, cpu.avx, cpu.avx2, cpu.avx512f⟩ (malArgs malLe) <;> simp [DRes.isUb]

/-! ### C29 -/

theorem leMatch_congr {inp inp' : Mem} {b : Byte} : ∀ k a, (∀ j, j < k → inp (a + j) = inp' (a + j)) →
    leMatch inp b a k = leMatch inp' b a k := by
  intro k
  induction k with
  | zero => intro a _; rfl
  | succ k ih =>
    intro a h
    have h0 := h 0 (by omega)
    rw [Nat.add_zero] at h0
    simp only [leMatch, h0]
    rw [ih (a + 1) (fun j hj => by have := h (j + 1) (by omega); rw [show a + 1 + j = a + (j + 1) by omega]; exact this)]

theorem leStep_congr {x : LeInfo} {inp inp' : Mem} {range i : Nat} (h : ∀ j, j < max 1 range → inp (i + j) = inp' (i + j)) :
    leStep x inp range i = leStep x inp' range i := by
  have h0 := h 0 (by omega)
  rw [Nat.add_zero] at h0
  have h1 : leMatch inp (inp' i) (i + 1) (range - 1) = leMatch inp' (inp' i) (i + 1) (range - 1) := by
    apply leMatch_congr
    intro j hj
    have := h (j + 1) (by omega)
    rw [show i + 1 + j = i + (j + 1) by omega]
    exact this
  simp only [leStep, h0, h1]

theorem leLoopStep_congr {blk : Nat} {x : LeInfo} {inp inp' : Mem} {n : Nat} (hb : blk ≤ 255)
    (h : ∀ k, k < n → inp k = inp' k) (s : Nat × List Byte) : leLoopStep blk x inp n s = leLoopStep blk x inp' n s := by
  unfold leLoopStep
  generalize hT : n - 256 = T
  by_cases h1 : s.1 < T
  · rw [if_pos h1, if_pos h1, leStep_congr (inp' := inp') (fun j hj => h _ (by omega))]
  · rw [if_neg h1, if_neg h1]
    by_cases h2 : s.1 < n
    · rw [if_pos h2, if_pos h2, leStep_congr (inp' := inp') (fun j hj => h _ (by omega))]
    · rw [if_neg h2, if_neg h2]

theorem leEncode_congr {blk : Nat} {x : LeInfo} {inp inp' : Mem} {n : Nat} (hb : blk ≤ 255)
    (h : ∀ k, k < n → inp k = inp' k) : leEncode blk x inp n = leEncode blk x inp' n := by
  have key : leLoopStep blk x inp n = leLoopStep blk x inp' n := by
    funext s
    exact leLoopStep_congr hb h s
  unfold leEncode
  rw [key]

theorem tally_congr {blk : Nat} {inp inp' : Mem} {n : Nat} (hn : 0 < n) (h : ∀ k, k < n → inp k = inp' k) :
    tally blk inp n = tally blk inp' n := by
  have key : ∀ k, k ≤ n → tallyLoop blk inp k = tallyLoop blk inp' k := by
    intro k
    induction k with
    | zero =>
      intro _
      show tallyInit inp = tallyInit inp'
      unfold tallyInit
      rw [h 0 hn]
    | succ k ih =>
      intro hk
      rw [tallyLoop_succ, tallyLoop_succ, ih (by omega)]
      unfold tallyStep
      rw [h k (by omega)]
  unfold tally
  rw [key n (Nat.le_refl _)]

/-- C29: only the first `n` bytes at `pIn` influence the stream. -/
theorem C29_low_entropy_prefix (c : LeCfg) : DependsOnPrefix 0 c.compress := by
  intro inp inp' n pOut outSize h
  rw [Nat.add_zero] at h
  by_cases hn : n = 0
  · subst hn
    simp [LeCfg.compress]
  · have h1 : c.info inp n = c.info inp' n := by
      rw [c.info_eq, c.info_eq, tally_congr (by omega) (fun k hk => h k hk)]
    have hb := c.blk_cases
    simp only [LeCfg.compress]
    rw [h1, leEncode_congr (inp' := inp') (by omega) (fun k hk => h k hk)]

/-! ### C36 -/

theorem leFast_term {w : Nat} {find : Nat → Option Nat} {tc : Byte → Nat} {fill : Mem → Nat → Nat → Byte → Option Mem} {src : Mem}
    {len pEnd cap : Nat} {s : LeS} (hw : 0 < w) :
    Post (leFast w find tc fill src len pEnd cap s) (fun s' => True ∧ len + 1 - s'.pos < len + 1 - s.pos) (fun _ => True) := by
  unfold leFast
  generalize s.pos + 256 = q
  by_cases h1 : q < pEnd
  · rw [if_pos h1]
    by_cases h2 : s.pos + w ≤ len ∧ s.o + w ≤ cap
    · rw [if_pos h2]
      cases find s.pos with
      | none => simp only [Post_inl, true_and]; omega
      | some k =>
        simp only
        by_cases h3 : s.pos + k + 1 < len
        · rw [if_pos h3]
          cases fill (wr s.m s.o w fun k => src (s.pos + k)) (s.o + k + 1) (tc (src (s.pos + k + 1))) (src (s.pos + k)) with
          | none => trivial
          | some m2 => simp only [Post_inl, true_and]; omega
        · rw [if_neg h3]; trivial
    · rw [if_neg h2]; trivial
  · rw [if_neg h1]; trivial

theorem leTail_term {x : LeDInfo} {src : Mem} {len pEnd aOut cap : Nat} {s : LeS} :
    Post (leTail x src len pEnd aOut cap s) (fun s' => True ∧ len + 1 - s'.pos < len + 1 - s.pos) (fun _ => True) := by
  unfold leTail
  by_cases h1 : s.pos < pEnd
  · rw [if_pos h1]
    by_cases h2 : s.pos < len ∧ s.o < cap
    · rw [if_pos h2]
      simp only
      by_cases h3 : x.rle (src s.pos) = true
      · rw [if_pos h3]
        by_cases h4 : s.pos + 1 < len
        · rw [if_pos h4]
          cases fillTail aOut cap (wr s.m s.o 1 fun _ => src s.pos) (s.o + 1) (x.toCount (src (s.pos + 1))) (src s.pos) with
          | none => trivial
          | some m2 => simp only [Post_inl, true_and]; omega
        · rw [if_neg h4]; trivial
      · rw [if_neg h3]; simp only [Post_inl, true_and]; omega
    · rw [if_neg h2]; trivial
  · rw [if_neg h1]; trivial

theorem leDecode_term {short : Bool} {cpu : Cpu} {x : LeDInfo} {src : Mem} {len pos pEnd aOut cap o expOut : Nat} {m : Mem} :
    leDecode short cpu x src len pos pEnd aOut cap o expOut m ≠ none := by
  have h1 : ∀ (w : Nat) (find : Nat → Option Nat) (fill : Mem → Nat → Nat → Byte → Option Mem) (s : LeS), 0 < w →
      ∃ r, loop (leFast w find x.toCount fill src len pEnd cap) (len + 2) s = some r := by
    intro w find fill s hw
    obtain ⟨r, hr, _⟩ := loop_rule (body := leFast w find x.toCount fill src len pEnd cap) (fun _ => True) (fun _ => True)
      (fun s => len + 1 - s.pos) (fun s _ => leFast_term hw) (len + 2) s
      trivial (by omega)
    exact ⟨r, hr⟩
  have h2 : ∀ (s : LeS), ∃ r, loop (leTail x src len pEnd aOut cap) (len + 2) s = some r := by
    intro s
    obtain ⟨r, hr, _⟩ := loop_rule (body := leTail x src len pEnd aOut cap) (fun _ => True) (fun _ => True)
      (fun s => len + 1 - s.pos) (fun s _ => leTail_term) (len + 2) s
      trivial (by omega)
    exact ⟨r, hr⟩
  unfold leDecode
  by_cases h0 : rleCount x.rle = 0
  · rw [if_pos h0]
    by_cases h3 : pos + expOut ≤ len ∧ o + expOut ≤ cap
    · rw [if_pos h3]; exact fun h => by cases h
    · rw [if_neg h3]; exact fun h => by cases h
  · rw [if_neg h0]
    simp only
    generalize hww : (if (if (rleCount x.rle == 1) = true then cpu.avx2 else cpu.avx) = true then 32 else 16) = w
    have hw : 0 < w := by
      rw [← hww]
      generalize (if (rleCount x.rle == 1) = true then cpu.avx2 else cpu.avx) = g
      cases g <;> decide
    generalize (if (rleCount x.rle == 1) = true then maskHit w src (firstRle x.rle) else fun p => firstHit src x.rle p w) = find
    generalize (if short = true then _ else _) = fill
    obtain ⟨r, hr⟩ := h1 w find fill ⟨pos, o, m⟩ hw
    rw [hr]
    cases r with
    | none => exact fun h => by cases h
    | some s =>
      obtain ⟨r2, hr2⟩ := h2 s
      simp only [hr2]
      cases r2 with
      | none => exact fun h => by cases h
      | some s2 => exact fun h => by cases h

/-- C36: neither direction hangs, on any argument. -/
theorem C36_low_entropy_terminates (c : LeCfg) (cpu : Cpu) : Terminates c.compress (leDecompress c.short cpu) := by
  refine ⟨?_, ?_⟩
  · intro pIn n pOut outSize
    cases pIn with
    | none => exact fun h => by cases h
    | some inp =>
      have hb := c.blk_cases
      obtain ⟨y, _, _, hy3⟩ := C34_info_roundtrip c inp n []
      obtain ⟨d, hd, _⟩ := leEncode_spec (cnt := y.toCount) (mx := c.blk - 1) (x := c.info inp n) (inp := inp) (n := n) (blk := c.blk)
        (by omega) (by omega) (by omega) hy3
      simp only [LeCfg.compress, hd]
      repeat' split
      all_goals exact fun h => by cases h
  · intro a h
    simp only [leDecompress] at h
    split at h
    · cases h
    · cases h
    split at h
    · cases h
    split at h
    · cases h
    split at h
    · cases h
    split at h
    · cases h
    split at h
    · cases h
    split at h
    · next hh => exact leDecode_term hh
    · cases h
    · cases h

end Hrk
