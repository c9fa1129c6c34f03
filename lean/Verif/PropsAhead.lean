import Verif.PropsReads

/-
C65: what a decompressor reads behind the stream it is given.
-/

namespace Hrk

/-- The width of the vectors a decompressor copies literals with: 16, 32 or 64 bytes for the extreme codecs, depending on the processor, 0 for those
that copy byte by byte (src/rleX_extreme_common.h:30-170, 308-312, and the dispatchers cited at the `decV`s). -/
def DName.vec (f : DName) (cpu : Cpu) : Nat :=
  match f with
  | .r8 _ => (R8Cfg.decV cpu).copyW
  | .x S unb packed => (XCfg.decV ⟨S, unb, packed⟩ cpu).copyW
  | .sl N S unb => (SlCfg.decV ⟨N, S, unb⟩ cpu).copyW
  | .sh N S unb _ => (SlCfg.decV ⟨N, S, unb⟩ cpu).copyW
  | .x128 _ _ => (decV128 cpu).copyW
  | .rsh | .mm | .le _ => 0

/-- The round trip of a caller who owns `ahead` readable bytes behind the stream, whatever they are, and `n + 128` bytes of output buffer. -/
def RoundTripAhead (ahead : Nat) (comp : Compress) (decomp : Decompress) : Prop :=
  ∀ (inp : Mem) (n outSize ret : Nat) (out : List Byte), 0 < n → n ≤ maxInput → outSize < 4294967296 →
    comp (some inp) n true outSize = .ok ret out →
    ∀ (slack : List Byte) (m : Mem) (a : DArgs), ahead ≤ slack.length →
      a.pIn = some (out ++ slack) → out.length ≤ a.inSize → a.pOut = some m →
      n ≤ a.outSize → n + addSize ≤ a.cap →
      ∃ m', decomp a = .ok n m' ∧ (∀ k, k < n → m' k = inp k) ∧ (∀ k, n + addSize ≤ k → m' k = m k)

theorem Cdc.OK.ahead {σ : Type} {c : Cdc σ} {P D : σ → Prop} (h : c.OK P D) (ce cd : Cpu) :
    RoundTripAhead (c.decV cd).copyW (c.compress ce) (c.decompress cd) := by
  intro inp n outSize ret out hn hn2 _ hc slack m a hsl hpi hin hpo ho hcap
  have hm : maxInput = 1073741824 := rfl
  obtain ⟨v1, v2, v3, v4⟩ := h.decV cd
  have hle := h.le
  obtain ⟨_, b, hbody, rfl, rfl⟩ := apiCompress_len _ _ _ _ _ _ hc
  obtain ⟨r, h1, T, hT1, hT2, h4⟩ := h.decode h.upto ce inp n (by omega)
  rw [h1] at hbody
  cases hbody
  have hd := (h.rel cd).decS _ _ _ (h4 (c.decV cd).copyW slack hsl)
  simp only [addSize] at *
  obtain ⟨m', g1, g2, g3⟩ := decM_refines ((h.rel cd).hdrOK h.hdr) (c.decV cd) v1 v3 a.aIn a.aOut a.cap 112 (by omega) v4 _ _ _
    (8 + ((c.pre (c.first inp n) ++ r ++ slack).length - (r ++ slack).length)) m
    hd (h.sub _ (h.first inp n)) (by intro k hk; simp at hk) (by simp; omega)
  have g1' : loop (decMStep (c.hdrV cd) (c.decV cd) a.aIn a.aOut a.cap) ((r ++ slack).length + 1)
      ⟨c.first inp n, r ++ slack, 8 + ((c.pre (c.first inp n) ++ r ++ slack).length - (r ++ slack).length), 0, m⟩ = some (some m') :=
    loop_mono _ ((r ++ slack).length + 1) _ _ (join_eq_some g1) (by simp)
  refine ⟨m', ?_, ?_, fun k hk => g3 k (by simp; omega)⟩
  · simp only [Cdc.decompress, apiDecompress, hpi, hpo]
    simp only [List.length_append, le32_length] at hin
    rw [if_neg (by omega)]
    simp only [List.append_assoc, rdU32_le32]
    rw [if_neg (by simp only [List.length_append]; omega), h.start]
    simp only [← List.append_assoc]
    simp only [g1']
    congr 1
    omega
  · intro k hk
    have := g2 k (by simp; omega)
    rw [this, rd_getD _ _ _ _ _ (by omega), Nat.zero_add]

theorem Cdc.OK.short_ub {σ : Type} {c : Cdc σ} {P D : σ → Prop} (h : c.OK P D) {ce : Cpu} {inp : Mem} {x : Byte} {outSize ret : Nat} {out : List Byte}
    (hb : c.body ce inp 1 = some (c.pre (c.first inp 1) ++ (c.F.endLit 1 ++ [x]))) (hc : c.compress ce (some inp) 1 true outSize = .ok ret out)
    (cd : Cpu) {slack : List Byte} (hs : slack.length + 1 < (c.decV cd).copyW) {m : Mem} {a : DArgs} (hpi : a.pIn = some (out ++ slack))
    (hin : out.length ≤ a.inSize) (hpo : a.pOut = some m) (ho : 1 ≤ a.outSize) : c.decompress cd a = .ub := by
  obtain ⟨_, b, hbody, rfl, rfl⟩ := apiCompress_len _ _ _ _ _ _ hc
  have hbody : c.body ce inp 1 = some b := hbody
  rw [hb] at hbody
  cases hbody
  obtain ⟨sym, fs', he⟩ := h.fmt.ends.endLit (c.first inp 1) 1 ([x] ++ slack) (h.first inp 1) (by omega)
  have he : c.hdrV cd (c.first inp 1) (c.F.endLit 1 ++ ([x] ++ slack)) = some (.go 1 sym none fs' ([x] ++ slack)) := by
    rcases h.rel cd (c.first inp 1) (c.F.endLit 1 ++ ([x] ++ slack)) with e | ⟨_, _, e, _⟩
    · rw [e, he]
    · rw [e] at he; cases he
  simp only [Cdc.decompress, apiDecompress, hpi, hpo]
  simp only [List.length_append, le32_length] at hin
  rw [if_neg (by omega)]
  simp only [List.append_assoc, rdU32_le32]
  rw [if_neg (by simp only [List.length_append]; omega), h.start]
  dsimp only
  unfold loop
  have : decMStep (c.hdrV cd) (c.decV cd) a.aIn a.aOut a.cap ⟨c.first inp 1, c.F.endLit 1 ++ ([x] ++ slack),
      8 + ((c.pre (c.first inp 1) ++ (c.F.endLit 1 ++ ([x] ++ slack))).length - (c.F.endLit 1 ++ ([x] ++ slack)).length), 0, m⟩ = .inr none := by
    unfold decMStep
    dsimp only
    rw [he]
    dsimp only
    unfold memcpyV
    rw [if_pos (by omega), if_neg (by simp only [List.length_append, List.length_singleton]; omega)]
  rw [this]

/-- A byte. -/
def oneInp : Mem := fun k => b8 (k + 5)

/-- The compressor writes that byte as the literal behind an empty record. -/
def oneOf {σ : Type} (c : Cdc σ) (cpu : Cpu) : Bool :=
  decide (c.body cpu oneInp 1 = some (c.pre (c.first oneInp 1) ++ (c.F.endLit 1 ++ [5]))) &&
    decide ((c.pre (c.first oneInp 1) ++ (c.F.endLit 1 ++ [5])).length ≤ 500)

@[inherit_doc oneOf]
def CName.one (f : CName) (cpu : Cpu) : Bool :=
  match f with
  | .r8 s p => oneOf (R8Cfg.cdc ⟨s, p⟩) cpu
  | .x S u p => oneOf (XCfg.cdc ⟨S, u, p⟩) cpu
  | .sl N S u => oneOf (SlCfg.cdc ⟨N, S, u⟩) cpu
  | .sh N S u md => oneOf (ShCfg.cdc ⟨N, S, u, md⟩) cpu
  | .x128 u p => oneOf (cdc128 u p) cpu
  | _ => true

/-- What `C65_violated` says of a pair. -/
def ShortUb (vec : Cpu → Nat) (comp : Compress) (dec : Cpu → Decompress) : Prop :=
  ∃ (inp : Mem) (ret : Nat) (out : List Byte), comp (some inp) 1 true 1024 = .ok ret out ∧
    ∀ (cd : Cpu) (slack : List Byte) (m : Mem) (a : DArgs), slack.length + 1 < vec cd →
      a.pIn = some (out ++ slack) → out.length ≤ a.inSize → a.pOut = some m → 1 ≤ a.outSize → dec cd a = .ub

theorem Cdc.OK.shortUb {σ : Type} {c : Cdc σ} {P D : σ → Prop} (h : c.OK P D) {ce : Cpu} (ho : oneOf c ce = true) :
    ShortUb (fun cd => (c.decV cd).copyW) (c.compress ce) c.decompress := by
  unfold oneOf at ho
  rw [Bool.and_eq_true, decide_eq_true_eq, decide_eq_true_eq] at ho
  obtain ⟨h1, h2⟩ := ho
  have hc : ∃ ret out, c.compress ce (some oneInp) 1 true 1024 = .ok ret out := by
    unfold Cdc.compress apiCompress
    dsimp only
    rw [if_neg (by simp [bounds])]
    have h1' : c.body ce oneInp 1 = _ := h1
    rw [h1']
    dsimp only
    rw [if_pos (by simp only [List.length_append, le32_length] at h2 ⊢; omega)]
    exact ⟨_, _, rfl⟩
  obtain ⟨ret, out, hc⟩ := hc
  exact ⟨oneInp, ret, out, hc, fun cd slack m a hs hpi hin hpo ho => h.short_ub h1 hc cd hs hpi hin hpo ho⟩

theorem greedy_decompress (N S : Nat) (u : Bool) (cd : Cpu) :
    ShCfg.decompress ⟨N, S, u, .normal⟩ cd = ShCfg.decompress ⟨N, S, u, .greedy⟩ cd := by
  unfold ShCfg.decompress Cdc.decompress
  have h1 : ShCfg.minR ⟨N, S, u, .normal⟩ = ShCfg.minR ⟨N, S, u, .greedy⟩ := by simp [ShCfg.minR]
  have h2 : ShCfg.news ⟨N, S, u, .normal⟩ = ShCfg.news ⟨N, S, u, .greedy⟩ := by
    funext k
    have : (ShMode.normal != ShMode.single) = (ShMode.greedy != ShMode.single) := by decide
    simp only [ShCfg.news, this]
  have h3 : ShCfg.start ⟨N, S, u, .normal⟩ = ShCfg.start ⟨N, S, u, .greedy⟩ := by
    funext src; simp [ShCfg.start, ShCfg.init]
  have h4 : ShCfg.fields ⟨N, S, u, .normal⟩ = ShCfg.fields ⟨N, S, u, .greedy⟩ := by
    funext lut
    have h5 : ShCfg.rdSym ⟨N, S, u, .normal⟩ = ShCfg.rdSym ⟨N, S, u, .greedy⟩ := by
      funext l i; simp only [ShCfg.rdSym, h2]
    have h6 : ShCfg.rdCO ⟨N, S, u, .normal⟩ = ShCfg.rdCO ⟨N, S, u, .greedy⟩ := rfl
    simp only [ShCfg.fields, h5, h6]
    rfl
  have h7 : ShCfg.toH ⟨N, S, u, .normal⟩ = ShCfg.toH ⟨N, S, u, .greedy⟩ := by
    funext x r; simp only [ShCfg.toH, ShCfg.cntOf, h1]
  show apiDecompress _ (ShCfg.hdr _) _ = apiDecompress _ (ShCfg.hdr _) _
  simp only [ShCfg.cdc, h3, ShCfg.hdr, h4, h7]

theorem table_one (cpu : Cpu) : table.all (fun r => r.comp.one cpu) = true := by
  obtain ⟨a, b, c, d, e, f⟩ := cpu
  revert a b c d e f
  decide +kernel

theorem RoundTripExact.ahead {lim : Nat} (hl : maxInput ≤ lim) {comp : Compress} {decomp : Decompress}
    (h : RoundTripExact lim comp decomp) : RoundTripAhead 0 comp decomp := by
  intro inp n outSize ret out h0 hn ho hc slack m a _ h1 h2 h3 h4 h5
  obtain ⟨m', e1, e2, e3⟩ := h inp n outSize ret out h0 (by omega) ho hc slack m a h1 h2 h3 h4 (by unfold addSize at h5; omega)
  exact ⟨m', e1, e2, fun k hk => e3 k (by omega)⟩

theorem ahead_sound {f : CName} {g : DName} (h : pairs f g = true) (ce cd : Cpu) (junk : Vec) (m0 : Mem) :
    RoundTripAhead (g.vec cd) (f.run ce junk m0) (g.run cd) := by
  cases f with
  | r8 s p =>
    cases g <;> simp [pairs] at h
    subst h
    intro inp n outSize ret out h1 h2 h3 h4 slack m a h5 h6 h7 h8 h9 h10
    obtain ⟨m', g1, g2⟩ := (R8Cfg.cdc_ok ⟨s, p⟩).ahead ce cd inp n outSize ret out h1 h2 h3 h4 slack m a h5 h6 h7 h8 h9 h10
    exact ⟨m', R8Cfg.decompress_of_ok g1, g2⟩
  | x S u p =>
    cases g <;> simp [pairs] at h
    obtain ⟨⟨⟨rfl, rfl⟩, rfl⟩, hv⟩ := h
    exact (XCfg.cdc_ok ⟨S, u, p⟩ (by simpa [XCfg.valid] using hv)).ahead ce cd
  | sl N S u =>
    cases g <;> simp [pairs] at h
    obtain ⟨⟨⟨rfl, rfl⟩, rfl⟩, hv⟩ := h
    exact (SlCfg.cdc_ok ⟨N, S, u⟩ hv).ahead ce cd
  | sh N S u m =>
    cases g <;> simp [pairs] at h
    obtain ⟨⟨⟨⟨rfl, rfl⟩, rfl⟩, hv⟩, hm⟩ := h
    by_cases hg : m = .greedy
    · subst hg
      rw [if_pos rfl] at hm
      subst hm
      have := (ShCfg.cdc_ok ⟨N, S, u, .greedy⟩ hv).ahead ce cd
      show RoundTripAhead _ _ (ShCfg.decompress ⟨N, S, u, .normal⟩ cd)
      rw [greedy_decompress]
      exact this
    · rw [if_neg hg] at hm
      subst hm
      exact (ShCfg.cdc_ok ⟨N, S, u, _⟩ hv).ahead ce cd
  | x128 u p =>
    cases g <;> simp [pairs] at h
    obtain ⟨rfl, rfl⟩ := h
    exact (cdc128_ok u p).ahead ce cd
  | rsh =>
    cases g <;> simp [pairs] at h
    exact (C15_roundtrip m0).ahead (by decide)
  | mm =>
    cases g <;> simp [pairs] at h
    exact (C14_roundtrip junk m0).ahead (by decide)
  | le s o =>
    cases g <;> cases o <;> simp [pairs] at h
    subst h
    cases s
    · exact (C07_only_max_roundtrip cd).ahead (by decide)
    · exact (C08_only_max_roundtrip cd).ahead (by decide)

theorem short_sound {f : CName} {g : DName} (h : pairs f g = true) (hz : ∀ cd, g.vec cd ≠ 0) (ce : Cpu) (h1 : f.one ce = true)
    (junk : Vec) (m0 : Mem) : ShortUb g.vec (f.run ce junk m0) g.run := by
  cases f with
  | r8 s p =>
    cases g <;> simp [pairs] at h
    subst h
    obtain ⟨inp, ret, out, g1, g2⟩ := (R8Cfg.cdc_ok ⟨s, p⟩).shortUb h1
    refine ⟨inp, ret, out, g1, fun cd slack m a h2 h3 h4 h5 h6 => ?_⟩
    rcases R8Cfg.decompress_api p cd a with h | ⟨h, _⟩
    · exact h.trans (g2 cd slack m a h2 h3 h4 h5 h6)
    · exact h
  | x S u p =>
    cases g <;> simp [pairs] at h
    obtain ⟨⟨⟨rfl, rfl⟩, rfl⟩, hv⟩ := h
    exact (XCfg.cdc_ok ⟨S, u, p⟩ (by simpa [XCfg.valid] using hv)).shortUb h1
  | sl N S u =>
    cases g <;> simp [pairs] at h
    obtain ⟨⟨⟨rfl, rfl⟩, rfl⟩, hv⟩ := h
    exact (SlCfg.cdc_ok ⟨N, S, u⟩ hv).shortUb h1
  | sh N S u m =>
    cases g <;> simp [pairs] at h
    obtain ⟨⟨⟨⟨rfl, rfl⟩, rfl⟩, hv⟩, hm⟩ := h
    by_cases hg : m = .greedy
    · subst hg
      rw [if_pos rfl] at hm
      subst hm
      have := (ShCfg.cdc_ok ⟨N, S, u, .greedy⟩ hv).shortUb h1
      have he : (DName.sh N S u .normal).run = ShCfg.decompress ⟨N, S, u, .greedy⟩ := by
        funext cd
        exact greedy_decompress N S u cd
      rw [he]
      exact this
    · rw [if_neg hg] at hm
      subst hm
      exact (ShCfg.cdc_ok ⟨N, S, u, _⟩ hv).shortUb h1
  | x128 u p =>
    cases g <;> simp [pairs] at h
    obtain ⟨rfl, rfl⟩ := h
    exact (cdc128_ok u p).shortUb h1
  | rsh =>
    cases g <;> simp [pairs] at h
    exact absurd rfl (hz ce)
  | mm =>
    cases g <;> simp [pairs] at h
    exact absurd rfl (hz ce)
  | le s o =>
    cases g <;> cases o <;> simp [pairs] at h
    exact absurd rfl (hz ce)

/-! ### The property -/

/-- C65: a caller who owns one vector behind the stream, 64 bytes at most, gets the data back; `rle8_sh`, `rle8_mmtf128` and the `only_max` versions of
the low entropy codecs need nothing at all. Missing: decompressors that read nothing behind the stream, which is false for all others by
`C65_violated`; and the rows `LowEntropy` and `LowEntropyShort`, which fail whatever follows the stream (`C37_low_entropy_violated`). -/
theorem C65_table_partial (row : Row) (hr : row ∈ table) (hn : row.comp ≠ .le false false) (hn' : row.comp ≠ .le true false)
    (ce cd : Cpu) (junk : Vec) (m0 : Mem) : RoundTripAhead (row.dec.vec cd) (row.comp.run ce junk m0) (row.dec.run cd) := by
  have key : table.all (fun r => pairs r.comp r.dec || r.comp == .le false false || r.comp == .le true false) = true := by
    decide +kernel
  have := List.all_eq_true.mp key row hr
  simp [hn, hn'] at this
  exact ahead_sound this ce cd junk m0

/-- C65: how wide a vector is: nothing for the three kinds of codecs without vectors; otherwise 16 bytes without AVX, and with it 32, and 64 at most. -/
theorem C65_vec (row : Row) (hr : row ∈ table) (cpu : Cpu) :
    (row.dec.vec cpu = 0 ↔ row.dec = .rsh ∨ row.dec = .mm ∨ ∃ s, row.dec = .le s) ∧
    (row.dec.vec cpu ≠ 0 → 16 ≤ row.dec.vec cpu ∧ row.dec.vec cpu ≤ 64 ∧
      (cpu.avx512f = false → row.dec.vec cpu ≤ 32) ∧
      (cpu.avx = false → cpu.avx2 = false → cpu.avx512f = false → row.dec.vec cpu = 16)) := by
  have key : ∀ a b c d e f : Bool, table.all (fun r =>
      let v := r.dec.vec ⟨a, b, c, d, e, f⟩
      ((v == 0) == (match r.dec with | .rsh | .mm | .le _ => true | _ => false)) &&
      (v == 0 || (decide (16 ≤ v) && decide (v ≤ 64) && (f || decide (v ≤ 32)) && (d || e || f || v == 16)))) = true := by decide +kernel
  obtain ⟨a, b, c, d, e, f⟩ := cpu
  have h := List.all_eq_true.mp (key a b c d e f) row hr
  dsimp only at h
  revert h
  generalize row.dec.vec ⟨a, b, c, d, e, f⟩ = v
  intro h
  rw [Bool.and_eq_true] at h
  obtain ⟨h1, h2⟩ := h
  refine ⟨?_, ?_⟩
  · cases hd : row.dec <;> rw [hd] at h1 <;> simp at h1 <;> simp [h1]
  · intro hv
    simp [hv] at h2
    obtain ⟨⟨⟨x1, x2⟩, x3⟩, x4⟩ := h2
    refine ⟨x1, x2, fun hf => ?_, fun hd he hf => ?_⟩
    · rcases x3 with x | x
      · simp_all
      · exact x
    · rcases x4 with ((x | x) | x) | x <;> simp_all

/-- C65 is false for every codec that copies vectors: a caller who owns the stream of one byte and less than a vector minus one byte behind it sees the
decompressor read outside of its buffer, on every processor, whatever the addresses and however large the output buffer. -/
theorem C65_violated (row : Row) (hr : row ∈ table) (hv : ∀ cd, row.dec.vec cd ≠ 0) (ce : Cpu) (junk : Vec) (m0 : Mem) :
    ∃ (inp : Mem) (ret : Nat) (out : List Byte), row.comp.run ce junk m0 (some inp) 1 true 1024 = .ok ret out ∧
      ∀ (cd : Cpu) (slack : List Byte) (m : Mem) (a : DArgs), slack.length + 1 < row.dec.vec cd →
        a.pIn = some (out ++ slack) → out.length ≤ a.inSize → a.pOut = some m → 1 ≤ a.outSize → row.dec.run cd a = .ub := by
  have key : table.all (fun r => pairs r.comp r.dec || r.comp == .le false false || r.comp == .le true false) = true := by
    decide +kernel
  have hp := List.all_eq_true.mp key row hr
  have h1 := List.all_eq_true.mp (table_one ce) row hr
  have hp : pairs row.comp row.dec = true := by
    simp only [Bool.or_eq_true, beq_iff_eq] at hp
    rcases hp with (h | h) | h
    · exact h
    · exact absurd (by rw [C38_table_low_entropy row hr _ h]; rfl) (hv ce)
    · exact absurd (by rw [C38_table_low_entropy row hr _ h]; rfl) (hv ce)
  exact short_sound hp hv ce h1 junk m0

/-! ### The hypotheses are met -/

/-- A row with vectors: 32 bytes of them with AVX2, so 30 bytes behind the stream of one byte are not enough and 32 are. -/
example : (⟨"Extreme16Byte", .x 2 true false, .x 2 true false⟩ : Row) ∈ table ∧
    (∀ cd, (DName.x 2 true false).vec cd ≠ 0) ∧
    (DName.x 2 true false).vec ⟨true, true, true, true, true, false⟩ = 32 := by
  refine ⟨by decide +kernel, ?_, by decide⟩
  intro ⟨a, b, c, d, e, f⟩
  revert a b c d e f
  decide

example : (XCfg.compress ⟨2, true, false⟩ ⟨true, true, true, true, true, false⟩ (some oneInp) 1 true 1024) ≠ .fail := by
  decide +kernel

end Hrk
