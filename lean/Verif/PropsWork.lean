import Verif.Work
import Verif.PropsStale

/-
C60: what a decompressor does is linear in the size of the stream and of the output buffer.
-/

namespace Hrk

/-- What the decompressor of that name does before it returns: records, vector stores of copies and fills (`.r8` … `.x128`, `.le`), or records and
bytes stored (`.rsh`, `.mm`). If it leaves the buffers: what it does until then (src/rle.h). -/
def DName.work (f : DName) (cpu : Cpu) (a : DArgs) : Nat :=
  match f with
  | .r8 packed => apiWork R8Cfg.start (R8Cfg.hdr packed) (R8Cfg.decV cpu) a
  | .x S unb packed => apiWork (XCfg.cdc ⟨S, unb, packed⟩).start ((XCfg.cdc ⟨S, unb, packed⟩).hdrV cpu) ((XCfg.cdc ⟨S, unb, packed⟩).decV cpu) a
  | .sl N S unb => apiWork (SlCfg.cdc ⟨N, S, unb⟩).start ((SlCfg.cdc ⟨N, S, unb⟩).hdrV cpu) ((SlCfg.cdc ⟨N, S, unb⟩).decV cpu) a
  | .sh N S unb mode =>
    apiWork (ShCfg.cdc ⟨N, S, unb, mode⟩).start ((ShCfg.cdc ⟨N, S, unb, mode⟩).hdrV cpu) ((ShCfg.cdc ⟨N, S, unb, mode⟩).decV cpu) a
  | .x128 unb packed => apiWork (cdc128 unb packed).start ((cdc128 unb packed).hdrV cpu) ((cdc128 unb packed).decV cpu) a
  | .rsh => shWork a
  | .mm => mmWork a
  | .le short => leApiWork short cpu a

/-! ### Lemmas -/

/-- Both vector sizes of a decoder are at least 16. -/
def DecV.wide (v : DecV) : Bool := decide (16 ≤ v.copyW) && decide (16 ≤ v.setK.width)

theorem DecV.wide_iff {v : DecV} (h : v.wide = true) : 16 ≤ v.copyW ∧ 16 ≤ v.setK.width := by
  unfold DecV.wide at h
  rw [Bool.and_eq_true] at h
  exact ⟨of_decide_eq_true h.1, of_decide_eq_true h.2⟩

theorem takeN_le {k : Nat} {src x r : List Byte} (h : takeN k src = some (x, r)) : r.length ≤ src.length := by
  unfold takeN at h
  by_cases hk : k ≤ src.length
  · rw [if_pos hk] at h
    injection h with h
    injection h with _ h
    rw [← h, List.length_drop]
    exact Nat.sub_le ..
  · rw [if_neg hk] at h; cases h

theorem r8_start_len (r : List Byte) (fs : R8St) (r' : List Byte) (h : R8Cfg.start r = some (some (fs, r'))) : r'.length ≤ r.length := by
  unfold R8Cfg.start at h
  cases r with
  | nil => cases h
  | cons b r =>
    rw [show rdU8 (b :: r) = some (b.toNat, r) from rfl] at h
    dsimp only at h
    by_cases h0 : b.toNat = 0
    · rw [if_pos h0] at h
      cases h
      rw [List.length_cons]; omega
    · rw [if_neg h0] at h
      by_cases h1 : b.toNat = 1
      · rw [if_pos h1] at h
        cases ht : takeN 1 r with
        | none => rw [ht] at h; cases h
        | some p =>
          rw [ht] at h
          have := takeN_le (x := p.1) (r := p.2) ht
          cases h
          rw [List.length_cons]; omega
      · rw [if_neg h1] at h; cases h

theorem sh_start_len (c : ShCfg) (r : List Byte) (fs : Lut) (r' : List Byte) (h : c.start r = some (some (fs, r'))) : r'.length ≤ r.length := by
  unfold ShCfg.start at h
  by_cases hm : c.mode = .single
  · rw [if_pos hm] at h
    cases ht : takeN 1 r with
    | none => rw [ht] at h; cases h
    | some p =>
      rw [ht] at h
      have := takeN_le (x := p.1) (r := p.2) ht
      cases h
      exact this
  · rw [if_neg hm] at h; cases h; exact Nat.le_refl _

theorem id_start_len {σ : Type} {i : σ} (r : List Byte) (fs : σ) (r' : List Byte) (h : some (some (i, r)) = some (some (fs, r'))) :
    r'.length ≤ r.length := by cases h; exact Nat.le_refl _

theorem cdc_work {σ : Type} {c : Cdc σ} {P D : σ → Prop} (h : c.OK P D) (cpu : Cpu) (hw : (c.decV cpu).wide = true)
    (hs : ∀ r fs r', c.start r = some (some (fs, r')) → r'.length ≤ r.length) (a : DArgs) (src : List Byte) (hsrc : a.pIn = some src) :
    apiWork c.start (c.hdrV cpu) (c.decV cpu) a ≤ 7 * src.length + a.cap / 16 :=
  apiWork_le hs (h.locV cpu) (DecV.wide_iff hw).1 (DecV.wide_iff hw).2 a src hsrc

theorem cpu_cases {p : Cpu → Bool} (h : ∀ a b c d e f : Bool, p ⟨a, b, c, d, e, f⟩ = true) (cpu : Cpu) : p cpu = true := h ..

/-- The vector sizes of the decoders of the table. -/
def DName.wide (f : DName) (cpu : Cpu) : Bool :=
  match f with
  | .r8 _ => (R8Cfg.decV cpu).wide
  | .x S unb packed => ((XCfg.cdc ⟨S, unb, packed⟩).decV cpu).wide
  | .sl N S unb => ((SlCfg.cdc ⟨N, S, unb⟩).decV cpu).wide
  | .sh N S unb mode => ((ShCfg.cdc ⟨N, S, unb, mode⟩).decV cpu).wide
  | .x128 unb packed => ((cdc128 unb packed).decV cpu).wide
  | _ => true

theorem table_wide : ∀ row ∈ table, ∀ a b c d e f : Bool, row.dec.wide ⟨a, b, c, d, e, f⟩ = true := by decide +kernel

/-! ### The property -/

/-- **C60.** Whatever the stream, sizes, addresses and processor, a decompressor of the table does at most 18 steps per byte of the stream and one per
byte of the output buffer: no byte string makes it slow. -/
theorem C60_table (row : Row) (hrow : row ∈ table) (cpu : Cpu) (a : DArgs) (src : List Byte) (hsrc : a.pIn = some src) :
    row.dec.work cpu a ≤ 18 * src.length + a.cap + 20 := by
  have hg := table_good row hrow
  have hw : row.dec.wide cpu = true := table_wide row hrow cpu.sse2 cpu.ssse3 cpu.sse41 cpu.avx cpu.avx2 cpu.avx512f
  generalize row.dec = f at hg hw
  have fin : ∀ {x : Nat}, x ≤ 7 * src.length + a.cap / 16 → x ≤ 18 * src.length + a.cap + 20 := by intro x h; omega
  cases f with
  | r8 p => exact fin (cdc_work (R8Cfg.cdc_ok ⟨false, p⟩) cpu hw r8_start_len a src hsrc)
  | x S u p => exact fin (cdc_work (XCfg.cdc_ok ⟨S, u, p⟩ (of_decide_eq_true hg)) cpu hw id_start_len a src hsrc)
  | sl N S u => exact fin (cdc_work (SlCfg.cdc_ok ⟨N, S, u⟩ (of_decide_eq_true hg)) cpu hw id_start_len a src hsrc)
  | sh N S u m => exact fin (cdc_work (ShCfg.cdc_ok ⟨N, S, u, m⟩ (of_decide_eq_true hg)) cpu hw (sh_start_len _) a src hsrc)
  | x128 u p => exact fin (cdc_work (cdc128_ok u p) cpu hw id_start_len a src hsrc)
  | rsh =>
    have : DName.rsh.work cpu a ≤ 8 * src.length + 1 + a.cap := shWork_le a src hsrc
    omega
  | mm =>
    have : DName.mm.work cpu a ≤ src.length + a.cap := mmWork_le a src hsrc
    omega
  | le short =>
    have : (DName.le short).work cpu a ≤ 18 * src.length + 20 := leApiWork_le short cpu a src hsrc
    omega

/-- For the codecs whose streams are sequences of records: at most 7 steps per byte of the stream and one per 16 bytes of the output buffer. -/
theorem C60_records (row : Row) (hrow : row ∈ table) (hr : row.dec ≠ .rsh ∧ row.dec ≠ .mm ∧ ∀ s, row.dec ≠ .le s) (cpu : Cpu) (a : DArgs)
    (src : List Byte) (hsrc : a.pIn = some src) : row.dec.work cpu a ≤ 7 * src.length + a.cap / 16 := by
  have hg := table_good row hrow
  have hw : row.dec.wide cpu = true := table_wide row hrow cpu.sse2 cpu.ssse3 cpu.sse41 cpu.avx cpu.avx2 cpu.avx512f
  generalize row.dec = f at hg hw hr
  cases f with
  | r8 p => exact cdc_work (R8Cfg.cdc_ok ⟨false, p⟩) cpu hw r8_start_len a src hsrc
  | x S u p => exact cdc_work (XCfg.cdc_ok ⟨S, u, p⟩ (of_decide_eq_true hg)) cpu hw id_start_len a src hsrc
  | sl N S u => exact cdc_work (SlCfg.cdc_ok ⟨N, S, u⟩ (of_decide_eq_true hg)) cpu hw id_start_len a src hsrc
  | sh N S u m => exact cdc_work (ShCfg.cdc_ok ⟨N, S, u, m⟩ (of_decide_eq_true hg)) cpu hw (sh_start_len _) a src hsrc
  | x128 u p => exact cdc_work (cdc128_ok u p) cpu hw id_start_len a src hsrc
  | rsh => exact absurd rfl hr.1
  | mm => exact absurd rfl hr.2.1
  | le short => exact absurd rfl (hr.2.2 short)

/-- rle8m: the linear bound, for each of its sections. -/
theorem C60_rle8m_partial (cpu : Cpu) (a : DArgs) (src : List Byte) (hsrc : a.pIn = some src) :
    mWork cpu a ≤ (src.length / 4) * (18 * src.length + 20) := mWork_le cpu a src hsrc

/-! ### Where it does not hold -/

/-- The opposite of `work_le`. -/
theorem work_ge {σ ρ : Type} {w : σ → Nat} {body : σ → σ ⊕ ρ} (A : Nat) (P : σ → Nat) (Q : ρ → Nat)
    (h : ∀ s, match body s with
      | .inl s' => P s ≤ A * w s + P s'
      | .inr r => P s ≤ A * w s + Q r) :
    ∀ fuel s r, loop body fuel s = some r → P s ≤ A * work w body fuel s + Q r
  | 0, _, _, hl => by cases hl
  | fuel + 1, s, r, hl => by
    have h1 := h s
    rw [loop] at hl
    rw [work]
    cases hb : body s with
    | inl s' =>
      rw [hb] at h1 hl
      have h2 := work_ge A P Q h fuel s' r hl
      dsimp only at h1 ⊢
      rw [Nat.mul_add]
      omega
    | inr r' =>
      rw [hb] at h1 hl
      cases hl
      simpa using h1

/-- A call that returns has passed over every byte of its part of the stream, at most 33 of them in a round. -/
theorem leWork_ge {short : Bool} {cpu : Cpu} {x : LeDInfo} (h0 : rleCount x.rle ≠ 0) {src : Mem} {len pos pEnd aOut cap o expOut : Nat} {m m' : Mem}
    (hd : leDecode short cpu x src len pos pEnd aOut cap o expOut m = some (some m')) :
    pEnd - pos ≤ 33 * leWork short cpu x src len pos pEnd aOut cap o expOut m := by
  unfold leDecode at hd
  unfold leWork
  rw [if_neg h0] at hd ⊢
  dsimp only at hd ⊢
  generalize hww : (if (if (rleCount x.rle == 1) = true then cpu.avx2 else cpu.avx) = true then 32 else 16) = w at hd ⊢
  have hw : w ≤ 32 := by
    rw [← hww]
    generalize (if (rleCount x.rle == 1) = true then cpu.avx2 else cpu.avx) = g
    cases g <;> decide
  have hfind : ∀ p k, (if (rleCount x.rle == 1) = true then maskHit w src (firstRle x.rle) else fun p => firstHit src x.rle p w) p = some k → k < w := by
    intro p k h
    by_cases hs : (rleCount x.rle == 1) = true
    · rw [if_pos hs, maskHit_eq hw] at h; exact (firstHit_some h).1
    · rw [if_neg hs] at h; exact (firstHit_some h).1
  generalize (if (rleCount x.rle == 1) = true then maskHit w src (firstRle x.rle) else fun p => firstHit src x.rle p w) = find at hd hfind ⊢
  generalize (if short = true then _ else _) = fill at hd ⊢
  cases hl : loop (leFast w find x.toCount fill src len pEnd cap) (len + 2) ⟨pos, o, m⟩ with
  | none => rw [hl] at hd; cases hd
  | some z =>
    rw [hl] at hd
    cases z with
    | none => cases hd
    | some s =>
      dsimp only at hd ⊢
      have h1 := work_ge (w := leFastWork short w find x.toCount src len pEnd aOut cap) 33 (fun s => pEnd - s.pos)
        (fun r => match r with
          | some s => pEnd - s.pos
          | none => pEnd) (fun s => by
          have hpos : 1 ≤ leFastWork short w find x.toCount src len pEnd aOut cap s := Nat.le_add_right ..
          generalize leFastWork short w find x.toCount src len pEnd aOut cap s = fw at hpos
          unfold leFast
          by_cases h1 : s.pos + 256 < pEnd
          · rw [if_pos h1]
            by_cases h2 : s.pos + w ≤ len ∧ s.o + w ≤ cap
            · rw [if_pos h2]
              dsimp only
              cases hf : find s.pos with
              | none => dsimp only; omega
              | some k =>
                have hk := hfind _ _ hf
                dsimp only
                by_cases h3 : s.pos + k + 1 < len
                · rw [if_pos h3]
                  cases fill (wr s.m s.o w fun k => src (s.pos + k)) (s.o + k + 1) (x.toCount (src (s.pos + k + 1))) (src (s.pos + k)) with
                  | none => dsimp only; omega
                  | some m => dsimp only; omega
                · rw [if_neg h3]; dsimp only; omega
            · rw [if_neg h2]; dsimp only; omega
          · rw [if_neg h1]; dsimp only; omega) _ _ _ hl
      cases ht : loop (leTail x src len pEnd aOut cap) (len + 2) s with
      | none => rw [ht] at hd; cases hd
      | some z =>
        rw [ht] at hd
        cases z with
        | none => cases hd
        | some s2 =>
          have h2 := work_ge (w := leTailWork x src len pEnd aOut) 33 (fun s => pEnd - s.pos)
            (fun r => match r with
              | some s => pEnd - s.pos
              | none => pEnd) (fun s => by
              have hpos : 1 ≤ leTailWork x src len pEnd aOut s := Nat.le_add_right ..
              generalize leTailWork x src len pEnd aOut s = fw at hpos
              unfold leTail
              by_cases h1 : s.pos < pEnd
              · rw [if_pos h1]
                by_cases h2 : s.pos < len ∧ s.o < cap
                · rw [if_pos h2]
                  dsimp only
                  by_cases h3 : x.rle (src s.pos) = true
                  · rw [if_pos h3]
                    by_cases h4 : s.pos + 1 < len
                    · rw [if_pos h4]
                      cases fillTail aOut cap (wr s.m s.o 1 fun _ => src s.pos) (s.o + 1) (x.toCount (src (s.pos + 1))) (src s.pos) with
                      | none => dsimp only; omega
                      | some m => dsimp only; omega
                    · rw [if_neg h4]; dsimp only; omega
                  · rw [if_neg h3]; dsimp only; omega
                · rw [if_neg h2]; dsimp only; omega
              · rw [if_neg h1]; dsimp only; omega) _ _ _ ht
          have h3 := loop_post (body := leTail x src len pEnd aOut cap) (fun _ => True) (fun r => ∀ s, r = some s → pEnd ≤ s.pos) (fun s _ => by
              unfold leTail
              by_cases h1 : s.pos < pEnd
              · rw [if_pos h1]
                by_cases h2 : s.pos < len ∧ s.o < cap
                · rw [if_pos h2]
                  dsimp only
                  by_cases h3 : x.rle (src s.pos) = true
                  · rw [if_pos h3]
                    by_cases h4 : s.pos + 1 < len
                    · rw [if_pos h4]
                      cases fillTail aOut cap (wr s.m s.o 1 fun _ => src s.pos) (s.o + 1) (x.toCount (src (s.pos + 1))) (src s.pos) with
                      | none => exact fun _ h => by cases h
                      | some m => trivial
                    · rw [if_neg h4]; exact fun _ h => by cases h
                  · rw [if_neg h3]; trivial
                · rw [if_neg h2]; exact fun _ h => by cases h
              · rw [if_neg h1]; intro t ht; cases ht; omega) _ _ _ trivial ht s2 rfl
          dsimp only at h1 h2
          omega

theorem leDecode_expOut {short : Bool} {cpu : Cpu} {x : LeDInfo} (h0 : rleCount x.rle ≠ 0) {src : Mem} {len pos pEnd aOut cap o : Nat} {m : Mem}
    (e₁ e₂ : Nat) : leDecode short cpu x src len pos pEnd aOut cap o e₁ m = leDecode short cpu x src len pos pEnd aOut cap o e₂ m := by
  unfold leDecode
  rw [if_neg h0, if_neg h0]

theorem leDecode_empty {short : Bool} {cpu : Cpu} {x : LeDInfo} (h0 : rleCount x.rle ≠ 0) {src : Mem} {len pos pEnd aOut cap o e : Nat} {m : Mem}
    (h : pEnd ≤ pos) : leDecode short cpu x src len pos pEnd aOut cap o e m = some (some m) := by
  have f : ∀ (w : Nat) (find : Nat → Option Nat) (fill : Mem → Nat → Nat → Byte → Option Mem),
      loop (leFast w find x.toCount fill src len pEnd cap) (len + 2) ⟨pos, o, m⟩ = some (some ⟨pos, o, m⟩) := by
    intro w find fill
    rw [loop, leFast, if_neg (by show ¬pos + 256 < pEnd; omega)]
  have t : loop (leTail x src len pEnd aOut cap) (len + 2) ⟨pos, o, m⟩ = some (some ⟨pos, o, m⟩) := by
    rw [loop, leTail, if_neg (by show ¬pos < pEnd; omega)]
  unfold leDecode
  rw [if_neg h0]
  dsimp only
  rw [f]
  dsimp only
  rw [t]

theorem leRef_ones {rle : Byte → Bool} {cnt : Byte → Nat} {mx : Nat} (h : rle 1 = false) : ∀ n, leRef rle cnt mx (List.replicate n 1) = some (List.replicate n 1)
  | 0 => rfl
  | n + 1 => by rw [List.replicate_succ, leRef_lit h, leRef_ones h n]; rfl

/-- An rle8m stream with `2 j + 1` sections. Every other section is the whole of the `N` bytes at its end, the ones between end where they would have to
begin. -/
def quadratic (j N : Nat) : List Byte :=
  le32 (46 + 8 * j + N) ++ (le32 1 ++ (le32 (2 * j + 1) ++ ((List.replicate j (le32 (46 + 8 * j + N) ++ le32 (46 + 8 * j))).flatten ++
    (([1] ++ List.replicate 31 0 ++ [1, 0]) ++ List.replicate N 1))))

theorem flatten_drop {B : List Byte} (hB : B.length = 8) : ∀ (t j : Nat), t ≤ j → (List.replicate j B).flatten.drop (8 * t) = (List.replicate (j - t) B).flatten
  | 0, j, _ => rfl
  | t + 1, j + 1, h => by
    rw [List.replicate_succ, List.flatten_cons, show 8 * (t + 1) = B.length + 8 * t by omega, ← List.drop_drop, List.drop_left,
      flatten_drop hB t j (by omega), Nat.add_sub_add_right]

theorem flatten8_len {B : List Byte} (hB : B.length = 8) : ∀ j, (List.replicate j B).flatten.length = 8 * j
  | 0 => rfl
  | j + 1 => by rw [List.replicate_succ, List.flatten_cons, List.length_append, hB, flatten8_len hB j]; omega

theorem quadratic_len (j N : Nat) : (quadratic j N).length = 46 + 8 * j + N := by
  unfold quadratic
  simp only [List.length_append, flatten8_len (B := le32 (46 + 8 * j + N) ++ le32 (46 + 8 * j)) rfl, List.length_replicate]
  show 4 + (4 + (4 + (8 * j + (1 + 31 + 2 + N)))) = _
  omega

theorem quadratic_at {j N t : Nat} (hs : 46 + 8 * j + N < 4294967296) (ht : t < j) :
    u32At (quadratic j N) (12 + 4 * (2 * t)) = some (46 + 8 * j + N) ∧ u32At (quadratic j N) (12 + 4 * (2 * t + 1)) = some (46 + 8 * j) := by
  have key : ∃ r, (quadratic j N).drop (12 + 8 * t) = le32 (46 + 8 * j + N) ++ (le32 (46 + 8 * j) ++ r) := by
    obtain ⟨i, hi⟩ : ∃ i, j - t = i + 1 := ⟨j - t - 1, by omega⟩
    refine ⟨(List.replicate i (le32 (46 + 8 * j + N) ++ le32 (46 + 8 * j))).flatten ++ (([1] ++ List.replicate 31 0 ++ [1, 0]) ++ List.replicate N 1), ?_⟩
    unfold quadratic
    rw [show 12 + 8 * t = 4 + (4 + (4 + 8 * t)) by omega, ← List.drop_drop, ← List.drop_drop, ← List.drop_drop,
      show 4 = (le32 (46 + 8 * j + N)).length from rfl, List.drop_left, show (le32 (46 + 8 * j + N)).length = (le32 1).length from rfl, List.drop_left,
      show (le32 1).length = (le32 (2 * j + 1)).length from rfl, List.drop_left, List.drop_append_of_le_length
        (by rw [flatten8_len (by rfl)]; omega), flatten_drop (by rfl) t j (by omega), hi, List.replicate_succ, List.flatten_cons,
      List.append_assoc, List.append_assoc]
  obtain ⟨r, hr⟩ := key
  constructor
  · unfold u32At
    rw [show 12 + 4 * (2 * t) = 12 + 8 * t by omega, hr, rdU32_le32, Option.map_some, Nat.mod_eq_of_lt hs]
  · unfold u32At
    rw [show 12 + 4 * (2 * t + 1) = 12 + 8 * t + 4 by omega, ← List.drop_drop, hr,
      show 4 = (le32 (46 + 8 * j + N)).length from rfl, List.drop_left, rdU32_le32, Option.map_some, Nat.mod_eq_of_lt (by omega)]

/-- 0 is the only run symbol. -/
def only0 (b : Byte) : Bool := (([1] : List Byte) ++ List.replicate 31 0).getD (b.toNat / 8) 0 &&& (1 <<< b8 (b.toNat % 8)) != 0

/-- The info block of `quadratic`. -/
theorem quadratic_info (N : Nat) : ∃ x : LeDInfo, readInfo (([1] ++ List.replicate 31 0 ++ [1, 0]) ++ List.replicate N 1) = some (x, List.replicate N 1) ∧
    rleCount x.rle ≠ 0 ∧ x.rle 1 = false := by
  have h : ∃ x : LeDInfo, readInfo (([1] ++ List.replicate 31 0 ++ [1, 0]) ++ List.replicate N 1) = some (x, List.replicate N 1) ∧ x.rle = only0 :=
    ⟨_, rfl, rfl⟩
  obtain ⟨x, h1, h2⟩ := h
  exact ⟨x, h1, h2 ▸ (by decide +kernel), h2 ▸ (by decide +kernel)⟩

theorem quadratic_sections {cpu : Cpu} {j N aOut cap : Nat} (hs : 46 + 8 * j + N < 4294967296) (hcap : N ≤ cap) {x : LeDInfo}
    (h0 : rleCount x.rle ≠ 0) (h1 : x.rle 1 = false) : ∀ (c : Nat) (m : Mem), c ≤ j →
    (∃ m', mDecSections cpu x (quadratic j N) (46 + 8 * j + N) aOut cap 0 1 (2 * c) (2 * (j - c)) (46 + 8 * j) 0 m = some (some m')) ∧
      (c + 1) * N ≤ 33 * mSectionsWork cpu x (quadratic j N) (46 + 8 * j + N) aOut cap 0 1 (2 * c) (2 * (j - c)) (46 + 8 * j) 0 m := by
  have dec : ∀ (e : Nat) (m : Mem), ∃ m', leDecode false cpu x (fun k => (quadratic j N).getD k 0) (quadratic j N).length (46 + 8 * j)
      (46 + 8 * j + N) aOut cap 0 e m = some (some m') := by
    intro e m
    obtain ⟨m', h, _⟩ := leDecode_spec (short := false) (cpu := cpu) (x := x) (src := fun k => (quadratic j N).getD k 0) (len := (quadratic j N).length)
      (pos := 46 + 8 * j) (pEnd := 46 + 8 * j + N) (aOut := aOut) (cap := cap) (o := 0) (m := m) (d := List.replicate N 1) (t := List.replicate N 1) (mx := 255)
      (by
        rw [List.length_replicate]
        refine List.ext_getElem (by simp [rd]) fun i h1 h2 => ?_
        simp only [rd, List.getElem_map, List.getElem_range, List.getElem_replicate]
        rw [List.length_replicate] at h2
        unfold quadratic
        have hl := flatten8_len (B := le32 (46 + 8 * j + N) ++ le32 (46 + 8 * j)) rfl j
        rw [getD_append_right (by show 4 ≤ _; omega), getD_append_right (by show 4 ≤ _ - 4; omega), getD_append_right (by show 4 ≤ _ - 4 - 4; omega),
          getD_append_right (by show _ ≤ _ - 4 - 4 - 4; omega), getD_append_right (by show 34 ≤ _ - 4 - 4 - 4 - _; omega)]
        rw [List.getD_eq_getElem?_getD, List.getElem?_replicate, if_pos]
        · rfl
        · show 46 + 8 * j + i - 4 - 4 - 4 - _ - 34 < N
          omega)
      (by rw [List.length_replicate]) (by rw [quadratic_len]) (by rw [List.length_replicate]; omega) (leRef_ones h1 N) (Nat.le_refl _)
      (fun h => by cases h) ⟨1, h1⟩
    exact ⟨m', by rw [← h]; exact leDecode_expOut h0 _ _⟩
  intro c
  induction c with
  | zero =>
    intro m _
    obtain ⟨m', h⟩ := dec 1 m
    constructor
    · exact ⟨m', by rw [Nat.mul_zero, mDecSections]; exact h⟩
    · rw [Nat.mul_zero, mSectionsWork]
      have := leWork_ge h0 h
      omega
  | succ c ih =>
    intro m hc
    obtain ⟨a1, a2⟩ := quadratic_at (N := N) (t := j - (c + 1)) hs (by omega)
    obtain ⟨m1, d1⟩ := dec 0 m
    have w1 := leWork_ge h0 d1
    have d2 := leDecode_empty (short := false) (cpu := cpu) h0 (src := fun k => (quadratic j N).getD k 0) (len := (quadratic j N).length) (pos := 46 + 8 * j + N)
      (pEnd := 46 + 8 * j) (aOut := aOut) (cap := cap) (o := 0) (e := 0) (m := m1) (by omega)
    obtain ⟨⟨m', ih1⟩, ih2⟩ := ih m1 (by omega)
    have e1 : 2 * (c + 1) = 2 * c + 1 + 1 := by omega
    have e2 : 2 * (j - (c + 1)) + 1 + 1 = 2 * (j - c) := by omega
    constructor
    · refine ⟨m', ?_⟩
      rw [e1, mDecSections, a1]
      dsimp only
      rw [d1]
      dsimp only
      rw [mDecSections, a2]
      dsimp only
      rw [Nat.add_zero, d2]
      dsimp only
      rw [e2]
      exact ih1
    · rw [e1, mSectionsWork, a1]
      dsimp only
      rw [d1]
      dsimp only
      rw [mSectionsWork, a2]
      dsimp only
      simp only [Nat.add_zero]
      rw [d2]
      dsimp only
      rw [e2]
      have e3 : (c + 1 + 1) * N = (c + 1) * N + N := by rw [Nat.add_mul (c + 1), Nat.one_mul]
      rw [e3]
      omega

/-- C60 fails for rle8m: a stream of `46 + 8 j + N` bytes that is decoded without an error and without leaving the buffers, but `j + 1` times. With
`N = 8 j` and a stream of `s` bytes that is more than `s * s / 2112` rounds; all but the last byte of the output are written over and over. -/
theorem C60_rle8m_violated (cpu : Cpu) (j N : Nat) (hj : 0 < j) (hs : 46 + 8 * j + N < 4294967296) (aIn aOut : Nat) (m : Mem) :
    (quadratic j N).length = 46 + 8 * j + N ∧
    (∃ m', mDecompress cpu ⟨some (quadratic j N), 46 + 8 * j + N, some m, 1, N, aIn, aOut⟩ = .ok 1 m') ∧
    (j + 1) * N ≤ 33 * mWork cpu ⟨some (quadratic j N), 46 + 8 * j + N, some m, 1, N, aIn, aOut⟩ := by
  obtain ⟨x, hx, h0, h1⟩ := quadratic_info N
  obtain ⟨⟨m', hd⟩, hw⟩ := quadratic_sections (cpu := cpu) (aOut := aOut) hs (Nat.le_refl N) h0 h1 j m (Nat.le_refl j)
  have hl := quadratic_len j N
  have hf := flatten8_len (B := le32 (46 + 8 * j + N) ++ le32 (46 + 8 * j)) rfl j
  have r1 : rdU32 (quadratic j N) = some (46 + 8 * j + N, le32 1 ++ (le32 (2 * j + 1) ++
      ((List.replicate j (le32 (46 + 8 * j + N) ++ le32 (46 + 8 * j))).flatten ++ (([1] ++ List.replicate 31 0 ++ [1, 0]) ++ List.replicate N 1)))) := by
    unfold quadratic; rw [rdU32_le32, Nat.mod_eq_of_lt hs]
  have e1 : 1 / (2 * j + 1) = 0 := Nat.div_eq_of_lt (by omega)
  have e2 : (quadratic j N).length - (List.replicate N (1 : Byte)).length = 46 + 8 * j := by rw [hl, List.length_replicate]; omega
  rw [Nat.sub_self, Nat.mul_zero] at hd hw
  refine ⟨hl, ⟨m', ?_⟩, ?_⟩
  · unfold mDecompress
    dsimp only
    rw [if_neg (by omega), r1]
    dsimp only
    rw [rdU32_le32]
    dsimp only
    rw [if_neg (by omega), rdU32_le32]
    dsimp only
    rw [Nat.mod_eq_of_lt (show 2 * j + 1 < 4294967296 by omega), if_neg (by omega), if_neg (by rw [List.length_append, hf]; omega),
      show 4 * (2 * j + 1 - 1) = ((List.replicate j (le32 (46 + 8 * j + N) ++ le32 (46 + 8 * j))).flatten).length by rw [hf]; omega, List.drop_left, hx]
    dsimp only
    rw [e2, Nat.mod_eq_of_lt (show 1 < 4294967296 by omega), e1, Nat.zero_mul, show 2 * j + 1 - 1 = 2 * j by omega]
    rw [show 1 - 0 = 1 from rfl, hd]
  · unfold mWork
    dsimp only
    rw [if_neg (by omega), r1]
    dsimp only
    rw [rdU32_le32]
    dsimp only
    rw [if_neg (by omega), rdU32_le32]
    dsimp only
    rw [Nat.mod_eq_of_lt (show 2 * j + 1 < 4294967296 by omega), if_neg (by omega), if_neg (by rw [List.length_append, hf]; omega),
      show 4 * (2 * j + 1 - 1) = ((List.replicate j (le32 (46 + 8 * j + N) ++ le32 (46 + 8 * j))).flatten).length by rw [hf]; omega, List.drop_left, hx]
    dsimp only
    rw [e2, Nat.mod_eq_of_lt (show 1 < 4294967296 by omega), e1, Nat.zero_mul, show 2 * j + 1 - 1 = 2 * j by omega]
    exact hw

/-- So no constant factor up to 50000 makes the bound that the other decompressors keep hold for rle8m (a larger factor needs a stream beyond 4 GB). -/
theorem C60_rle8m_linear_violated (cpu : Cpu) (c : Nat) (hc : 0 < c) (hc' : c ≤ 50000) :
    ∃ a src, a.pIn = some src ∧ a.inSize = src.length ∧ a.outSize ≤ a.cap ∧ (∃ m', mDecompress cpu a = .ok 1 m') ∧
      c * (18 * src.length + a.cap + 20) < mWork cpu a := by
  obtain ⟨j, hj⟩ : ∃ j, j = 4719 * c := ⟨_, rfl⟩
  obtain ⟨h1, h2, h3⟩ := C60_rle8m_violated cpu j (8 * j) (by omega) (by omega) 0 0 (fun _ => 0)
  refine ⟨_, _, rfl, h1.symm, ?_, h2, ?_⟩
  · show 1 ≤ 8 * j; omega
  · generalize hW : mWork cpu _ = W at h3 ⊢
    show c * (18 * (quadratic j (8 * j)).length + 8 * j + 20) < W
    rw [h1]
    have e1 : c * (18 * (46 + 8 * j + 8 * j) + 8 * j + 20) ≤ c * (1144 * j) := Nat.mul_le_mul_left c (by omega)
    have e2 : c * (1144 * j) = 1144 * c * j := by rw [← Nat.mul_assoc, Nat.mul_comm c]
    have e3 : (j + 1) * (8 * j) = 37752 * c * j + 8 * j := by
      rw [Nat.add_mul, Nat.one_mul, hj, ← Nat.mul_assoc, show 4719 * c * 8 = 37752 * c by omega]
    have e4 : 37752 * c * j = 33 * (1144 * c * j) := by rw [← Nat.mul_assoc, ← Nat.mul_assoc]
    omega

/-! ### Examples -/

/-- The work is not nothing: a stream of 20 equal bytes. -/
example : (DName.r8 false).work noSimd ⟨some (twenty (.r8 false false) ++ List.replicate 64 0), 29, some fun _ => 0, 20, 148, 0, 0⟩ = 6 ∧
    DName.rsh.work noSimd ⟨some (twenty .rsh), (twenty .rsh).length, some fun _ => 3, 20, 200, 0, 0⟩ = 22 ∧
    (DName.le false).work noSimd ⟨some leLong, leLong.length, some fun _ => 0, 1000, 1128, 0, 0⟩ = 8 := by decide +kernel

end Hrk
