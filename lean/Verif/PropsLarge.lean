import Verif.PropsRle8
import Verif.Large

/-
C61: inputs above 2^30 bytes. `rle_compress_bounds` says 0 for them, but `compress` does not refuse them
(`C24_*_violated`), so a caller with a large enough buffer gets a stream. The codecs whose literal counts have 32 bits
decode it; those with 31 bits do not, from 2^31 bytes on.
-/

namespace Hrk

/-- C61 for the 16 to 64 bit codecs. Missing: the last 31 of all 32 bit sizes and, for the packed byte granular codecs, those
from 2^31 - 18 on, where the claim is false (`C61_multibyte_violated`). -/
theorem C61_multibyte_partial (c : XCfg) (hc : c.valid) (ce cd : Cpu) :
    RoundTripUpTo (if c.unb = true ∧ c.packed = true then 2147483630 else 4294967264) (c.compress ce) (c.decompress cd) := by
  refine (c.cdc_ok hc).roundTripUpTo c.upto ?_ ?_ ce cd
  · unfold XCfg.lim XCfg.b7
    cases c.unb <;> cases c.packed <;> simp
  · split <;> omega

/-- C61 for the 128 bit codecs. -/
theorem C61_rle128_partial (unb packed : Bool) (ce cd : Cpu) :
    RoundTripUpTo (if unb = true ∧ packed = true then 2147483630 else 4294967264)
      ((cdc128 unb packed).compress ce) ((cdc128 unb packed).decompress cd) := by
  refine (cdc128_ok unb packed).roundTripUpTo (cdc128_upto unb packed) ?_ ?_ ce cd
  · unfold XCfg.lim XCfg.b7 x128
    cases unb <;> cases packed <;> simp
  · split <;> omega

/-- C61 for the 8 bit codecs. -/
theorem C61_rle8_partial (c : R8Cfg) (ce cd : Cpu) :
    RoundTripUpTo (if c.packed = true ∧ c.single = false then 2147483630 else 4294967264) (c.compress ce)
      (R8Cfg.decompress c.packed cd) := by
  refine R8Cfg.upTo (c.cdc_ok.roundTripUpTo c.upto ?_ ?_ ce cd)
  · unfold R8Cfg.lim
    split <;> omega
  · split <;> omega

/-- C61 for the multi symbol codecs. -/
theorem C61_symlut_partial (c : SlCfg) (hc : c.valid) (ce cd : Cpu) :
    RoundTripUpTo 4294967264 (c.compress ce) (c.decompress cd) :=
  (c.cdc_ok hc).roundTripUpTo (c.upto hc) (by omega) (by omega) ce cd

/-- C61 for the short codecs. -/
theorem C61_short_partial (c : ShCfg) (hc : c.valid) (ce cd : Cpu) :
    RoundTripUpTo 4294967264 (c.compress ce) (c.decompress cd) :=
  (c.cdc_ok hc).roundTripUpTo (c.upto hc) (by omega) (by omega) ce cd

/-! ### 2^31 bytes -/

/-- Bytes in which no `S` bytes are repeated at once: `S` ones, `S` twos, and so on. -/
def stripes (S : Nat) : Mem := fun k => if (k / S) % 2 = 0 then 1 else 2

theorem stripes_ne_zero (S k : Nat) : stripes S k ≠ 0 := by
  unfold stripes
  split <;> decide

theorem stripes_ne {S : Nat} (hS : 0 < S) (k : Nat) : stripes S k ≠ stripes S (k + S) := by
  unfold stripes
  rw [Nat.add_div_right _ hS]
  generalize k / S = q
  by_cases h : q % 2 = 0
  · rw [if_pos h, if_neg (by omega)]; decide
  · rw [if_neg h, if_pos (by omega)]; decide

theorem stripes_run {S : Nat} (hS : 0 < S) {sym : List Byte} (hl : sym.length = S) {lits cnt : Nat}
    (h : rd (stripes S) lits cnt = runBytes sym cnt) : cnt ≤ S ∧ (0 < cnt → sym ≠ List.replicate S 0) := by
  have key : ∀ k, k < cnt → stripes S (lits + k) = sym.getD (k % S) 0 := by
    intro k hk
    have h1 := congrArg (fun l : List Byte => l.getD k 0) h
    simp only [rd_getD _ _ _ _ _ hk] at h1
    rw [h1]
    unfold runBytes
    rw [List.getD_eq_getElem?_getD, List.getElem?_map, List.getElem?_range hk, hl]
    rfl
  refine ⟨?_, ?_⟩
  · apply Nat.le_of_not_lt
    intro hc
    have h0 := key 0 (by omega)
    have h1 := key S hc
    rw [Nat.mod_self] at h1
    rw [Nat.zero_mod] at h0
    exact stripes_ne hS lits (by rw [h1, ← h0]; rfl)
  · intro hc he
    have h0 := key 0 hc
    rw [he, Nat.zero_mod] at h0
    refine stripes_ne_zero S (lits + 0) (h0.trans ?_)
    cases S with
    | zero => omega
    | succ S => simp [List.replicate_succ]

namespace XCfg

theorem emit_stripes (c : XCfg) (hp : c.packed = true) (hS : 0 < c.S) {sym : List Byte} (hl : sym.length = c.S)
    {cnt lits : Nat} (hr : rd (stripes c.S) lits cnt = runBytes sym cnt) : c.emit (List.replicate c.S 0) sym cnt lits = none := by
  obtain ⟨h1, h2⟩ := stripes_run hS hl hr
  have hs : 0 < c.short := by unfold short; split <;> omega
  unfold emit
  rw [if_neg ?_, if_neg ?_]
  · unfold long; omega
  · rw [if_pos hp]
    rintro ⟨_, ⟨h3, h4⟩ | h3⟩
    · exact h2 (by omega) h4
    · unfold medium at h3; omega

theorem endLit_wraps (c : XCfg) (h7 : c.b7 = true) (last tail : List Byte) {T : Nat} (h1 : 2147483648 ≤ T)
    (h2 : T ≤ 2147483648 + 16) : ∃ sym fs', c.hdr last (c.endLit T ++ tail) = some (.go (T - 2147483648) sym none fs' tail) := by
  obtain ⟨sym, h⟩ := c.hdr_endSym last (le32 ((T + 1) <<< 1 ||| 1) ++ tail)
  unfold endLit
  rw [if_pos h7, List.append_assoc, h]
  unfold hdrTail
  simp only [h7, if_true, rdU8_le32, shl1or, Option.bind_some, rdU32_le32, offLong]
  rw [if_pos (by rw [and1]; omega)]
  simp only [shr1]
  rw [if_neg (by omega)]
  rw [show (2 * (T + 1) + 1) % 4294967296 / 2 - 1 = T - 2147483648 by omega]
  exact ⟨sym, last, rfl⟩

end XCfg

/-- C61 is false for the packed byte granular 16 to 64 bit codecs: 2^31 bytes are compressed without complaint, and
decompression returns 2^31 but writes nothing behind the first 128 bytes. -/
theorem C61_multibyte_violated (c : XCfg) (hc : c.valid) (h7 : c.unb = true ∧ c.packed = true) (ce cd : Cpu) :
    ∃ (inp : Mem) (out : List Byte), c.compress ce (some inp) 2147483648 true 4000000000 = .ok out.length out ∧
      ∀ (slack : List Byte) (m : Mem) (a : DArgs), 64 ≤ slack.length →
        a.pIn = some (out ++ slack) → out.length ≤ a.inSize → a.pOut = some m →
        2147483648 ≤ a.outSize → 2147483648 + addSize ≤ a.cap →
        ∃ m', c.decompress cd a = .ok 2147483648 m' ∧ ∀ k, 128 ≤ k → m' k = m k := by
  have hS := c.valid_S hc
  refine ⟨stripes c.S, (c.cdc_ok hc).wraps ce cd _ ?_ (fun _ => by simp [XCfg.cdc]) ?_ ?_⟩
  · intro e he sym cnt lits bytes fs' hl hr
    simp only [XCfg.cdc, List.mem_cons, List.not_mem_nil, or_false] at he
    have := c.emit_stripes h7.2 hS.1 hl hr
    rcases he with rfl | rfl
    · rw [show c.cdc.first _ _ = List.replicate c.S 0 from rfl, this]; nofun
    · rw [show c.cdc.first _ _ = List.replicate c.S 0 from rfl, show c.fmt.emit = c.emit from rfl, this]; nofun
  · intro T
    have := c.end_length.2 T
    show (c.endLit T).length ≤ _
    omega
  · intro T tail h1 h2
    have : c.b7 = true := by unfold XCfg.b7; rw [h7.1, h7.2]; rfl
    exact c.endLit_wraps this _ _ h1 (by have : c.cdc.S = c.S := rfl; omega)

/-- C61 is false for the packed byte granular 128 bit codec. -/
theorem C61_rle128_violated (ce cd : Cpu) :
    ∃ (inp : Mem) (out : List Byte), (cdc128 true true).compress ce (some inp) 2147483648 true 4000000000 = .ok out.length out ∧
      ∀ (slack : List Byte) (m : Mem) (a : DArgs), 64 ≤ slack.length →
        a.pIn = some (out ++ slack) → out.length ≤ a.inSize → a.pOut = some m →
        2147483648 ≤ a.outSize → 2147483648 + addSize ≤ a.cap →
        ∃ m', (cdc128 true true).decompress cd a = .ok 2147483648 m' ∧ ∀ k, 128 ≤ k → m' k = m k := by
  refine ⟨stripes 16, (cdc128_ok true true).wraps ce cd _ ?_ (fun _ => by simp [cdc128]) ?_ ?_⟩
  · intro e he sym cnt lits bytes fs' hl hr
    simp only [cdc128, List.mem_cons, List.not_mem_nil, or_false] at he
    have := (x128 true true).emit_stripes rfl (by decide) hl hr
    rcases he with rfl | rfl
    · rw [show (cdc128 true true).first _ _ = List.replicate 16 0 from rfl]
      intro h
      rw [show (x128 true true).S = 16 from rfl] at this
      rw [this] at h
      cases h
    · rw [show (cdc128 true true).first _ _ = List.replicate 16 0 from rfl]
      intro h
      rw [show (x128 true true).S = 16 from rfl] at this
      rw [show (fmt128 true true).emit = (x128 true true).emit from rfl, this] at h
      cases h
  · intro T
    have := (x128 true true).end_length.2 T
    show ((x128 true true).endLit T).length ≤ _
    rw [show (x128 true true).S = 16 from rfl] at this
    omega
  · intro T tail h1 h2
    exact (x128 true true).endLit_wraps rfl _ _ h1 h2

/-- C61 is false for the packed 8 bit codec. -/
theorem C61_rle8_violated (ce cd : Cpu) :
    ∃ (inp : Mem) (out : List Byte), R8Cfg.compress ⟨false, true⟩ ce (some inp) 2147483648 true 4000000000 = .ok out.length out ∧
      ∀ (slack : List Byte) (m : Mem) (a : DArgs), 64 ≤ slack.length →
        a.pIn = some (out ++ slack) → out.length ≤ a.inSize → a.pOut = some m →
        2147483648 ≤ a.outSize → 2147483648 + addSize ≤ a.cap →
        ∃ m', R8Cfg.decompress true cd a = .ok 2147483648 m' ∧ ∀ k, 128 ≤ k → m' k = m k := by
  suffices hw : ∃ out : List Byte, R8Cfg.compress ⟨false, true⟩ ce (some (stripes 1)) 2147483648 true 4000000000 = .ok out.length out ∧
      ∀ (slack : List Byte) (m : Mem) (a : DArgs), 64 ≤ slack.length →
        a.pIn = some (out ++ slack) → out.length ≤ a.inSize → a.pOut = some m →
        2147483648 ≤ a.outSize → 2147483648 + addSize ≤ a.cap →
        ∃ m', (R8Cfg.cdc ⟨false, true⟩).decompress cd a = .ok 2147483648 m' ∧ ∀ k, 128 ≤ k → m' k = m k by
    obtain ⟨out, h1, h2⟩ := hw
    refine ⟨stripes 1, out, h1, fun slack m a a1 a2 a3 a4 a5 a6 => ?_⟩
    obtain ⟨m', g1, g2⟩ := h2 slack m a a1 a2 a3 a4 a5 a6
    exact ⟨m', R8Cfg.decompress_of_ok g1, g2⟩
  refine (R8Cfg.cdc_ok ⟨false, true⟩).wraps ce cd _ ?_ (fun _ => by simp [R8Cfg.cdc, R8Cfg.pre]) ?_ ?_
  · intro e he sym cnt lits bytes fs' hl hr
    obtain ⟨h1, h2⟩ := stripes_run (S := 1) (by omega) hl hr
    rw [show (R8Cfg.cdc ⟨false, true⟩).first _ _ = ⟨false, [0]⟩ from rfl]
    simp only [R8Cfg.cdc, List.mem_cons, List.not_mem_nil, or_false] at he
    rcases he with rfl | rfl | rfl | rfl
    · simp only [R8Cfg.emitT, R8Cfg.long]
      simp only [ne_eq, not_true_eq_false, if_false, Bool.false_eq_true, if_true]
      rw [if_neg (by omega)]
      nofun
    · simp only [R8Cfg.fmt, R8Cfg.emit, R8Cfg.long, R8Cfg.short, r8short]
      simp only [ne_eq, not_true_eq_false, if_false, Bool.false_eq_true, if_true]
      rw [if_neg (by omega)]
      nofun
    · simp only [R8Cfg.emitT, R8Cfg.long]
      simp only [ne_eq, not_true_eq_false, if_false, Bool.false_eq_true, if_true]
      rw [if_neg (by omega)]
      nofun
    · simp [R8Cfg.emitF]
  · intro T
    simp [R8Cfg.cdc, R8Cfg.fmt, R8Cfg.endLit]
  · intro T tail h1 h2
    have h2 : T ≤ 2147483648 + 1 := h2
    obtain ⟨X, hX⟩ : ∃ X, X = T - 2147483648 := ⟨_, rfl⟩
    rw [← hX]
    refine ⟨[0], ⟨false, [0]⟩, ?_⟩
    show R8Cfg.hdr true ⟨false, [0]⟩ (R8Cfg.endLit ⟨false, true⟩ T ++ tail) = _
    have : R8Cfg.fields true ⟨false, [0]⟩ (R8Cfg.endLit ⟨false, true⟩ T ++ tail) =
        some (⟨⟨false, [0]⟩, 0, some (X + 1)⟩, tail) := by
      have h3 : rdOff7 (le32 ((T + 1) <<< 1 ||| 1) ++ tail) = some (some (X + 1), tail) := by
        unfold rdOff7
        rw [XCfg.shl1or, XCfg.rdU8_le32, rdU32_le32]
        simp only [Option.bind_some, Option.map_some, XCfg.and1, XCfg.shr1]
        rw [if_pos (by omega), show (2 * (T + 1) + 1) % 4294967296 / 2 = X + 1 by omega, if_neg (by omega)]
      simp only [R8Cfg.fields, R8Cfg.endLit, Bool.false_eq_true, if_false, if_true, List.cons_append, List.append_assoc]
      rw [Parser.andThen_eq (rdU8_cons _ _)]
      rw [Parser.andThen_eq (x := 0) (r := le32 ((T + 1) <<< 1 ||| 1) ++ tail) (by
        rw [if_pos (by decide), rdU32_le32])]
      rw [Parser.andThen_eq (x := [0]) (r := le32 ((T + 1) <<< 1 ||| 1) ++ tail) (by
        rw [if_pos (by decide)]; rfl)]
      rw [Parser.andThen_eq h3]
      rfl
    rw [R8Cfg.hdr_of_fields this]
    simp [R8Cfg.toH]

/-! ### Instances -/

/-- A row of 1500000000 equal bytes is compressed to a stream that is decompressed to them: the hypotheses of
`C61_multibyte_partial` are met by an input above 2^30 bytes. -/
example (c : XCfg) (hc : c.valid) (ce cd : Cpu) (b : Byte) : ∃ out,
    c.compress ce (some fun _ => b) 1500000000 true 2000000000 = .ok out.length out ∧
      ∀ (slack : List Byte) (m : Mem) (a : DArgs), 64 ≤ slack.length → a.pIn = some (out ++ slack) →
        out.length ≤ a.inSize → a.pOut = some m → 1500000000 ≤ a.outSize → 1500000000 + addSize ≤ a.cap →
        ∃ m', c.decompress cd a = .ok 1500000000 m' ∧ ∀ k, k < 1500000000 → m' k = b := by
  obtain ⟨N, hN⟩ : ∃ N, N = 1500000000 := ⟨_, rfl⟩
  rw [← hN]
  obtain ⟨body, h1, h2⟩ := c.enc_size hc ce (fun _ => b) N
  have hb0 : bounds N = 0 := by unfold bounds; rw [if_pos (by omega)]
  have hS := c.valid_S hc
  have e : c.compress ce (some fun _ => b) N true 2000000000 =
      .ok (le32 N ++ le32 (8 + body.length) ++ body).length (le32 N ++ le32 (8 + body.length) ++ body) := by
    simp only [XCfg.compress, Cdc.compress, apiCompress, hb0, h1]
    rw [if_neg (by simp; omega), if_pos (by simp only [List.length_append, le32_length]; omega)]
    simp only [List.length_append, le32_length]
    congr 1
    omega
  refine ⟨_, e, ?_⟩
  intro slack m a hs h1 h2 h3 h4 h5
  obtain ⟨m', g1, g2, _⟩ := C61_multibyte_partial c hc ce cd _ N _ _ _ (by omega) (by split <;> omega) e slack m a hs h1 h2 h3 h4 h5
  exact ⟨m', g1, g2⟩

end Hrk
