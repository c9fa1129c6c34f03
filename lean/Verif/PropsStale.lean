import Verif.Overlay
import Verif.Table
import Verif.PropsSafe
import Verif.PropsShWords
import Verif.PropsMmWords

/-
C58: what a decompressor leaves in the output buffer, for arbitrary streams. `W` says which bytes it writes: byte `k` of the
buffer becomes `b` if `W k = some b`, and stays what it was if `W k = none`.
-/

namespace Hrk

/-- The names of the table are the configurations that exist. -/
def DName.good : DName → Bool
  | .x S u p => decide (XCfg.valid ⟨S, u, p⟩)
  | .sl N S u => decide (SlCfg.valid ⟨N, S, u⟩)
  | .sh N S u m => decide (ShCfg.valid ⟨N, S, u, m⟩)
  | _ => true

theorem table_good : ∀ row ∈ table, row.dec.good = true := by decide +kernel

/-- What a byte string stands for, for the codecs whose streams are sequences of records. -/
def DName.ref : DName → List Byte → Option (List Byte)
  | .r8 p => (R8Cfg.cdc ⟨false, p⟩).ref
  | .x S u p => (XCfg.cdc ⟨S, u, p⟩).ref
  | .sl N S u => (SlCfg.cdc ⟨N, S, u⟩).ref
  | .sh N S u m => (ShCfg.cdc ⟨N, S, u, m⟩).ref
  | .x128 u p => (cdc128 u p).ref
  | .rsh => fun _ => none
  | .mm => fun _ => none
  | .le _ => fun _ => none

/-! ### Lemmas -/

theorem wrL_ov (m : Mem) (t : List Byte) : wrL m 0 t = ov (fun k => if k < t.length then some (t.getD k 0) else none) m := by
  funext k
  unfold wrL ov
  dsimp only
  by_cases h : k < t.length
  · rw [if_pos (by omega), if_pos h]; rfl
  · rw [if_neg (by omega), if_neg h]; rfl

theorem shDecompress_lays (a : DArgs) (src : List Byte) (hpi : a.pIn = some src) (hin : a.inSize ≤ src.length) :
    CallLays fun m => shDecompress { a with pOut := some m } := by
  obtain ⟨pIn, inSize, pOut, outSize, cap, aIn, aOut⟩ := a
  dsimp only at hpi hin ⊢
  subst hpi
  obtain ⟨g1, g2⟩ := C25_sh_guards
  by_cases z1 : inSize = 0
  · exact Or.inl fun m => g1 _ (Or.inr (Or.inr (Or.inl z1)))
  by_cases z2 : outSize = 0
  · exact Or.inl fun m => g1 _ (Or.inr (Or.inr (Or.inr z2)))
  cases h1 : rdU32 src with
  | none =>
    refine Or.inr (Or.inl fun m => ?_)
    unfold shDecompress
    dsimp only
    rw [if_neg (by omega), h1]
  | some p =>
    obtain ⟨x, r⟩ := p
    cases h2 : rdU32 r with
    | none =>
      refine Or.inr (Or.inl fun m => ?_)
      unfold shDecompress
      dsimp only
      rw [if_neg (by omega), h1]
      dsimp only
      rw [h2]
    | some p =>
      obtain ⟨len, r'⟩ := p
      obtain ⟨e1, l1⟩ := le32_of_rdU32 h1
      obtain ⟨e2, l2⟩ := le32_of_rdU32 h2
      have hsrc : src = le32 x ++ le32 len ++ r' := by rw [e1, e2]; simp [List.append_assoc]
      by_cases z3 : outSize < x ∨ inSize < len
      · exact Or.inl fun m => g2 _ x len r' l1 l2 (congrArg some hsrc) z3
      have key := fun m => C27_sh_meaning src x len r' l1 l2 hsrc ⟨some src, inSize, some m, outSize, cap, aIn, aOut⟩ m rfl rfl
        (show 0 < inSize by omega) (show 0 < outSize by omega) (show len ≤ inSize by omega) (show x ≤ outSize by omega) (by omega)
      by_cases hs : ∃ t, ShSpells src len t ∧ t.length ≤ cap
      · obtain ⟨t, ht, hc⟩ := hs
        refine Or.inr (Or.inr (Or.inr ⟨x, fun k => if k < t.length then some (t.getD k 0) else none, fun m => ?_⟩))
        dsimp only
        rcases key m with ⟨t', h3, _, h4⟩ | ⟨h3, _⟩
        · rw [h4, C27_sh_unique src len t' t (by omega) h3 ht, wrL_ov]
        · exact absurd (h3 t ht) (by show ¬ cap < t.length; omega)
      · refine Or.inr (Or.inl fun m => ?_)
        rcases key m with ⟨t', h3, h5, h4⟩ | ⟨_, h3⟩
        · exact absurd ⟨t', h3, h5⟩ hs
        · exact h3

theorem mmDecompress_lays (a : DArgs) (src : List Byte) (hpi : a.pIn = some src) (hcap : a.outSize ≤ a.cap) :
    (∀ m, mmDecompress { a with pOut := some m } = .fail) ∨ (∀ m, mmDecompress { a with pOut := some m } = .ub) ∨
      ∃ t : List Byte, ∀ m, mmDecompress { a with pOut := some m } = .ok t.length (wrL m 0 t) := by
  obtain ⟨pIn, inSize, pOut, outSize, cap, aIn, aOut⟩ := a
  dsimp only at hpi hcap ⊢
  subst hpi
  obtain ⟨g1, g2⟩ := C25_mmtf128_guards
  by_cases z1 : inSize = 0
  · exact Or.inl fun m => g1 _ (Or.inr (Or.inr (Or.inl z1)))
  by_cases z2 : outSize = 0
  · exact Or.inl fun m => g1 _ (Or.inr (Or.inr (Or.inr z2)))
  cases h1 : rdU32 src with
  | none =>
    refine Or.inr (Or.inl fun m => ?_)
    unfold mmDecompress
    dsimp only
    rw [if_neg (by omega), h1]
  | some p =>
    obtain ⟨x, r⟩ := p
    cases h2 : rdU32 r with
    | none =>
      refine Or.inr (Or.inl fun m => ?_)
      unfold mmDecompress
      dsimp only
      rw [if_neg (by omega), h1]
      dsimp only
      rw [h2]
    | some p =>
      obtain ⟨len, r'⟩ := p
      obtain ⟨e1, l1⟩ := le32_of_rdU32 h1
      obtain ⟨e2, l2⟩ := le32_of_rdU32 h2
      have hsrc : src = le32 x ++ le32 len ++ r' := by rw [e1, e2]; simp [List.append_assoc]
      by_cases z3 : outSize < x ∨ inSize < len
      · exact Or.inl fun m => g2 _ x len r' l1 l2 (congrArg some hsrc) z3
      have key := fun m => C27_mmtf128_meaning src x len r' l1 l2 hsrc ⟨some src, inSize, some m, outSize, cap, aIn, aOut⟩ m rfl rfl
        (show 0 < inSize by omega) (show 0 < outSize by omega) (show len ≤ inSize by omega) (show x ≤ outSize by omega)
        (show x ≤ cap by omega)
      by_cases hs : ∃ t, MmSpells r' t ∧ t.length = x
      · obtain ⟨t, ht, hc⟩ := hs
        refine Or.inr (Or.inr ⟨t, fun m => ?_⟩)
        rcases key m with ⟨t', h3, h5, h4⟩ | ⟨h3, _⟩
        · rw [h4, C27_mmtf128_unique r' t' t h3 ht (by omega), hc]
        · exact absurd hc (h3 t ht)
      · refine Or.inr (Or.inl fun m => ?_)
        rcases key m with ⟨t', h3, h5, h4⟩ | ⟨_, h3⟩
        · exact absurd ⟨t', h3, h5⟩ hs
        · exact h3

theorem run_lays (f : DName) (cpu : Cpu) (a : DArgs) (src : List Byte) (hpi : a.pIn = some src) (hin : a.inSize ≤ src.length)
    (hcap : a.outSize ≤ a.cap) : CallLays fun m => f.run cpu { a with pOut := some m } := by
  cases f with
  | r8 p =>
    show CallLays fun m => R8Cfg.decompress p cpu { a with pOut := some m }
    unfold R8Cfg.decompress
    simp only [hpi]
    by_cases h : a.inSize ≠ 0 ∧ a.outSize ≠ 0 ∧ src.length < 9
    · refine Or.inr (Or.inl fun m => ?_)
      dsimp only
      rw [if_pos h]
    · have := apiDecompress_lays R8Cfg.start (R8Cfg.hdr p) (R8Cfg.decV cpu) a
      simp only [if_neg h]
      simpa only [hpi] using this
  | x S u p => exact apiDecompress_lays (XCfg.cdc ⟨S, u, p⟩).start ((XCfg.cdc ⟨S, u, p⟩).hdrV cpu) ((XCfg.cdc ⟨S, u, p⟩).decV cpu) a
  | sl N S u => exact apiDecompress_lays (SlCfg.cdc ⟨N, S, u⟩).start ((SlCfg.cdc ⟨N, S, u⟩).hdrV cpu) ((SlCfg.cdc ⟨N, S, u⟩).decV cpu) a
  | sh N S u m =>
    exact apiDecompress_lays (ShCfg.cdc ⟨N, S, u, m⟩).start ((ShCfg.cdc ⟨N, S, u, m⟩).hdrV cpu) ((ShCfg.cdc ⟨N, S, u, m⟩).decV cpu) a
  | x128 u p => exact apiDecompress_lays (cdc128 u p).start ((cdc128 u p).hdrV cpu) ((cdc128 u p).decV cpu) a
  | rsh => exact shDecompress_lays a src hpi hin
  | mm =>
    rcases mmDecompress_lays a src hpi hcap with h | h | ⟨t, h⟩
    · exact Or.inl h
    · exact Or.inr (Or.inl h)
    · exact Or.inr (Or.inr (Or.inr ⟨_, _, fun m => (h m).trans (by rw [wrL_ov])⟩))
  | le short => exact leDecompress_lays short cpu a

theorem run_returns {f : DName} (hf : f.good = true) (cpu : Cpu) (a : DArgs) : f.run cpu a ≠ .hang := by
  cases f with
  | r8 p => exact (C36_rle8_terminates ⟨false, p⟩ cpu cpu).2 a
  | x S u p => exact (C36_multibyte_terminates ⟨S, u, p⟩ (of_decide_eq_true hf) cpu cpu).2 a
  | sl N S u => exact (C36_symlut_terminates ⟨N, S, u⟩ (of_decide_eq_true hf) cpu cpu).2 a
  | sh N S u m => exact (C36_short_terminates ⟨N, S, u, m⟩ (of_decide_eq_true hf) cpu cpu).2 a
  | x128 u p => exact (C36_rle128_terminates u p cpu cpu).2 a
  | rsh => exact (C36_sh_terminates fun _ => 0).2 a
  | mm => exact (C36_mmtf128_terminates (fun _ => 0) fun _ => 0).2 a
  | le short => exact (C36_low_entropy_terminates ⟨short, false⟩ cpu).2 a

theorem complete_of_good {f : DName} (hf : f.good = true) : PortableComplete f.ref f.run := by
  cases f with
  | r8 p => exact (C27_rle8_portable p).2
  | x S u p => exact (C27_multibyte_portable ⟨S, u, p⟩ (of_decide_eq_true hf)).2
  | sl N S u => exact (C27_symlut_portable ⟨N, S, u⟩ (of_decide_eq_true hf)).1
  | sh N S u m => exact (C27_short_portable ⟨N, S, u, m⟩ (of_decide_eq_true hf)).2
  | x128 u p => exact (C27_rle128_portable u p).2
  | rsh => intro _ _ h; cases h
  | mm => intro _ _ h; cases h
  | le short => intro _ _ h; cases h

/-! ### The property -/

/-- For every decompressor of the table and whatever bytes it is given: whether it fails, leaves its buffers or returns,
the size it returns and the bytes it writes do not depend on what the output buffer held before. -/
theorem C58_overlay (row : Row) (hrow : row ∈ table) (cpu : Cpu) (a : DArgs) (src : List Byte) (hpi : a.pIn = some src)
    (hin : a.inSize ≤ src.length) (hcap : a.outSize ≤ a.cap) :
    (∀ m, row.dec.run cpu { a with pOut := some m } = .fail) ∨ (∀ m, row.dec.run cpu { a with pOut := some m } = .ub) ∨
      ∃ (r : Nat) (W : Nat → Option Byte), ∀ m, ∃ m', row.dec.run cpu { a with pOut := some m } = .ok r m' ∧
        ∀ k, m' k = match W k with
          | some b => b
          | none => m k := by
  rcases run_lays row.dec cpu a src hpi hin hcap with h | h | h | ⟨r, W, h⟩
  · exact Or.inl h
  · exact Or.inr (Or.inl h)
  · exact absurd (h fun _ => 0) (run_returns (table_good row hrow) cpu _)
  · refine Or.inr (Or.inr ⟨r, W, fun m => ⟨_, h m, fun k => ?_⟩⟩)
    unfold ov
    cases W k <;> rfl

/-- The same for rle8m. -/
theorem C58_rle8m_overlay (cpu : Cpu) (a : DArgs) :
    (∀ m, mDecompress cpu { a with pOut := some m } = .fail) ∨ (∀ m, mDecompress cpu { a with pOut := some m } = .ub) ∨
      ∃ (r : Nat) (W : Nat → Option Byte), ∀ m, ∃ m', mDecompress cpu { a with pOut := some m } = .ok r m' ∧
        ∀ k, m' k = match W k with
          | some b => b
          | none => m k := by
  rcases mDecompress_lays cpu a with h | h | h | ⟨r, W, h⟩
  · exact Or.inl h
  · exact Or.inr (Or.inl h)
  · exact absurd (h fun _ => 0) ((C36_rle8m_terminates 1 cpu).2 _)
  · refine Or.inr (Or.inr ⟨r, W, fun m => ⟨_, h m, fun k => ?_⟩⟩)
    unfold ov
    cases W k <;> rfl

/-- rle8_mmtf128 writes exactly the bytes it returns the number of: nothing old is left among them, and nothing behind them
is touched. -/
theorem C58_mmtf128 (a : DArgs) (src : List Byte) (hpi : a.pIn = some src) (hcap : a.outSize ≤ a.cap) (m₁ m₂ m₁' m₂' : Mem) (r₁ r₂ : Nat)
    (h₁ : mmDecompress { a with pOut := some m₁ } = .ok r₁ m₁') (h₂ : mmDecompress { a with pOut := some m₂ } = .ok r₂ m₂') :
    r₁ = r₂ ∧ (∀ k < r₁, m₁' k = m₂' k) ∧ ∀ k ≥ r₁, m₁' k = m₁ k := by
  rcases mmDecompress_lays a src hpi hcap with h | h | ⟨t, h⟩
  · rw [h] at h₁; cases h₁
  · rw [h] at h₁; cases h₁
  · rw [h] at h₁ h₂
    cases h₁
    cases h₂
    refine ⟨rfl, fun k hk => ?_, fun k hk => ?_⟩
    · unfold wrL
      rw [if_pos (by omega), if_pos (by omega)]
    · unfold wrL
      rw [if_neg (by omega)]

/-- Missing: byte strings that stand for fewer bytes than their header says (`C58_stale_violated`). If the bytes `src` stand for
at least as many bytes as the header says, every call that has the room returns that size and the same bytes: on every processor,
whatever the buffer held, whatever follows the stream. For the codecs whose streams are sequences of records. -/
theorem C58_partial (row : Row) (hrow : row ∈ table) (src out : List Byte) (x y : Nat) (rest rest' : List Byte)
    (href : row.dec.ref src = some out) (hx : rdU32 src = some (x, rest)) (hy : rdU32 rest = some (y, rest')) (hlen : x ≤ out.length)
    (cpu₁ cpu₂ : Cpu) (slack₁ slack₂ : List Byte) (a₁ a₂ : DArgs) (m₁ m₂ : Mem) (hs₁ : 64 ≤ slack₁.length) (hs₂ : 64 ≤ slack₂.length)
    (hi₁ : a₁.pIn = some (src ++ slack₁)) (hi₂ : a₂.pIn = some (src ++ slack₂)) (ho₁ : a₁.pOut = some m₁) (ho₂ : a₂.pOut = some m₂)
    (hn₁ : 0 < a₁.inSize ∧ y ≤ a₁.inSize) (hn₂ : 0 < a₂.inSize ∧ y ≤ a₂.inSize) (hq₁ : 0 < a₁.outSize ∧ x ≤ a₁.outSize)
    (hq₂ : 0 < a₂.outSize ∧ x ≤ a₂.outSize) (hc₁ : out.length + addSize ≤ a₁.cap) (hc₂ : out.length + addSize ≤ a₂.cap) :
    ∃ m₁' m₂', row.dec.run cpu₁ a₁ = .ok x m₁' ∧ row.dec.run cpu₂ a₂ = .ok x m₂' ∧ ∀ k < x, m₁' k = m₂' k := by
  have H := complete_of_good (table_good row hrow) src out href x y rest hx ⟨rest', hy⟩
  obtain ⟨m₁', e₁, g₁, _⟩ := H cpu₁ slack₁ a₁ m₁ hs₁ hi₁ ho₁ hn₁.1 hq₁.1 hq₁.2 hn₁.2 hc₁
  obtain ⟨m₂', e₂, g₂, _⟩ := H cpu₂ slack₂ a₂ m₂ hs₂ hi₂ ho₂ hn₂.1 hq₂.1 hq₂.2 hn₂.2 hc₂
  exact ⟨m₁', m₂', e₁, e₂, fun k hk => (g₁ k (by omega)).trans (g₂ k (by omega)).symm⟩

/-- The same for the low entropy codecs. -/
theorem C58_low_entropy_partial (short : Bool) (src t : List Byte) (h : LeStands short src t) (cpu₁ cpu₂ : Cpu) (a₁ a₂ : DArgs) (m₁ m₂ : Mem)
    (hi₁ : a₁.pIn = some src) (hi₂ : a₂.pIn = some src) (ho₁ : a₁.pOut = some m₁) (ho₂ : a₂.pOut = some m₂)
    (hn₁ : ∀ y rest, rdU32 src = some (y, rest) → y ≤ a₁.inSize) (hn₂ : ∀ y rest, rdU32 src = some (y, rest) → y ≤ a₂.inSize)
    (hq₁ : t.length ≤ a₁.outSize) (hq₂ : t.length ≤ a₂.outSize) (hc₁ : t.length ≤ a₁.cap) (hc₂ : t.length ≤ a₂.cap) :
    ∃ m₁' m₂', leDecompress short cpu₁ a₁ = .ok t.length m₁' ∧ leDecompress short cpu₂ a₂ = .ok t.length m₂' ∧ ∀ k < t.length, m₁' k = m₂' k := by
  obtain ⟨m₁', e₁, g₁, _⟩ := C27_low_entropy_portable short cpu₁ src t h m₁ a₁ hi₁ hn₁ ho₁ hq₁ hc₁
  obtain ⟨m₂', e₂, g₂, _⟩ := C27_low_entropy_portable short cpu₂ src t h m₂ a₂ hi₂ hn₂ ho₂ hq₂ hc₂
  exact ⟨m₁', m₂', e₁, e₂, fun k hk => (g₁ k hk).trans (g₂ k hk).symm⟩

/-- rle8_sh, for every byte string: what it returns contains old bytes exactly if the string spells fewer bytes than its header
says. -/
theorem C58_sh (src : List Byte) (x len : Nat) (r : List Byte) (hx : x < 4294967296) (hlen : len < 4294967296)
    (hsrc : src = le32 x ++ le32 len ++ r) (a : DArgs) (hpi : a.pIn = some src) (h0 : 0 < a.inSize) (ho : 0 < a.outSize)
    (hin : len ≤ a.inSize) (hout : x ≤ a.outSize) (hread : len ≤ src.length) (t : List Byte) (ht : ShSpells src len t) (hc : t.length ≤ a.cap) :
    ∀ m, ∃ m', shDecompress { a with pOut := some m } = .ok x m' ∧ (∀ k < t.length, m' k = t.getD k 0) ∧ ∀ k ≥ t.length, m' k = m k := by
  intro m
  rcases C27_sh_meaning src x len r hx hlen hsrc { a with pOut := some m } m hpi rfl h0 ho hin hout hread with ⟨t', h1, _, h2⟩ | ⟨h1, _⟩
  · rw [C27_sh_unique src len t' t hread h1 ht] at h2
    refine ⟨_, h2, fun k hk => ?_, fun k hk => ?_⟩
    · unfold wrL
      rw [if_pos (by omega)]
      rfl
    · unfold wrL
      rw [if_neg (by omega)]
  · exact absurd (h1 t ht) (by show ¬ a.cap < t.length; omega)

/-! ### Where it does not hold -/

/-- The stream the compressor of the row writes for one byte, with 1000 in the place of the size. -/
def longHeader (f : CName) : List Byte :=
  match f.run noSimd vzero (fun _ => 0) (some fun _ => 7) 1 true 1000 with
  | .ok _ out => le32 1000 ++ out.drop 4
  | _ => []

/-- Such a stream stands for few bytes. -/
def short1000 (row : Row) : Bool :=
  match row.dec with
  | .rsh => true
  | .mm => true
  | .le _ => true
  | d => match d.ref (longHeader row.comp), rdU32 (longHeader row.comp) with
    | some out, some (x, rest) => decide (out.length ≤ 800) && x == 1000 && match rdU32 rest with
      | some (y, _) => decide (0 < y) && decide (y ≤ 300)
      | none => false
    | _, _ => false

theorem table_short : ∀ row ∈ table, short1000 row = true := by decide +kernel

/-- The size returned and byte 999 of the buffer. -/
def DRes.at999 : DRes → Option (Nat × Byte)
  | .ok r m => some (r, m 999)
  | _ => none

/-- Two calls tell whether byte 999 is written. -/
theorem stale_of_two {d : Mem → DRes} (h : CallLays d) (h0 : (d fun _ => 0).at999 = some (1000, 0)) (h1 : (d fun _ => 1).at999 = some (1000, 1))
    (m : Mem) : ∃ m', d m = .ok 1000 m' ∧ m' 999 = m 999 := by
  rcases h with h | h | h | ⟨r, W, h⟩
  · rw [h] at h0; cases h0
  · rw [h] at h0; cases h0
  · rw [h] at h0; cases h0
  · rw [h] at h0 h1
    simp only [DRes.at999, Option.some.injEq, Prod.mk.injEq] at h0 h1
    refine ⟨_, by rw [h, h0.1], ?_⟩
    have e0 := h0.2
    have e1 := h1.2
    unfold ov at e0 e1 ⊢
    cases hw : W 999 with
    | none => rfl
    | some b =>
      rw [hw] at e0 e1
      have e : (0 : Byte) = 1 := e0.symm.trans e1
      exact absurd e (by decide)

/-- A low entropy stream of six bytes whose header says 1000. -/
def leLong : List Byte := le32 47 ++ le32 1000 ++ ([0x80] ++ List.replicate 31 0 ++ [1, 7]) ++ [7, 0, 7, 1, 5]

/-- An rle8m stream of one section, of six bytes, whose header says 1000. -/
def mLong : List Byte := le32 51 ++ le32 1000 ++ le32 1 ++ ([0x80] ++ List.replicate 31 0 ++ [1, 7]) ++ [7, 0, 7, 1, 5]

theorem leLong_eval : ∀ short b1 b2 : Bool, ∀ b ∈ [(0 : Byte), 1],
    (leDecompress short ⟨false, false, false, b1, b2, false⟩ ⟨some leLong, leLong.length, some fun _ => b, 1000, 1128, 0, 0⟩).at999 = some (1000, b) := by
  decide +kernel

theorem mLong_eval : ∀ b1 b2 : Bool, ∀ b ∈ [(0 : Byte), 1],
    (mDecompress ⟨false, false, false, b1, b2, false⟩ ⟨some mLong, mLong.length, some fun _ => b, 1000, 1128, 0, 0⟩).at999 = some (1000, b) := by
  decide +kernel

theorem shLong_eval : ∀ b ∈ [(0 : Byte), 1],
    (shDecompress ⟨some (longHeader .rsh), (longHeader .rsh).length, some fun _ => b, 1000, 1128, 0, 0⟩).at999 = some (1000, b) := by
  decide +kernel

theorem leDecompress_cpu (short : Bool) (cpu : Cpu) :
    leDecompress short cpu = leDecompress short ⟨false, false, false, cpu.avx, cpu.avx2, false⟩ := rfl

theorem mDecSections_cpu (cpu : Cpu) (x : LeDInfo) (src : List Byte) (inSize aOut cap sz last : Nat) : ∀ cnt i pos o m,
    mDecSections cpu x src inSize aOut cap sz last cnt i pos o m =
      mDecSections ⟨false, false, false, cpu.avx, cpu.avx2, false⟩ x src inSize aOut cap sz last cnt i pos o m := by
  have hle : leDecode false cpu = leDecode false ⟨false, false, false, cpu.avx, cpu.avx2, false⟩ := rfl
  intro cnt
  induction cnt with
  | zero => intro i pos o m; unfold mDecSections; rw [hle]
  | succ cnt ih => intro i pos o m; unfold mDecSections; simp only [hle, ih]

theorem mDecompress_cpu (cpu : Cpu) : mDecompress cpu = mDecompress ⟨false, false, false, cpu.avx, cpu.avx2, false⟩ := by
  funext a
  unfold mDecompress
  simp only [mDecSections_cpu cpu]

/-- Every decompressor except rle8_mmtf128, on every processor: a stream whose header says 1000 bytes but whose records stand for a
few is accepted. The call returns 1000, and byte 999 of what it returns is what the buffer held before. -/
theorem C58_stale_violated (row : Row) (hrow : row ∈ table) (hmm : row.dec ≠ .mm) (cpu : Cpu) :
    ∃ (src : List Byte) (a : DArgs), a.pIn = some src ∧ a.inSize ≤ src.length ∧ a.outSize = 1000 ∧ a.outSize ≤ a.cap ∧
      ∀ m, ∃ m', row.dec.run cpu { a with pOut := some m } = .ok 1000 m' ∧ m' 999 = m 999 := by
  have hs := table_short row hrow
  have hg := complete_of_good (table_good row hrow)
  have gen : (match row.dec.ref (longHeader row.comp), rdU32 (longHeader row.comp) with
    | some out, some (x, rest) => decide (out.length ≤ 800) && x == 1000 && match rdU32 rest with
      | some (y, _) => decide (0 < y) && decide (y ≤ 300)
      | none => false
    | _, _ => false) = true → ∃ (src : List Byte) (a : DArgs), a.pIn = some src ∧ a.inSize ≤ src.length ∧ a.outSize = 1000 ∧
      a.outSize ≤ a.cap ∧ ∀ m, ∃ m', row.dec.run cpu { a with pOut := some m } = .ok 1000 m' ∧ m' 999 = m 999 := by
    intro h
    cases href : row.dec.ref (longHeader row.comp) with
    | none => rw [href] at h; cases h
    | some out =>
      cases hx : rdU32 (longHeader row.comp) with
      | none => rw [href, hx] at h; cases h
      | some p =>
        obtain ⟨x, rest⟩ := p
        cases hy : rdU32 rest with
        | none => rw [href, hx] at h; simp [hy] at h
        | some p =>
          obtain ⟨y, rest'⟩ := p
          rw [href, hx] at h
          simp only [hy, Bool.and_eq_true, decide_eq_true_eq, beq_iff_eq] at h
          obtain ⟨⟨h1, rfl⟩, h2, h3⟩ := h
          refine ⟨longHeader row.comp ++ List.replicate 364 0, ⟨some (longHeader row.comp ++ List.replicate 364 0), 300, none, 1000, 1128, 0, 0⟩,
            rfl, by simp only [List.length_append, List.length_replicate]; omega, rfl, (by show 1000 ≤ 1128; decide), fun m => ?_⟩
          obtain ⟨m', e1, _, e2⟩ := hg _ out href 1000 y rest hx ⟨rest', hy⟩ cpu (List.replicate 364 0)
            ⟨some (longHeader row.comp ++ List.replicate 364 0), 300, some m, 1000, 1128, 0, 0⟩ m (by rw [List.length_replicate]; decide) rfl rfl (by show 0 < 300; decide)
            (by show 0 < 1000; decide) (Nat.le_refl _) h3 (by show out.length + 128 ≤ 1128; omega)
          exact ⟨m', e1, e2 999 (by unfold addSize; omega)⟩
  unfold short1000 at hs
  cases hd : row.dec with
  | mm => exact absurd hd hmm
  | rsh =>
    refine ⟨longHeader .rsh, ⟨some (longHeader .rsh), (longHeader .rsh).length, none, 1000, 1128, 0, 0⟩, rfl, Nat.le_refl _, rfl, (by show 1000 ≤ 1128; decide), ?_⟩
    exact stale_of_two (shDecompress_lays ⟨some (longHeader .rsh), (longHeader .rsh).length, none, 1000, 1128, 0, 0⟩ (longHeader .rsh) rfl
      (Nat.le_refl _)) (shLong_eval 0 (by decide)) (shLong_eval 1 (by decide))
  | le short =>
    refine ⟨leLong, ⟨some leLong, leLong.length, none, 1000, 1128, 0, 0⟩, rfl, Nat.le_refl _, rfl, (by show 1000 ≤ 1128; decide), ?_⟩
    show ∀ m, ∃ m', leDecompress short cpu ⟨some leLong, leLong.length, some m, 1000, 1128, 0, 0⟩ = .ok 1000 m' ∧ m' 999 = m 999
    rw [leDecompress_cpu]
    exact stale_of_two (leDecompress_lays short ⟨false, false, false, cpu.avx, cpu.avx2, false⟩ ⟨some leLong, leLong.length, none, 1000, 1128, 0, 0⟩)
      (leLong_eval short cpu.avx cpu.avx2 0 (by decide)) (leLong_eval short cpu.avx cpu.avx2 1 (by decide))
  | r8 p => rw [hd] at hs gen; exact gen hs
  | x S u p => rw [hd] at hs gen; exact gen hs
  | sl N S u => rw [hd] at hs gen; exact gen hs
  | sh N S u m => rw [hd] at hs gen; exact gen hs
  | x128 u p => rw [hd] at hs gen; exact gen hs

/-- The same for rle8m. -/
theorem C58_rle8m_stale_violated (cpu : Cpu) : ∃ (src : List Byte) (a : DArgs), a.pIn = some src ∧ a.inSize ≤ src.length ∧ a.outSize = 1000 ∧
    a.outSize ≤ a.cap ∧ ∀ m, ∃ m', mDecompress cpu { a with pOut := some m } = .ok 1000 m' ∧ m' 999 = m 999 := by
  refine ⟨mLong, ⟨some mLong, mLong.length, none, 1000, 1128, 0, 0⟩, rfl, Nat.le_refl _, rfl, (by show 1000 ≤ 1128; decide), ?_⟩
  rw [mDecompress_cpu]
  exact stale_of_two (mDecompress_lays ⟨false, false, false, cpu.avx, cpu.avx2, false⟩ ⟨some mLong, mLong.length, none, 1000, 1128, 0, 0⟩)
    (mLong_eval cpu.avx cpu.avx2 0 (by decide)) (mLong_eval cpu.avx cpu.avx2 1 (by decide))

/-! ### The hypotheses can be met -/

/-- What the compressor writes for twenty equal bytes. -/
def twenty (f : CName) : List Byte :=
  match f.run noSimd vzero (fun _ => 0) (some fun _ => 7) 20 true 1000 with
  | .ok _ out => out
  | _ => []

/-- `C58_partial`: the header says 20, or less, and the stream stands for 20 bytes. -/
example : (DName.r8 false).ref (twenty (.r8 false false)) = some (List.replicate 20 7) ∧
    (rdU32 (twenty (.r8 false false))).map (·.1) = some 20 ∧
    (DName.r8 false).ref (le32 5 ++ (twenty (.r8 false false)).drop 4) = some (List.replicate 20 7) := by decide +kernel

/-- `C58_mmtf128`: with two different buffers. -/
example : (∃ m', mmDecompress ⟨some (twenty .mm), (twenty .mm).length, some fun _ => 0, 20, 200, 0, 0⟩ = .ok 20 m') ∧
    ∃ m', mmDecompress ⟨some (twenty .mm), (twenty .mm).length, some fun _ => 1, 20, 200, 0, 0⟩ = .ok 20 m' := by
  have h : ∀ b ∈ [(0 : Byte), 1], (match mmDecompress ⟨some (twenty .mm), (twenty .mm).length, some fun _ => b, 20, 200, 0, 0⟩ with
      | .ok r _ => r == 20
      | _ => false) = true := by decide +kernel
  have h0 := h 0 (by decide)
  have h1 := h 1 (by decide)
  constructor
  · revert h0
    cases mmDecompress ⟨some (twenty .mm), (twenty .mm).length, some fun _ => 0, 20, 200, 0, 0⟩ <;> simp
  · revert h1
    cases mmDecompress ⟨some (twenty .mm), (twenty .mm).length, some fun _ => 1, 20, 200, 0, 0⟩ <;> simp

/-- `C58_sh`: the two sizes of a stream of rle8_sh, and a buffer it returns in. -/
example : (shDecompress ⟨some (twenty .rsh), (twenty .rsh).length, some fun _ => 3, 20, 200, 0, 0⟩).at999 = some (20, 3) := by decide +kernel

/-- `C58_overlay`: the third case, with bytes that are written and bytes that are not. -/
example : ∀ b ∈ [(0 : Byte), 1], (match (DName.r8 false).run noSimd ⟨some (twenty (.r8 false false) ++ List.replicate 64 0), 29, some fun _ => b, 20, 148, 0, 0⟩ with
    | .ok r m' => r == 20 && m' 19 == 7 && m' 147 == b
    | _ => false) = true := by decide +kernel

end Hrk
