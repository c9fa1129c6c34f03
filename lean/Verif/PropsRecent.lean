import Verif.Recent
import Verif.PropsRle8

/-
C74: recently used symbols are not stored again.
-/

namespace Hrk

/-- C74, for one compressor that remembers `N` symbols and starts with those of `seen`: there is a function `hd`, the sizes of the headers,
at most `K`, such that every output is the two sizes, what the codec stores in front (`pre` bytes), records as in `Stored`, a terminator of at
most `E` bytes and the bytes behind the last run. The records and these bytes stand for the input and at most `S` bytes behind it. -/
def RemembersUpTo (N S K E pre : Nat) (seen : Mem → Nat → List (List Byte)) (comp : Compress) : Prop :=
  ∃ hd : Nat → Nat → Nat, (∀ cnt lits, hd cnt lits ≤ K) ∧
    ∀ inp n outSize ret out, comp (some inp) n true outSize = .ok ret out →
      ∃ T rs rest sizes front bs fin, out = sizes ++ front ++ bs ++ fin ++ rest ∧ sizes.length = 8 ∧ front.length = pre ∧ fin.length ≤ E ∧
        n ≤ T ∧ T ≤ n + S ∧ rd inp 0 T = rs.flatMap Rec.plain ++ rest ∧ Stored hd N (seen inp n) rs bs

theorem Cdc.OK.remembers {σ : Type} {c : Cdc σ} {P D : σ → Prop} (h : c.OK P D) {Q : σ → Prop} {tab : σ → List (List Byte)} {N K E pre : Nat}
    {hd : Nat → Nat → Nat} (hK : ∀ cnt lits, hd cnt lits ≤ K)
    (he : ∀ e ∈ c.F.emit :: c.extra, EmitTab e Q tab N c.S hd) (he2 : EmitTab c.emitEnd Q tab N c.S hd)
    (h0 : ∀ inp n, Q (c.first inp n)) (h1 : ∀ inp n, tab (c.first inp n) = firstDistinct N (tab (c.first inp n)))
    (h2 : ∀ inp n, (c.pre (c.first inp n)).length = pre) (hE : c.F.endRun.length ≤ E) (hE2 : ∀ k, (c.F.endLit k).length ≤ E)
    (cpu : Cpu) : RemembersUpTo N c.S K E pre (fun inp n => tab (c.first inp n)) (c.compress cpu) := by
  refine ⟨hd, hK, fun inp n outSize ret out hc => ?_⟩
  obtain ⟨_, b', g1, g2, _⟩ := apiCompress_len _ inp n outSize ret out hc
  obtain ⟨b, T, rs, rest, bs, k1, k2, k3, k4, k5, k6⟩ := h.recent he he2 cpu inp n (h0 inp n) (h1 inp n)
  have hb : b' = c.pre (c.first inp n) ++ b := Option.some.inj (g1.symm.trans k1)
  subst hb
  rcases k6 with ⟨rfl, rfl⟩ | rfl
  · exact ⟨T, rs, [], le32 n ++ le32 (8 + (c.pre (c.first inp n) ++ (bs ++ c.F.endRun)).length), c.pre (c.first inp n), bs, c.F.endRun,
      by rw [g2]; simp only [List.append_assoc, List.append_nil], rfl,
      h2 inp n, hE, k2, k3, k4, k5⟩
  · exact ⟨T, rs, rest, le32 n ++ le32 (8 + (c.pre (c.first inp n) ++ (bs ++ c.F.endLit rest.length ++ rest)).length), c.pre (c.first inp n), bs,
      c.F.endLit rest.length, by rw [g2]; simp only [List.append_assoc], rfl,
      h2 inp n, hE2 _, k2, k3, k4, k5⟩

/-! ### One symbol or none -/

theorem mem_one {x y : List Byte} : x ∈ [y] ↔ x = y := List.mem_singleton

theorem firstDistinct_one (x : List Byte) (l : List (List Byte)) : firstDistinct 1 (x :: l) = [x] := rfl

namespace XCfg

/-- Size of a header without the symbol. -/
def headLen (c : XCfg) (cnt lits : Nat) : Nat :=
  (if c.stored cnt ≤ (if c.packed then 127 else 255) then 1 else 5) + (if lits + 1 ≤ c.maxR then 1 else if c.b7 then 4 else 5)

theorem headLen_le (c : XCfg) (cnt lits : Nat) : c.headLen cnt lits ≤ 10 := by
  unfold headLen
  repeat' split
  all_goals omega

theorem cntBytes_split (c : XCfg) (last sym : List Byte) (cnt : Nat) (tl : List Byte) :
    ∃ h₁ h₂, c.cntBytes last sym cnt ++ tl =
        h₁ ++ (if sym ∈ (if c.packed then [last] else []) then [] else sym) ++ h₂ ∧
      h₁.length + h₂.length = (if c.stored cnt ≤ (if c.packed then 127 else 255) then 1 else 5) + tl.length := by
  unfold cntBytes
  cases hp : c.packed
  · simp only [Bool.false_eq_true, if_false, List.not_mem_nil]
    by_cases hs : c.stored cnt ≤ 255
    · simp only [hs, if_true]
      exact ⟨[], _, by rw [List.nil_append, List.append_assoc], by simp; omega⟩
    · simp only [hs, if_false]
      exact ⟨[], _, by rw [List.nil_append, List.append_assoc], by simp; omega⟩
  · simp only [if_true, mem_one]
    by_cases hs : c.stored cnt ≤ 127
    · simp only [hs, if_true]
      exact ⟨_, tl, rfl, by simp⟩
    · simp only [hs, if_false]
      exact ⟨_, tl, rfl, by simp⟩

theorem emit_tab (c : XCfg) : EmitTab c.emit (fun _ => True) (fun last => if c.packed then [last] else []) (if c.packed then 1 else 0) c.S
    c.headLen := by
  intro last sym cnt lits bytes fs' _ _ he
  unfold emit at he
  have htab : ∀ fs', fs' = (if c.packed then sym else last) → (if c.packed then [fs'] else []) =
      firstDistinct (if c.packed then 1 else 0) (sym :: if c.packed then [last] else []) := by
    rintro _ rfl
    cases c.packed <;> rfl
  by_cases hcond : lits + 1 ≤ c.maxR ∧ (if c.packed then (cnt ≥ c.short ∧ sym = last) ∨ cnt ≥ c.medium else cnt ≥ c.short)
  · rw [if_pos hcond] at he
    cases he
    obtain ⟨h₁, h₂, e1, e2⟩ := c.cntBytes_split last sym cnt [if c.b7 then b8 ((lits + 1) <<< 1) else b8 (lits + 1)]
    exact ⟨trivial, htab _ rfl, h₁, h₂, e1, by rw [e2, headLen, if_pos hcond.1]; rfl⟩
  · rw [if_neg hcond] at he
    by_cases hl : cnt ≥ c.long
    · rw [if_pos hl] at he
      cases he
      obtain ⟨h₁, h₂, e1, e2⟩ := c.cntBytes_split last sym cnt (if c.b7 then le32 ((lits + 1) <<< 1 ||| 1) else 0 :: le32 (lits + 1))
      refine ⟨trivial, htab _ rfl, h₁, h₂, e1, ?_⟩
      have hlit : ¬ lits + 1 ≤ c.maxR := by
        intro hle
        apply hcond
        refine ⟨hle, ?_⟩
        unfold long fc at hl
        unfold medium short
        cases c.packed <;> simp only [if_true, Bool.false_eq_true, if_false] at hl ⊢
        · split at hl <;> omega
        · right; split at hl <;> omega
      rw [e2, headLen, if_neg hlit]
      cases c.b7 <;> simp
    · rw [if_neg hl] at he
      cases he

end XCfg

/-- C74: the codecs of 16 to 64 bit symbols: the packed ones leave the symbol out if it is that of the run before, the others store it always. -/
theorem C74_multibyte (c : XCfg) (hc : c.valid) (cpu : Cpu) :
    RemembersUpTo (if c.packed then 1 else 0) c.S 10 (c.S + 10) 0 (fun _ _ => if c.packed then [List.replicate c.S 0] else [])
      (c.compress cpu) := by
  have hE : c.endSym.length ≤ c.S + 5 := by unfold XCfg.endSym; split <;> simp
  have := (c.cdc_ok hc).remembers (E := c.S + 10) (pre := 0) c.headLen_le (by
      intro e he
      simp only [XCfg.cdc, XCfg.fmt, List.mem_singleton] at he
      subst he
      exact c.emit_tab) c.emit_tab (fun _ _ => trivial) (fun _ _ => by cases c.packed <;> rfl) (fun _ _ => rfl)
    (by show c.endRun.length ≤ _; unfold XCfg.endRun; rw [List.length_append]; split <;> simp <;> omega)
    (by intro k; show (c.endLit k).length ≤ _; unfold XCfg.endLit; rw [List.length_append]; split <;> simp <;> omega) cpu
  exact this

/-- C74: the codecs of 128 bit symbols, likewise. -/
theorem C74_128 (unb packed : Bool) (cpu : Cpu) :
    RemembersUpTo (if packed then 1 else 0) 16 10 26 0 (fun _ _ => if packed then [List.replicate 16 0] else [])
      ((cdc128 unb packed).compress cpu) := by
  have hE : (x128 unb packed).endSym.length ≤ 16 + 5 := by unfold XCfg.endSym; split <;> simp [x128]
  have := (cdc128_ok unb packed).remembers (E := 26) (pre := 0) (x128 unb packed).headLen_le (by
      intro e he
      simp only [cdc128, fmt128, XCfg.fmt, List.mem_singleton] at he
      subst he
      exact (x128 unb packed).emit_tab) (x128 unb packed).emit_tab (fun _ _ => trivial) (fun _ _ => by cases packed <;> rfl) (fun _ _ => rfl)
    (by show ((x128 unb packed).endSym ++ 0 :: le32 0).length ≤ _; rw [List.length_append]; simp; omega)
    (by intro k; show ((x128 unb packed).endLit k).length ≤ _; unfold XCfg.endLit; rw [List.length_append]; split <;> simp <;> omega) cpu
  exact this

/-! ### Tables -/

/-- The extension of a value takes no, two or four bytes. -/
theorem extOf_len (tiny x : Nat) : (extOf tiny x).length ≤ 4 := by
  unfold extOf
  split
  · simp
  · split <;> simp

/-- Tables without repetitions. -/
def Lut.Good (N S : Nat) (l : Lut) : Prop := Lut.ok N S l ∧ l.Nodup

theorem Lut.Good.use {N S : Nat} {l : Lut} (h : Lut.Good N S l) (hN : 0 < N) {sym : List Byte} (hs : sym.length = S) :
    Lut.Good N S (l.use (l.find sym) sym) ∧ l.use (l.find sym) sym = firstDistinct N (sym :: l) := by
  have h1 : l.length = N := h.1.1
  have hu := Lut.use_recent h.2 (by omega) sym
  rw [h1] at hu
  refine ⟨⟨?_, hu ▸ firstDistinct_isNodup _ _⟩, hu⟩
  rcases Lut.use_ok h.1 (idx := l.find sym) hs with h' | h'
  · exact h'
  · subst h'; simp at h1; omega

theorem Lut.Good.find {N S : Nat} {l : Lut} (h : Lut.Good N S l) (sym : List Byte) : l.find sym = N ↔ sym ∉ l := by
  rw [← h.1.1]
  unfold Lut.find
  constructor
  · intro e hm
    have := List.idxOf_lt_length_of_mem hm
    omega
  · exact fun hm => List.idxOf_eq_length hm

theorem table_nodup (S : Nat) (hS : 0 < S) : (([0x00, 0x7F, 0xFF, 0x01, 0x7E, 0x80, 0xFE] : List Byte).map (List.replicate S)).Nodup := by
  obtain ⟨S, rfl⟩ : ∃ k, S = k + 1 := ⟨S - 1, by omega⟩
  simp [List.replicate_succ]

namespace SlCfg

/-- Size of a header without the symbol. -/
def headLen (c : SlCfg) (cnt lits : Nat) : Nat := 2 + ((extOf 127 (c.stored cnt)).length + (extOf c.tinyR (lits + 2)).length)

theorem emit_tab (c : SlCfg) (hc : c.valid) : EmitTab c.emit (Lut.Good c.N c.S) (fun l => l) c.N c.S c.headLen := by
  intro lut sym cnt lits bytes fs' hQ hs he
  have hN : 0 < c.N := by
    have := hc.1
    simp only [List.mem_cons, List.not_mem_nil, or_false] at this
    omega
  unfold emit at he
  dsimp only at he
  by_cases hw : cnt ≥ c.long ∨ cnt ≥ 3 + (pen c.tinyR (lits + 2) + pen 127 (c.stored cnt) + (if lut.find sym = c.N then 1 else 0))
  · rw [if_pos hw] at he
    cases he
    obtain ⟨u1, u2⟩ := hQ.use hN hs
    refine ⟨u1, u2, le16 (lut.find sym <<< (7 + c.RB) ||| tinyOf 127 (c.stored cnt) <<< c.RB ||| tinyOf c.tinyR (lits + 2)),
      extOf 127 (c.stored cnt) ++ extOf c.tinyR (lits + 2), ?_, ?_⟩
    · rw [List.append_assoc]
      congr 2
      by_cases hm : sym ∈ lut
      · rw [if_pos hm, if_neg (fun e => (hQ.find sym).mp e hm)]
      · rw [if_neg hm, if_pos ((hQ.find sym).mpr hm)]
    · rw [headLen, List.length_append]; rfl
  · rw [if_neg hw] at he
    cases he

theorem init_good (c : SlCfg) (hc : c.valid) : Lut.Good c.N c.S c.init := by
  have hS := (c.valid_S hc).1
  obtain ⟨h1, h2, h3⟩ := hc
  have hn := table_nodup c.S hS
  simp only [List.mem_cons, List.not_mem_nil, or_false] at h1
  unfold init Lut.Good Lut.ok
  rcases h1 with h1 | h1
  · rw [h1, if_pos rfl]
    refine ⟨⟨by simp, by simp⟩, ?_⟩
    have := hn.sublist (List.take_sublist 3 _)
    simpa using this
  · rw [h1, if_neg (by omega)]
    exact ⟨⟨by simp, by simp⟩, hn⟩

end SlCfg

theorem firstDistinct_good {N S : Nat} {l : Lut} (h : Lut.Good N S l) : l = firstDistinct N l := by
  rw [firstDistinct_nodup _ _ h.2, List.take_of_length_le (Nat.le_of_eq h.1.1)]

/-- C74: the codecs with a table of 3 or 7 symbols leave the symbol of a run out exactly if it is one of the last 3 or 7 different ones. -/
theorem C74_symlut (c : SlCfg) (hc : c.valid) (cpu : Cpu) :
    RemembersUpTo c.N c.S 10 8 0 (fun _ _ => c.init) (c.compress cpu) := by
  refine (c.cdc_ok hc).remembers (Q := Lut.Good c.N c.S) (tab := fun l => l) (hd := c.headLen) ?_ ?_ (c.emit_tab hc) (fun _ _ => c.init_good hc)
    (fun _ _ => firstDistinct_good (c.init_good hc)) (fun _ _ => rfl) ?_ ?_ cpu
  · intro cnt lits
    have h1 := extOf_len 127 (c.stored cnt)
    have h2 := extOf_len c.tinyR (lits + 2)
    unfold SlCfg.headLen
    omega
  · intro e he
    simp only [SlCfg.cdc, SlCfg.fmt, List.mem_singleton] at he
    subst he
    exact c.emit_tab hc
  · show c.endRun.length ≤ 8; simp [SlCfg.endRun]
  · intro k; show (c.endLit k).length ≤ 8; simp [SlCfg.endLit]

namespace ShCfg

/-- Size of a header without the symbol. -/
def headLen (c : ShCfg) (cnt lits : Nat) : Nat :=
  if c.packs (c.stored cnt) lits then 1 else 3 + ((extOf 511 (c.stored cnt)).length + (extOf c.tinyR (lits + 2)).length)

theorem pack_len (c : ShCfg) (idx cnt lits : Nat) : (c.pack idx (c.stored cnt) lits).length = c.headLen cnt lits := by
  unfold pack headLen
  split
  · rfl
  · simp only [List.length_append, List.length_cons, List.length_nil]; omega

theorem emit_tab (c : ShCfg) : EmitTab c.emit (Lut.Good c.tab c.S) (fun l => l) c.tab c.S c.headLen := by
  intro lut sym cnt lits bytes fs' hQ hs he
  obtain ⟨_, rfl, rfl, hm, _⟩ := c.emit_pos he
  have hlen : lut.length = c.tab := hQ.1.1
  rcases Nat.eq_zero_or_pos c.tab with h0 | h0
  · have hl : lut = [] := List.eq_nil_of_length_eq_zero (by omega)
    subst hl
    have hmode : c.mode ≠ .single := fun e => by rw [tab, if_pos e] at h0; omega
    have hN : c.N = 0 := by rw [tab, if_neg hmode] at h0; exact h0
    refine ⟨?_, ?_, c.pack (Lut.find [] sym) (c.stored cnt) lits, [], ?_, ?_⟩
    · simpa [Lut.use, Lut.find] using hQ
    · rw [h0]; simp [Lut.use, Lut.find, firstDistinct]
    · have : c.news (Lut.find [] sym) = true := by simp [news, Lut.find, hN, hmode]
      rw [this]; simp
    · rw [pack_len]; simp
  · obtain ⟨u1, u2⟩ := hQ.use h0 hs
    refine ⟨u1, u2, c.pack (lut.find sym) (c.stored cnt) lits, [], ?_, ?_⟩
    · rw [List.append_nil]
      congr 1
      by_cases hmode : c.mode = .single
      · rw [hm hmode]
        simp [news, hmode]
      · have ht : c.tab = c.N := by rw [tab, if_neg hmode]
        have hf := hQ.find sym
        rw [ht] at hf
        by_cases hm : sym ∈ lut
        · rw [if_pos hm]
          have : ¬ lut.find sym = c.N := fun e => hf.mp e hm
          simp [news, this]
        · rw [if_neg hm]
          simp [news, hf.mpr hm, hmode]
    · rw [pack_len]; simp

theorem first_good (c : ShCfg) (hc : c.valid) (inp : Mem) (n : Nat) : Lut.Good c.tab c.S (c.first inp n) := by
  refine ⟨(c.cdc_ok hc).first inp n, ?_⟩
  have hS := (c.valid_S hc).1
  have hn := table_nodup c.S hS
  unfold first
  split
  · simp
  · unfold init
    rw [if_neg (by assumption)]
    split
    · exact hn
    split
    · have := hn.sublist (List.take_sublist 3 _)
      simpa using this
    split
    · simp
    · simp

end ShCfg

/-- C74: the short codecs, greedy or not, leave the symbol of a run out exactly if it is one of the last 1, 3 or 7 different ones; without a
table they store it always, and the single codec never, but once in front of the first record. -/
theorem C74_short (c : ShCfg) (hc : c.valid) (cpu : Cpu) :
    RemembersUpTo c.tab c.S 11 (9 + c.S) (if c.mode = .single then 1 else 0)
      (fun inp n => if c.mode = .single then [[pick inp n]] else c.init) (c.compress cpu) := by
  refine (c.cdc_ok hc).remembers (Q := Lut.Good c.tab c.S) (tab := fun l => l) (hd := c.headLen) ?_ ?_ c.emit_tab (c.first_good hc)
    (fun inp n => firstDistinct_good (c.first_good hc inp n)) ?_ ?_ ?_ cpu
  · intro cnt lits
    have h1 := extOf_len 511 (c.stored cnt)
    have h2 := extOf_len c.tinyR (lits + 2)
    unfold ShCfg.headLen
    split <;> omega
  · intro e he
    simp only [ShCfg.cdc, ShCfg.fmt, List.mem_singleton] at he
    subst he
    exact c.emit_tab
  · intro inp n
    show (c.pre (c.first inp n)).length = _
    unfold ShCfg.pre ShCfg.first
    split <;> simp [*]
  · show c.endRun.length ≤ _
    have := (c.valid_S hc).1
    unfold ShCfg.endRun
    split <;> simp <;> omega
  · intro k
    show (c.endLit k).length ≤ _
    unfold ShCfg.endLit
    split <;> (simp; try omega)

/-! ### rle8 -/

namespace R8Cfg

/-- Size of a header without the symbol. -/
def headLen (c : R8Cfg) (cnt lits : Nat) : Nat := (if c.stored cnt ≤ 255 then 1 else 5) + (if lits + 1 ≤ 255 then 1 else 5)

theorem cnt8_len (x : Nat) : (cnt8 x).length = if x ≤ 255 then 1 else 5 := by unfold cnt8; split <;> simp

theorem off8_len (x : Nat) : (off8 x).length = if x + 1 ≤ 255 then 1 else 5 := by unfold off8; split <;> simp

/-- The symbols a codec knows: a single one that of the input, the others none. -/
def known (c : R8Cfg) (fs : R8St) : List (List Byte) := if c.single then [fs.sym] else []

theorem single_tab (c : R8Cfg) (h : c.single = true) {fs : R8St} {sym bytes : List Byte} {cnt lits : Nat} (hf : fs.sym = sym)
    (hl : bytes.length = c.headLen cnt lits) :
    c.known fs = firstDistinct (if c.single then 1 else 0) (sym :: c.known fs) ∧
      ∃ h₁ h₂, bytes = h₁ ++ (if sym ∈ c.known fs then [] else sym) ++ h₂ ∧ h₁.length + h₂.length = c.headLen cnt lits := by
  unfold known
  rw [h, hf]
  exact ⟨rfl, bytes, [], by simp, by simpa using hl⟩

theorem multi_tab (c : R8Cfg) (h : c.single = false) {fs : R8St} {sym : List Byte} {cnt lits : Nat} :
    c.known ⟨false, sym⟩ = firstDistinct (if c.single then 1 else 0) (sym :: c.known fs) ∧
      ∃ h₁ h₂, c.mRec sym cnt lits = h₁ ++ (if sym ∈ c.known fs then [] else sym) ++ h₂ ∧ h₁.length + h₂.length = c.headLen cnt lits := by
  unfold known
  rw [h]
  exact ⟨rfl, [], cnt8 (c.stored cnt) ++ off8 lits, by simp [mRec], by rw [List.length_append, cnt8_len, off8_len, headLen]; simp⟩

theorem sRec_len (c : R8Cfg) (cnt : Nat) {lits : Nat} (h : lits + 1 ≤ 255) : (c.sRec cnt lits).length = c.headLen cnt lits := by
  rw [sRec, List.length_append, cnt8_len, headLen, if_pos h]; rfl

theorem lRec_len (c : R8Cfg) (cnt : Nat) {lits : Nat} (h : ¬ lits + 1 ≤ 255) : (c.lRec cnt lits).length = c.headLen cnt lits := by
  rw [lRec, List.length_append, cnt8_len, headLen, if_neg h]; rfl

theorem short_le_long (c : R8Cfg) : c.short ≤ c.long := by
  unfold short long r8short
  cases c.packed <;> cases c.single <;> decide

theorem emit_tab (c : R8Cfg) (hc : c.packed = true → c.single = true) :
    EmitTab c.emit (fun _ => True) c.known (if c.single then 1 else 0) 1 c.headLen := by
  intro fs sym cnt lits bytes fs' _ _ he
  refine ⟨trivial, ?_⟩
  unfold emit at he
  by_cases h1 : fs.single ≠ c.single
  · rw [if_pos h1] at he; cases he
  rw [if_neg h1] at he
  by_cases h2 : c.single = true
  · rw [if_pos h2] at he
    by_cases h3 : fs.sym ≠ sym ∨ cnt < c.short
    · rw [if_pos h3] at he; cases he
    rw [if_neg h3] at he
    have h4 : fs.sym = sym := Decidable.not_not.mp fun e => h3 (Or.inl e)
    by_cases h5 : lits + 1 ≤ 255
    · rw [if_pos h5] at he
      cases he
      exact c.single_tab h2 h4 (c.sRec_len cnt h5)
    · rw [if_neg h5] at he
      by_cases h6 : cnt ≥ c.long ∨ (c.packed = true ∧ c.stored cnt ≤ 255 ∧ cnt ≥ 6)
      · rw [if_pos h6] at he
        cases he
        exact c.single_tab h2 h4 (c.lRec_len cnt h5)
      · rw [if_neg h6] at he; cases he
  · rw [if_neg h2, if_neg (fun e => h2 (hc e))] at he
    by_cases h3 : cnt ≥ c.short
    · rw [if_pos h3] at he
      cases he
      exact c.multi_tab (by simpa using h2)
    · rw [if_neg h3] at he; cases he

theorem emitT_tab (c : R8Cfg) (hc : c.packed = true → c.single = true) :
    EmitTab c.emitT (fun _ => True) c.known (if c.single then 1 else 0) 1 c.headLen := by
  intro fs sym cnt lits bytes fs' _ _ he
  refine ⟨trivial, ?_⟩
  unfold emitT at he
  by_cases h1 : fs.single ≠ c.single
  · rw [if_pos h1] at he; cases he
  rw [if_neg h1] at he
  by_cases h2 : c.single = true
  · rw [if_pos h2] at he
    by_cases h3 : fs.sym ≠ sym
    · rw [if_pos h3] at he; cases he
    rw [if_neg h3] at he
    have h4 : fs.sym = sym := Decidable.not_not.mp h3
    by_cases h5 : lits + 1 ≤ 255 ∧ cnt ≥ c.short
    · rw [if_pos h5] at he
      cases he
      exact c.single_tab h2 h4 (c.sRec_len cnt h5.1)
    · rw [if_neg h5] at he
      by_cases h6 : cnt ≥ c.long
      · rw [if_pos h6] at he
        cases he
        exact c.single_tab h2 h4 (c.lRec_len cnt fun e => h5 ⟨e, Nat.le_trans c.short_le_long h6⟩)
      · rw [if_neg h6] at he; cases he
  · rw [if_neg h2, if_neg (fun e => h2 (hc e))] at he
    by_cases h3 : cnt ≥ c.short
    · rw [if_pos h3] at he
      cases he
      exact c.multi_tab (by simpa using h2)
    · rw [if_neg h3] at he; cases he

theorem emitF_tab (c : R8Cfg) : EmitTab c.emitF (fun _ => True) c.known (if c.single then 1 else 0) 1 c.headLen := by
  intro fs sym cnt lits bytes fs' _ _ he
  refine ⟨trivial, ?_⟩
  unfold emitF at he
  by_cases h : c.single = true ∧ fs = ⟨true, sym⟩ ∧ c.short ≤ cnt ∧ c.stored cnt ≤ 255 ∧ 255 ≤ lits
  · rw [if_pos h] at he
    cases he
    refine c.single_tab h.1 (by rw [h.2.1]) ?_
    rw [force, headLen, if_pos h.2.2.2.1, if_neg (by omega)]
    rfl
  · rw [if_neg h] at he; cases he

end R8Cfg

/-- C74: rle8_multi stores the symbol of every run; rle8_single and rle8_packed_single never, but once in front of the first record, behind
the mode byte. -/
theorem C74_rle8_partial (c : R8Cfg) (hc : c.packed = true → c.single = true) (cpu : Cpu) :
    RemembersUpTo (if c.single then 1 else 0) 1 10 12 (if c.single then 2 else 1) (fun inp n => if c.single then [[pick inp n]] else [])
      (c.compress cpu) := by
  have := c.cdc_ok.remembers (E := 12) (K := 10) (pre := if c.single then 2 else 1) (hd := c.headLen)
    (by intro cnt lits; unfold R8Cfg.headLen; split <;> split <;> omega) (by
      intro e he
      simp only [R8Cfg.cdc, R8Cfg.fmt, List.mem_cons, List.not_mem_nil, or_false] at he
      rcases he with rfl | rfl | rfl
      · exact c.emit_tab hc
      · exact c.emitT_tab hc
      · exact c.emitF_tab) (c.emitT_tab hc) (fun _ _ => trivial) (fun _ _ => by unfold R8Cfg.known; cases c.single <;> rfl)
    (fun inp n => by
      show (c.pre (c.first inp n)).length = _
      unfold R8Cfg.pre R8Cfg.first
      cases c.single <;> rfl)
    (by show c.endRun.length ≤ _; unfold R8Cfg.endRun; split <;> [skip; split] <;> simp)
    (by intro k; show (c.endLit k).length ≤ _; unfold R8Cfg.endLit; split <;> [skip; split] <;> simp) cpu
  have e : (fun inp n => c.known (c.cdc.first inp n)) = fun inp n => if c.single then [[pick inp n]] else [] := by
    funext inp n
    show c.known (c.first inp n) = _
    unfold R8Cfg.known R8Cfg.first
    cases c.single <;> rfl
  rw [e] at this
  exact this

/-- Sixteen bytes 5, one byte 9, sixteen bytes 5, one byte 9. -/
def twiceInp : Mem := fun i => if i % 17 = 16 then 9 else 5

/-- The stream that leaves out the second 5. -/
def twiceShort : List Byte := [34, 0, 0, 0, 25, 0, 0, 0, 0, 14, 5, 2, 142, 4, 9, 128, 0, 0, 0, 0, 5, 0, 0, 0, 9]

/-- Whether a call returned `n` and wrote these bytes. -/
def DRes.gave (r : DRes) (n : Nat) (inp : Mem) : Bool :=
  match r with
  | .ok ret m => ret == n && (List.range n).all fun k => m k == inp k
  | _ => false

theorem DRes.gave_spec {r : DRes} {n : Nat} {inp : Mem} (h : r.gave n inp = true) : ∃ m, r = .ok n m ∧ ∀ k, k < n → m k = inp k := by
  cases r with
  | ok ret m =>
    simp only [gave, Bool.and_eq_true, beq_iff_eq, List.all_eq_true, List.mem_range] at h
    exact ⟨m, by rw [h.1], h.2⟩
  | _ => cases h

/-- C74 fails for rle8_packed_multi, which has a bit in every header that says that the symbol is that of the run before: at the end of the
input it stores the symbol nevertheless. There are two runs of the byte 5 with one byte between them, and 5 is stored with both; the
stream without the second 5, and with the bit, is one byte shorter and is decompressed to the same bytes. -/
theorem C74_rle8_packed_multi_violated : ∃ inp n s t m', R8Cfg.compress ⟨false, true⟩ noSimd (some inp) n true 300 = .ok s.length s ∧
    t.length + 1 = s.length ∧ s.drop 9 = [14, 5, 2] ++ [14, 5, 4] ++ [9] ++ s.drop 16 ∧ t.drop 9 = [14, 5, 2] ++ [142, 4] ++ [9] ++ s.drop 16 ∧
    R8Cfg.decompress true noSimd ⟨some (t ++ List.replicate 64 0), t.length, some (fun _ => 0xCC), n, n + addSize, 0, 0⟩ = .ok n m' ∧
    (∀ k, k < n → m' k = inp k) ∧ rd inp 0 n = List.replicate 16 5 ++ [9] ++ List.replicate 16 5 ++ [9] := by
  obtain ⟨m', h1, h2⟩ := DRes.gave_spec (r := R8Cfg.decompress true noSimd
    ⟨some (twiceShort ++ List.replicate 64 0), twiceShort.length, some (fun _ => 0xCC), 34, 34 + addSize, 0, 0⟩) (n := 34) (inp := twiceInp)
    (by decide +kernel)
  exact ⟨twiceInp, 34, [34, 0, 0, 0, 26, 0, 0, 0, 0, 14, 5, 2, 14, 5, 4, 9, 128, 0, 0, 0, 0, 5, 0, 0, 0, 9], twiceShort, m', by decide +kernel,
    by decide, by decide, by decide, h1, h2, by decide +kernel⟩

/-! ### Concrete cases -/

/-- Two records of the symbol 5 and one of 9 for a codec that remembers one symbol: the second 5 is left out, the third is not. -/
example : Stored (fun _ _ => 2) 1 [[0]] [⟨[], [5], 16⟩, ⟨[1], [5], 16⟩, ⟨[], [9], 16⟩, ⟨[], [5], 16⟩]
    ([14, 5, 2] ++ ([142, 4] ++ [1]) ++ [14, 9, 2] ++ [14, 5, 2]) :=
  ⟨[14], [2], _, rfl, rfl, [142, 4], [], _, rfl, rfl, [14], [2], _, rfl, rfl, [14], [2], [], rfl, rfl, rfl⟩

/-- Five runs of 16 bytes: 5, 9, 5, 9, 5. -/
def turnsInp : Mem := fun i => if i / 16 % 2 = 0 then 5 else 9

/-- A codec that remembers one symbol stores all five. -/
example : XCfg.compress ⟨2, true, true⟩ noSimd (some turnsInp) 80 true 300 =
    .ok 37 ([80, 0, 0, 0, 37, 0, 0, 0] ++ [14, 5, 5, 2] ++ [14, 9, 9, 2] ++ [14, 5, 5, 2] ++ [14, 9, 9, 2] ++ [14, 5, 5, 2] ++ [128, 0, 0, 0, 0] ++
      [1, 0, 0, 0]) := by decide +kernel

/-- A codec that remembers three stores the first two. -/
example : SlCfg.compress ⟨3, 2, true⟩ noSimd (some turnsInp) 80 true 300 =
    .ok 28 ([80, 0, 0, 0, 28, 0, 0, 0] ++ [130, 199, 5, 5] ++ [130, 199, 9, 9] ++ [130, 71] ++ [130, 71] ++ [130, 71] ++ [129, 0, 0, 0, 0, 0]) := by decide +kernel

end Hrk
