import Verif.ApiProps

/-
Header parsers put together from small readers. A parser that is local (does not
look behind what it consumes) stays local under sequencing and branching, so the
decoder properties that need locality come for free.
-/

namespace Hrk

/-- A reader: value and remaining source, or `none` when it would leave the source. -/
abbrev Parser (α : Type) := List Byte → Option (α × List Byte)

namespace Parser

/-- Read nothing. -/
def ret {α : Type} (x : α) : Parser α := fun src => some (x, src)

/-- Read with `p`, then with what `f` picks. -/
def andThen {α β : Type} (p : Parser α) (f : α → Parser β) : Parser β :=
  fun src => (p src).bind fun x => f x.1 x.2

@[simp] theorem ret_apply {α : Type} (x : α) (src : List Byte) : ret x src = some (x, src) := rfl

theorem andThen_eq {α β : Type} {p : Parser α} {f : α → Parser β} {src r : List Byte} {x : α}
    (h : p src = some (x, r)) : andThen p f src = f x r := by
  simp [andThen, h]

theorem andThen_some {α β : Type} {p : Parser α} {f : α → Parser β} {src r : List Byte} {y : β}
    (h : andThen p f src = some (y, r)) : ∃ x r', p src = some (x, r') ∧ f x r' = some (y, r) := by
  obtain ⟨⟨x, r'⟩, h1, h2⟩ := Option.bind_eq_some_iff.mp h
  exact ⟨x, r', h1, h2⟩

/-- `p` consumes at least `k` bytes and does not look behind them. -/
def Local {α : Type} (k : Nat) (p : Parser α) : Prop :=
  ∀ src x r, p src = some (x, r) → r.length + k ≤ src.length ∧ ∀ t, p (src ++ t) = some (x, r ++ t)

theorem Local.ret {α : Type} (x : α) : Local 0 (ret x) := by
  intro src y r h
  cases h
  exact ⟨by omega, fun _ => rfl⟩

theorem Local.andThen {α β : Type} {p : Parser α} {f : α → Parser β} {k l : Nat} (hp : Local k p)
    (hf : ∀ x, Local l (f x)) : Local (k + l) (andThen p f) := by
  intro src y r h
  obtain ⟨x, r', h1, h2⟩ := andThen_some h
  obtain ⟨g1, g2⟩ := hp _ _ _ h1
  obtain ⟨g3, g4⟩ := hf x _ _ _ h2
  exact ⟨by omega, fun t => by rw [andThen_eq (g2 t), g4 t]⟩

theorem Local.ite {α : Type} {p q : Parser α} {k : Nat} {c : Prop} [Decidable c] (hp : Local k p) (hq : Local k q) :
    Local k (if c then p else q) := by
  split <;> assumption

theorem Local.weaken {α : Type} {p : Parser α} {k l : Nat} (hp : Local k p) (h : l ≤ k) : Local l p := by
  intro src y r he
  obtain ⟨g1, g2⟩ := hp _ _ _ he
  exact ⟨by omega, g2⟩

theorem Local.u8 : Local 1 rdU8 := fun src x r h =>
  ⟨by have := (rdU8_app (t := []) h).2; omega, fun _ => (rdU8_app h).1⟩

theorem Local.u16 : Local 2 rdU16 := fun src x r h =>
  ⟨by have := (rdU16_app (t := []) h).2; omega, fun _ => (rdU16_app h).1⟩

theorem Local.u32 : Local 4 rdU32 := fun src x r h =>
  ⟨by have := (rdU32_app (t := []) h).2; omega, fun _ => (rdU32_app h).1⟩

theorem Local.take (k : Nat) : Local k (takeN k) := fun src x r h =>
  ⟨by have := (takeN_app (t := []) h).2; omega, fun _ => (takeN_app h).1⟩

/-- Turn the fields into a header: `mk` makes the decision, the rest of the source is
filled in. -/
def toHdr {σ α : Type} (p : σ → Parser α) (mk : α → List Byte → Option (Hdr σ)) : σ → List Byte → Option (Hdr σ) :=
  fun fs src => (p fs src).bind fun x => mk x.1 x.2

/-- The header decision only passes the rest of the source on. -/
structure MkLocal {σ α : Type} (mk : α → List Byte → Option (Hdr σ)) : Prop where
  app : ∀ x r h t, mk x r = some h → mk x (r ++ t) = some (h.app t)
  go : ∀ x r lit sym cnt fs' rest, mk x r = some (.go lit sym cnt fs' rest) → rest = r

theorem toHdr_local {σ α : Type} {p : σ → Parser α} {mk : α → List Byte → Option (Hdr σ)}
    (hp : ∀ fs, Local 1 (p fs)) (hm : MkLocal mk) : HdrLocal (toHdr p mk) where
  app := by
    intro fs src h t he
    obtain ⟨⟨x, r⟩, h1, h2⟩ := Option.bind_eq_some_iff.mp he
    obtain ⟨g1, g2⟩ := hp fs _ _ _ h1
    simp only [toHdr, g2 t, Option.bind_some]
    exact hm.app _ _ _ _ h2
  go := by
    intro fs src lit sym cnt fs' rest he
    obtain ⟨⟨x, r⟩, h1, h2⟩ := Option.bind_eq_some_iff.mp he
    obtain ⟨g1, g2⟩ := hp fs _ _ _ h1
    have := hm.go _ _ _ _ _ _ _ h2
    subst this
    omega

end Parser

theorem takeN_len {k : Nat} {src s r : List Byte} (h : takeN k src = some (s, r)) : s.length = k := by
  unfold takeN at h
  split at h
  · cases h; simp; omega
  · cases h

/-! ### Fields that grow from a tiny value to 16 or 32 bits -/

/-- Encoder: what goes into the `tiny` sized field of a value
(src/rleX_Xsl.h:193-205, src/rleX_Xsl_short.h:282-294). -/
def tinyOf (tiny x : Nat) : Nat := if x ≤ tiny then x else if x ≤ 0xFFFF then 1 else 0

/-- Encoder: the extension of a value that did not fit
(src/rleX_Xsl.h:224-250, src/rleX_Xsl_short.h:321-347). -/
def extOf (tiny x : Nat) : List Byte := if x = tinyOf tiny x then [] else if x ≤ 0xFFFF then le16 x else le32 x

/-- Decoder: the value behind a tiny field (src/rleX_Xsl.h:723-732, src/rleX_Xsl_short.h:1282-1291). -/
def rdTiny (v : Nat) : Parser Nat :=
  if v = 0 then rdU32 else if v = 1 then rdU16 else Parser.ret v

theorem rdTiny_ext {tiny x : Nat} (h1 : 2 ≤ x) (h2 : x < 4294967296) (tail : List Byte) :
    rdTiny (tinyOf tiny x) (extOf tiny x ++ tail) = some (x, tail) := by
  unfold rdTiny extOf tinyOf
  by_cases ha : x ≤ tiny
  · simp only [if_pos ha]
    rw [if_neg (by omega), if_neg (by omega), if_pos trivial]
    rfl
  · by_cases hb : x ≤ 65535
    · simp only [if_neg ha, if_pos hb]
      rw [if_neg (by omega), if_pos trivial, if_neg (by omega), rdU16_le16, Nat.mod_eq_of_lt (by omega)]
    · simp only [if_neg ha, if_neg hb]
      rw [if_pos trivial, if_neg (by omega), rdU32_le32, Nat.mod_eq_of_lt (by omega)]

theorem rdTiny_local (v : Nat) : Parser.Local 0 (rdTiny v) := by
  unfold rdTiny
  exact .ite (Parser.Local.u32.weaken (by omega)) (.ite (Parser.Local.u16.weaken (by omega)) (.ret _))

theorem tinyOf_le {tiny x : Nat} (h : 1 ≤ tiny) : tinyOf tiny x ≤ tiny := by
  unfold tinyOf
  split
  · assumption
  · split <;> omega

theorem extOf_length (tiny x : Nat) : (extOf tiny x).length ≤ 4 := by
  unfold extOf
  split
  · simp
  · split <;> simp

/-! ### The recently used symbols -/

/-- The symbols both sides keep, most recent first (`lastSymbols`, or `symbol` and
`other` in the decoders) (src/rleX_Xsl.h:96). -/
abbrev Lut := List (List Byte)

/-- Where the symbol is; the length of the list if nowhere (src/rleX_Xsl.h:116-120,
src/rleX_Xsl_short.h:158-167). -/
def Lut.find (l : Lut) (sym : List Byte) : Nat := l.idxOf sym

/-- Move the symbol found at `idx` to the front, or drop the last one for a new symbol
(src/rleX_Xsl.h:134-188, 594-685; src/rleX_Xsl_short.h:202-264, 1313-1383). -/
def Lut.use (l : Lut) (idx : Nat) (sym : List Byte) : Lut :=
  if idx = 0 then l else sym :: l.eraseIdx (min idx (l.length - 1))

/-- `N` symbols of `S` bytes. -/
def Lut.ok (N S : Nat) (l : Lut) : Prop := l.length = N ∧ ∀ s ∈ l, s.length = S

theorem Lut.find_le {N S : Nat} {l : Lut} (h : Lut.ok N S l) (sym : List Byte) : l.find sym ≤ N := by
  rw [← h.1]; exact List.idxOf_le_length

theorem Lut.find_get {l : Lut} {sym : List Byte} (h : l.find sym < l.length) : l.getD (l.find sym) [] = sym := by
  unfold Lut.find at *
  simp [List.getD, List.getElem?_eq_getElem h]

theorem Lut.use_ok {N S : Nat} {l : Lut} (h : Lut.ok N S l) {idx : Nat} {sym : List Byte} (hs : sym.length = S) :
    Lut.ok N S (l.use idx sym) ∨ l = [] := by
  unfold Lut.use
  by_cases hl : l = []
  · exact Or.inr hl
  left
  have := List.length_pos_iff.mpr hl
  split
  · exact h
  · refine ⟨?_, ?_⟩
    · rw [List.length_cons, List.length_eraseIdx, if_pos (by omega)]
      have := h.1; omega
    · intro s hm
      rcases List.mem_cons.mp hm with rfl | hm
      · exact hs
      · exact h.2 _ (List.mem_of_mem_eraseIdx hm)

end Hrk
