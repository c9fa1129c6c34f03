import Verif.RleShApi
import Verif.PropsSafe

/-
What an rle8_sh stream means, apart from any decoder: it is a list of words; each word has bits, read from
the end of the stream, and bytes, read from its front. Then: a step of the decoder is a word, in both
directions.
-/

namespace Hrk

/-- The four ways to name a single byte (src/rle_sh.c:533-575). -/
inductive ShMark where
  | same
  | lit (x : Byte)
  | second
  | third

/-- The words of a stream (src/rle_sh.c:533-696). -/
inductive ShWord where
  | mark (k : ShMark)
  /-- `c + 14` times the run symbol. -/
  | run (c : Byte)
  /-- `c + 7` bytes as they are. -/
  | copy (c : Byte) (xs : List Byte)
  /-- `c + 7` bytes as they are, for larger `c`. -/
  | copyLong (c : Nat) (xs : List Byte)
  /-- `c + 14` times a new run symbol. -/
  | change (c : Nat) (x : Byte)
  /-- `c + 161` bytes in a slightly shorter code. -/
  | block (c : Byte) (ks : List ShMark)

/-- What the marks refer to: the run symbol, the two symbols that have a code of their own, and the symbol
named last. -/
structure ShCtx where
  run : Byte
  second : Byte
  third : Byte
  prev : Byte

/-- At the start of a stream (src/rle_sh.c:526-529). -/
def shCtx0 : ShCtx := ⟨0x7F, 0x80, 0x7E, 0x80⟩

def ShMark.byte (c : ShCtx) : ShMark → Byte
  | .same => c.run
  | .lit x => x
  | .second => c.second
  | .third => c.third

/-- A symbol that is spelled out twice in a row gets the code of the second symbol, and that one the code
of the third. -/
def ShMark.next (c : ShCtx) : ShMark → ShCtx
  | .same => c
  | .lit x => if x = c.prev then { c with second := x, third := c.second, prev := x } else { c with prev := x }
  | .second => { c with prev := c.second }
  | .third => { c with prev := c.third }

/-- Inside of a block the last code is one bit shorter. -/
def ShMark.bits (inBlock : Bool) : ShMark → List Bool
  | .same => [false]
  | .lit _ => [true, false]
  | .second => [true, true, false]
  | .third => if inBlock then [true, true, true] else [true, true, true, false]

def ShMark.data : ShMark → List Byte
  | .lit x => [x]
  | _ => []

def marksOut (c : ShCtx) : List ShMark → List Byte × ShCtx
  | [] => ([], c)
  | k :: ks => (k.byte c :: (marksOut (k.next c) ks).1, (marksOut (k.next c) ks).2)

/-- The numbers in a word fit its fields. -/
def ShWord.ok : ShWord → Prop
  | .copy c xs => xs.length = c.toNat + 7
  | .copyLong c xs => 0 < c ∧ c < 4294967296 ∧ xs.length = c + 7
  | .change c _ => c < 4294967296
  | .block c ks => ks.length = c.toNat + 161
  | _ => True

def ShWord.bits : ShWord → List Bool
  | .mark k => k.bits false
  | .run _ => [true, true, true, true, false]
  | .copy _ _ => [true, true, true, true, true, false, false]
  | .change _ _ => [true, true, true, true, true, false, true]
  | .copyLong _ _ => [true, true, true, true, true, true, false]
  | .block _ ks => [true, true, true, true, true, true, true] ++ ks.flatMap (ShMark.bits true)

def ShWord.data : ShWord → List Byte
  | .mark k => k.data
  | .run c => [c]
  | .copy c xs => c :: xs
  | .change c x => le32 c ++ [x]
  | .copyLong c xs => le32 c ++ xs
  | .block c ks => c :: ks.flatMap ShMark.data

/-- The bytes a word stands for, and the context behind it. A run that changes the run symbol counts modulo
2^32 (src/rle_sh.c:630). -/
def ShWord.out (c : ShCtx) : ShWord → List Byte × ShCtx
  | .mark k => ([k.byte c], k.next c)
  | .run n => (List.replicate (n.toNat + 14) c.run, c)
  | .copy _ xs => (xs, c)
  | .copyLong _ xs => (xs, c)
  | .change n x => (List.replicate ((n + 14) % 4294967296) x, { c with run := x })
  | .block _ ks => marksOut c ks

def wordsOut (c : ShCtx) : List ShWord → List Byte
  | [] => []
  | w :: ws => (w.out c).1 ++ wordsOut (w.out c).2 ws

/-- The code of the end; it is followed by four zero bytes in the byte stream (src/rle_sh.c:611-614). -/
def shEndBits : List Bool := [true, true, true, true, true, true, false]

/-- The bits of the first `len` bytes, the last byte first and in each byte the lowest bit first. -/
def bitsFromEnd (src : List Byte) (len : Nat) : List Bool :=
  (src.take len).reverse.flatMap fun b => (List.range 8).map fun i => b.toNat.testBit i

/-- `src` spells `t`: behind the two sizes the bytes of some words and of the end, and from byte `len` down
their bits, with more than 8 bits left over. -/
def ShSpells (src : List Byte) (len : Nat) (t : List Byte) : Prop :=
  ∃ ws : List ShWord, (∀ w ∈ ws, w.ok) ∧ wordsOut shCtx0 ws = t ∧
    (∃ rest, src.drop 8 = ws.flatMap ShWord.data ++ (le32 0 ++ rest)) ∧
    ∃ z, 8 < z.length ∧ bitsFromEnd src len = ws.flatMap ShWord.bits ++ (shEndBits ++ z)

/-! ### One step of the decoder -/

def ShDec.ctx (s : ShDec) : ShCtx := ⟨s.last, s.st.second, s.st.third, s.st.occ⟩

/-- From `s` to `s'` the bits `w` and the bytes `d` are read and `X` is written. -/
structure ShAdv (full : List Byte) (cap : Nat) (s s' : ShDec) (w : List Bool) (d X : List Byte) (c : ShCtx) : Prop where
  ok : HOk full s'.h
  bits : hbits full s.h = w ++ hbits full s'.h
  more : 8 < (hbits full s'.h).length
  src : s.src = d ++ s'.src
  ctx : s'.ctx = c
  room : s.o + X.length ≤ cap
  o : s'.o = s.o + X.length
  m : s'.m = wrL s.m s.o X

theorem ShAdv.trans {full : List Byte} {cap : Nat} {s s' s'' : ShDec} {w w' : List Bool} {d d' X X' : List Byte} {c c' : ShCtx}
    (h : ShAdv full cap s s' w d X c) (h' : ShAdv full cap s' s'' w' d' X' c') :
    ShAdv full cap s s'' (w ++ w') (d ++ d') (X ++ X') c' := by
  refine ⟨h'.ok, ?_, h'.more, ?_, h'.ctx, ?_, ?_, ?_⟩
  · rw [h.bits, h'.bits, List.append_assoc]
  · rw [h.src, h'.src, List.append_assoc]
  · have := h'.room
    rw [h.o] at this
    rw [List.length_append]
    omega
  · rw [h'.o, h.o, List.length_append, Nat.add_assoc]
  · rw [h'.m, h.m, h.o, wrL_append]

theorem consume_conv {full : List Byte} {h h' : ShHdr} (H : HOk full h) {k : Nat} (hk : k ≤ 7) (e : h.consume full k = some h') :
    HOk full h' ∧ hbits full h = (hbits full h).take k ++ hbits full h' ∧ 8 < (hbits full h').length := by
  have hl := hbits_length full h
  have h1 := H.lo
  have hsplit := (List.take_append_drop k (hbits full h)).symm
  by_cases hr : 8 < ((hbits full h).drop k).length
  · obtain ⟨h2, g1, g2, g3⟩ := consume_spec H hk hsplit (by rw [List.length_take]; omega) hr
    rw [e] at g1
    cases g1
    rw [g3]
    exact ⟨g2, hsplit, hr⟩
  · exfalso
    rw [List.length_drop, hl] at hr
    unfold ShHdr.consume at e
    rw [if_pos (by omega), if_pos (by omega)] at e
    cases e

theorem emit_conv {full : List Byte} {cap k : Nat} {s s' : ShDec} {l : List Byte} (H : HOk full s.h) (hk : k ≤ 7)
    (e : s.emit full cap k l = some s') :
    ShAdv full cap s s' ((hbits full s.h).take k) [] l s.ctx := by
  unfold ShDec.emit at e
  split at e
  · cases e
  · next h hc =>
    split at e
    · next hcap =>
      cases e
      obtain ⟨g1, g2, g3⟩ := consume_conv H hk hc
      exact ⟨g1, g2, g3, rfl, rfl, hcap, rfl, rfl⟩
    · cases e

/-- The bits the reader looks at are the next ones. -/
theorem take_hbits {full : List Byte} {h : ShHdr} (H : HOk full h) : ∀ {k : Nat}, k ≤ 8 →
    (hbits full h).take k = (List.range k).map h.v.testBit := by
  intro k hk
  have := H.lo
  rw [hbits, List.take_append_of_le_length (by rw [patBits_length]; omega)]
  apply List.ext_getElem
  · simp; omega
  · intro i h1 h2
    simp [patBits]

theorem emit_fwd {full : List Byte} {cap : Nat} {s : ShDec} (H : HOk full s.h) {k : Nat} (hk : k ≤ 7) {a rb : List Bool}
    (hb : hbits full s.h = a ++ rb) (ha : a.length = k) (hr : 8 < rb.length) {l : List Byte} (hc : s.o + l.length ≤ cap) :
    ∃ s', s.emit full cap k l = some s' ∧ hbits full s'.h = rb ∧ ShAdv full cap s s' a [] l s.ctx := by
  obtain ⟨h', e1, e2, e3⟩ := emit_spec H hk hb ha hr hc
  refine ⟨_, e1, e3, ⟨e2, ?_, ?_, rfl, rfl, hc, rfl, rfl⟩⟩
  · show _ = a ++ hbits full h'
    rw [e3, hb]
  · show 8 < (hbits full h').length
    rw [e3]; exact hr

theorem ctx_lit (s : ShDec) (x : Byte) :
    (⟨s.last, if x = s.st.occ then x else s.st.second, if x = s.st.occ then s.st.second else s.st.third, x⟩ : ShCtx) =
      (ShMark.lit x).next s.ctx := by
  unfold ShMark.next ShDec.ctx
  by_cases h : x = s.st.occ <;> simp [h]

theorem ShAdv.of {full : List Byte} {cap : Nat} {s t s' : ShDec} {w : List Bool} {d X : List Byte} {c c' : ShCtx}
    (h : ShAdv full cap t s' w [] X c') (hc : c' = c) (h1 : t.h = s.h) (h2 : s.src = d ++ t.src) (h3 : t.o = s.o)
    (h4 : t.m = s.m) : ShAdv full cap s s' w d X c := by
  obtain ⟨a1, a2, a3, a4, a5, a6, a7, a8⟩ := h
  rw [h1] at a2
  rw [h3] at a6 a7 a8
  rw [h4] at a8
  exact ⟨a1, a2, a3, by rw [h2, a4]; rfl, a5.trans hc, a6, a7, a8⟩

theorem ShAdv.rest {full : List Byte} {cap : Nat} {s s' : ShDec} {w rb : List Bool} {d X r : List Byte} {c : ShCtx}
    (h : ShAdv full cap s s' w d X c) (hb : hbits full s.h = w ++ rb) (hs : s.src = d ++ r) :
    hbits full s'.h = rb ∧ s'.src = r :=
  ⟨List.append_cancel_left (h.bits.symm.trans hb), List.append_cancel_left (h.src.symm.trans hs)⟩

theorem lit_conv {full : List Byte} {cap : Nat} {s s' : ShDec} (H : HOk full s.h) (e : s.lit full cap = some s') :
    ∃ x, ShAdv full cap s s' ((hbits full s.h).take 2) [x] [x] ((ShMark.lit x).next s.ctx) := by
  unfold ShDec.lit at e
  split at e
  · cases e
  · next x r hs =>
    have := emit_conv (s := { s with src := r, st :=
      { second := if x = s.st.occ then x else s.st.second, third := if x = s.st.occ then s.st.second else s.st.third
        occ := x } }) H (by decide) e
    exact ⟨x, this.of (ctx_lit s x) rfl (by rw [hs]; rfl) rfl rfl⟩

theorem one_conv {full : List Byte} {cap : Nat} {s s' : ShDec} (H : HOk full s.h) (e : s.one full cap = some s') :
    ∃ k : ShMark, ShAdv full cap s s' (k.bits true) k.data [k.byte s.ctx] (k.next s.ctx) := by
  unfold ShDec.one at e
  split at e
  · next b0 =>
    have := emit_conv H (by decide) e
    rw [take_hbits H (by decide)] at this
    refine ⟨.same, ?_⟩
    show ShAdv _ _ _ _ [false] _ _ _
    rw [← b0]
    exact this
  · next b0 =>
    rw [Bool.not_eq_false] at b0
    split at e
    · next b1 =>
      obtain ⟨x, this⟩ := lit_conv H e
      rw [take_hbits H (by decide)] at this
      refine ⟨.lit x, ?_⟩
      show ShAdv _ _ _ _ [true, false] _ _ _
      rw [← b0, ← b1]
      exact this
    · next b1 =>
      rw [Bool.not_eq_false] at b1
      split at e
      · next b2 =>
        have := emit_conv (s := { s with st := { s.st with occ := s.st.second } }) H (by decide) e
        rw [take_hbits H (by decide)] at this
        refine ⟨.second, ?_⟩
        show ShAdv _ _ _ _ [true, true, false] _ _ _
        have h3 := this.of (s := s) (d := []) (c := (ShMark.second).next s.ctx) rfl rfl rfl rfl rfl
        have : [true, true, false] = (List.range 3).map s.h.v.testBit := by simp [List.range_succ, b0, b1, b2]
        rw [this]
        exact h3
      · next b2 =>
        rw [Bool.not_eq_false] at b2
        have := emit_conv (s := { s with st := { s.st with occ := s.st.third } }) H (by decide) e
        rw [take_hbits H (by decide)] at this
        refine ⟨.third, ?_⟩
        show ShAdv _ _ _ _ [true, true, true] _ _ _
        have h3 := this.of (s := s) (d := []) (c := (ShMark.third).next s.ctx) rfl rfl rfl rfl rfl
        have : [true, true, true] = (List.range 3).map s.h.v.testBit := by simp [List.range_succ, b0, b1, b2]
        rw [this]
        exact h3

theorem many_conv {full : List Byte} {cap : Nat} : ∀ (c : Nat) {s s' : ShDec}, HOk full s.h → 8 < (hbits full s.h).length →
    s.o ≤ cap → ShDec.many full cap c s = some s' →
    ∃ ks : List ShMark, ks.length = c ∧ ShAdv full cap s s' (ks.flatMap (ShMark.bits true)) (ks.flatMap ShMark.data)
      (marksOut s.ctx ks).1 (marksOut s.ctx ks).2 := by
  intro c
  induction c with
  | zero =>
    intro s s' H h8 ho e
    cases e
    exact ⟨[], rfl, H, rfl, h8, rfl, rfl, ho, rfl, (wrL_nil _ _).symm⟩
  | succ c ih =>
    intro s s' H h8 ho e
    rw [ShDec.many] at e
    split at e
    · cases e
    · next t ht =>
      obtain ⟨k, hk⟩ := one_conv H ht
      obtain ⟨ks, g1, g2⟩ := ih hk.ok hk.more (by rw [hk.o]; exact hk.room) e
      refine ⟨k :: ks, by rw [List.length_cons, g1], ?_⟩
      rw [hk.ctx] at g2
      exact hk.trans g2

theorem takeN_eq {k : Nat} {src x r : List Byte} (h : takeN k src = some (x, r)) : src = x ++ r ∧ x.length = k := by
  unfold takeN at h
  split at h
  · next hk =>
    cases h
    exact ⟨(List.take_append_drop k src).symm, by rw [List.length_take]; omega⟩
  · cases h

/-! ### The whole loop, backwards -/

theorem step_conv {full : List Byte} {cap : Nat} {s s' : ShDec} (H : HOk full s.h) (e : shStep full cap s = .inl s') :
    ∃ w : ShWord, w.ok ∧ ShAdv full cap s s' w.bits w.data (w.out s.ctx).1 (w.out s.ctx).2 := by
  have go : ∀ {x : Option ShDec}, shGo x = .inl s' → x = some s' := by
    intro x h
    cases x with
    | none => cases h
    | some t => cases h; rfl
  have bits : ∀ k, k ≤ 8 → (hbits full s.h).take k = (List.range k).map s.h.v.testBit := fun k hk => take_hbits H hk
  unfold shStep at e
  split at e
  · next b0 =>
    have := emit_conv H (by decide) (go e)
    refine ⟨.mark .same, trivial, ?_⟩
    show ShAdv _ _ _ _ [false] _ _ _
    rw [show [false] = (hbits full s.h).take 1 by rw [bits _ (by decide)]; simp [List.range_succ, b0]]
    exact this
  next b0 =>
  rw [Bool.not_eq_false] at b0
  split at e
  · next b1 =>
    obtain ⟨x, this⟩ := lit_conv H (go e)
    refine ⟨.mark (.lit x), trivial, ?_⟩
    show ShAdv _ _ _ _ [true, false] _ _ _
    rw [show [true, false] = (hbits full s.h).take 2 by rw [bits _ (by decide)]; simp [List.range_succ, b0, b1]]
    exact this
  next b1 =>
  rw [Bool.not_eq_false] at b1
  split at e
  · next b2 =>
    have := emit_conv (s := { s with st := { s.st with occ := s.st.second } }) H (by decide) (go e)
    refine ⟨.mark .second, trivial, ?_⟩
    show ShAdv _ _ _ _ [true, true, false] _ _ _
    rw [show [true, true, false] = (hbits full s.h).take 3 by rw [bits _ (by decide)]; simp [List.range_succ, b0, b1, b2]]
    exact this.of (s := s) (d := []) rfl rfl rfl rfl rfl
  next b2 =>
  rw [Bool.not_eq_false] at b2
  split at e
  · next b3 =>
    have := emit_conv (s := { s with st := { s.st with occ := s.st.third } }) H (by decide) (go e)
    refine ⟨.mark .third, trivial, ?_⟩
    show ShAdv _ _ _ _ [true, true, true, false] _ _ _
    rw [show [true, true, true, false] = (hbits full s.h).take 4 by
      rw [bits _ (by decide)]; simp [List.range_succ, b0, b1, b2, b3]]
    exact this.of (s := s) (d := []) rfl rfl rfl rfl rfl
  next b3 =>
  rw [Bool.not_eq_false] at b3
  split at e
  · next b4 =>
    have e := go e
    unfold ShDec.runSmall at e
    split at e
    · cases e
    · next c r hs =>
      obtain ⟨x, hx⟩ : ∃ x, s.src = x :: r ∧ c = x.toNat := by
        cases h : s.src with
        | nil => rw [h] at hs; cases hs
        | cons x r' => rw [h] at hs; cases hs; exact ⟨x, rfl, rfl⟩
      have := emit_conv (s := { s with src := r }) H (by decide) e
      refine ⟨.run x, trivial, ?_⟩
      show ShAdv _ _ _ _ [true, true, true, true, false] _ _ _
      rw [show [true, true, true, true, false] = (hbits full s.h).take 5 by
        rw [bits _ (by decide)]; simp [List.range_succ, b0, b1, b2, b3, b4]]
      rw [hx.2] at this
      exact this.of (s := s) (d := [x]) rfl rfl hx.1 rfl rfl
  next b4 =>
  rw [Bool.not_eq_false] at b4
  have hseven : ∀ b5 b6, s.h.v.testBit 5 = b5 → s.h.v.testBit 6 = b6 →
      [true, true, true, true, true, b5, b6] = (hbits full s.h).take 7 := by
    intro b5 b6 h5 h6
    rw [bits _ (by decide)]; simp [List.range_succ, b0, b1, b2, b3, b4, h5, h6]
  split at e
  · next b5 =>
    split at e
    · next b6 =>
      have e := go e
      unfold ShDec.copySmall at e
      split at e
      · cases e
      · next c r hs =>
        obtain ⟨x, hx⟩ : ∃ x, s.src = x :: r ∧ c = x.toNat := by
          cases h : s.src with
          | nil => rw [h] at hs; cases hs
          | cons x r' => rw [h] at hs; cases hs; exact ⟨x, rfl, rfl⟩
        split at e
        · cases e
        · next xs r' hr =>
          obtain ⟨q1, q2⟩ := takeN_eq hr
          have := emit_conv (s := { s with src := r' }) H (by decide) e
          refine ⟨.copy x xs, by show xs.length = _; rw [q2, hx.2], ?_⟩
          show ShAdv _ _ _ _ [true, true, true, true, true, false, false] _ _ _
          rw [hseven _ _ b5 b6]
          exact this.of (s := s) (d := x :: xs) rfl rfl (by rw [hx.1, q1]; rfl) rfl rfl
    · next b6 =>
      rw [Bool.not_eq_false] at b6
      have e := go e
      unfold ShDec.runLarge at e
      split at e
      · cases e
      · next c r hs =>
        obtain ⟨q1, q2⟩ := le32_of_rdU32 hs
        split at e
        · cases e
        · next x r' =>
          have := emit_conv (s := { s with src := r', last := x }) H (by decide) e
          refine ⟨.change c x, q2, ?_⟩
          show ShAdv _ _ _ _ [true, true, true, true, true, false, true] _ _ _
          rw [hseven _ _ b5 b6]
          exact this.of (s := s) (d := le32 c ++ [x]) rfl rfl (by rw [q1]; simp) rfl rfl
  next b5 =>
  rw [Bool.not_eq_false] at b5
  split at e
  · next b6 =>
    split at e
    · cases e
    · split at e
      · cases e
      · next c r hs =>
        obtain ⟨q1, q2⟩ := le32_of_rdU32 hs
        split at e
        · cases e
        · next hc0 =>
          have e := go e
          unfold ShDec.copyLarge at e
          split at e
          · cases e
          · next xs r' hr =>
            obtain ⟨p1, p2⟩ := takeN_eq hr
            have := emit_conv (s := { s with src := r' }) H (by decide) e
            refine ⟨.copyLong c xs, ⟨by omega, q2, p2⟩, ?_⟩
            show ShAdv _ _ _ _ [true, true, true, true, true, true, false] _ _ _
            rw [hseven _ _ b5 b6]
            exact this.of (s := s) (d := le32 c ++ xs) rfl rfl (by rw [q1, p1]; simp) rfl rfl
  · next b6 =>
    rw [Bool.not_eq_false] at b6
    have e := go e
    unfold ShDec.encoded at e
    split at e
    · cases e
    · next c r hs =>
      obtain ⟨x, hx⟩ : ∃ x, s.src = x :: r ∧ c = x.toNat := by
        cases h : s.src with
        | nil => rw [h] at hs; cases hs
        | cons x r' => rw [h] at hs; cases hs; exact ⟨x, rfl, rfl⟩
      split at e
      · cases e
      · next t ht =>
        have h1 := emit_conv (s := { s with src := r }) H (by decide) ht
        obtain ⟨ks, g1, g2⟩ := many_conv _ h1.ok h1.more (by rw [h1.o]; exact h1.room) e
        refine ⟨.block x ks, by show ks.length = _; rw [g1, hx.2], ?_⟩
        show ShAdv _ _ _ _ ([true, true, true, true, true, true, true] ++ _) ([x] ++ _) _ _
        rw [hseven _ _ b5 b6]
        rw [h1.ctx] at g2
        have h2 := (h1.of (s := s) (d := [x]) (c := s.ctx) rfl rfl hx.1 rfl rfl).trans g2
        exact h2

/-! ### Forwards -/

theorem lit_fwd {full : List Byte} {cap : Nat} {s : ShDec} (H : HOk full s.h) {x : Byte} {rb : List Bool} {r : List Byte}
    (hb : hbits full s.h = [true, false] ++ rb) (hs : s.src = x :: r) (hr : 8 < rb.length) (hc : s.o + 1 ≤ cap) :
    ∃ s', s.lit full cap = some s' ∧ ShAdv full cap s s' [true, false] [x] [x] ((ShMark.lit x).next s.ctx) := by
  obtain ⟨s', e1, e2, e3⟩ := emit_fwd (s := { s with src := r, st :=
    { second := if x = s.st.occ then x else s.st.second, third := if x = s.st.occ then s.st.second else s.st.third
      occ := x } }) (cap := cap) H (k := 2) (by decide) hb rfl hr (l := [x]) hc
  refine ⟨s', ?_, e3.of (ctx_lit s x) rfl (by rw [hs]; rfl) rfl rfl⟩
  unfold ShDec.lit
  rw [hs]
  exact e1

theorem one_fwd {full : List Byte} {cap : Nat} {s : ShDec} (H : HOk full s.h) (k : ShMark) {rb : List Bool} {r : List Byte}
    (hb : hbits full s.h = k.bits true ++ rb) (hs : s.src = k.data ++ r) (hr : 8 < rb.length) (hc : s.o + 1 ≤ cap) :
    ∃ s', s.one full cap = some s' ∧ ShAdv full cap s s' (k.bits true) k.data [k.byte s.ctx] (k.next s.ctx) := by
  unfold ShDec.one
  cases k with
  | same =>
    obtain ⟨s', e1, e2, e3⟩ := emit_fwd (cap := cap) H (k := 1) (by decide) hb rfl hr (l := [s.last]) hc
    rw [if_pos (bitAt H hb 0 (by omega) rfl)]
    exact ⟨s', e1, e3⟩
  | lit x =>
    rw [if_neg (by rw [bitAt H hb 0 (b := true) (by omega) rfl]; decide), if_pos (bitAt H hb 1 (by omega) rfl)]
    exact lit_fwd H hb hs hr hc
  | second =>
    obtain ⟨s', e1, e2, e3⟩ := emit_fwd (s := { s with st := { s.st with occ := s.st.second } }) (cap := cap) H (k := 3)
      (by decide) hb rfl hr (l := [s.st.second]) hc
    rw [if_neg (by rw [bitAt H hb 0 (b := true) (by omega) rfl]; decide),
      if_neg (by rw [bitAt H hb 1 (b := true) (by omega) rfl]; decide), if_pos (bitAt H hb 2 (by omega) rfl)]
    exact ⟨s', e1, e3.of (s := s) (d := []) rfl rfl rfl rfl rfl⟩
  | third =>
    obtain ⟨s', e1, e2, e3⟩ := emit_fwd (s := { s with st := { s.st with occ := s.st.third } }) (cap := cap) H (k := 3)
      (by decide) hb rfl hr (l := [s.st.third]) hc
    rw [if_neg (by rw [bitAt H hb 0 (b := true) (by omega) rfl]; decide),
      if_neg (by rw [bitAt H hb 1 (b := true) (by omega) rfl]; decide),
      if_neg (by rw [bitAt H hb 2 (b := true) (by omega) rfl]; decide)]
    exact ⟨s', e1, e3.of (s := s) (d := []) rfl rfl rfl rfl rfl⟩

theorem marksOut_length (ks : List ShMark) : ∀ c, (marksOut c ks).1.length = ks.length := by
  induction ks with
  | nil => intro c; rfl
  | cons k ks ih => intro c; rw [marksOut, List.length_cons, List.length_cons, ih]

theorem many_fwd {full : List Byte} {cap : Nat} (ks : List ShMark) : ∀ {s : ShDec} {rb : List Bool} {r : List Byte},
    HOk full s.h → hbits full s.h = ks.flatMap (ShMark.bits true) ++ rb → s.src = ks.flatMap ShMark.data ++ r →
    8 < rb.length → s.o + ks.length ≤ cap →
    ∃ s', ShDec.many full cap ks.length s = some s' ∧ ShAdv full cap s s' (ks.flatMap (ShMark.bits true))
      (ks.flatMap ShMark.data) (marksOut s.ctx ks).1 (marksOut s.ctx ks).2 := by
  induction ks with
  | nil =>
    intro s rb r H hb hs hr hc
    refine ⟨s, rfl, H, rfl, ?_, rfl, rfl, hc, rfl, (wrL_nil _ _).symm⟩
    rw [hb]; exact hr
  | cons k ks ih =>
    intro s rb r H hb hs hr hc
    rw [List.flatMap_cons, List.append_assoc] at hb hs
    rw [List.length_cons] at hc
    obtain ⟨t, e1, e2⟩ := one_fwd H k hb hs (by rw [List.length_append]; omega) (cap := cap) (by omega)
    obtain ⟨f1, f2⟩ := e2.rest hb hs
    obtain ⟨s', g1, g2⟩ := ih e2.ok f1 f2 hr (by rw [e2.o, List.length_singleton]; omega)
    refine ⟨s', ?_, ?_⟩
    · rw [List.length_cons, ShDec.many, e1]
      exact g1
    · rw [e2.ctx] at g2
      exact e2.trans g2

theorem step_fwd {full : List Byte} {cap : Nat} {s : ShDec} (H : HOk full s.h) (w : ShWord) (hw : w.ok) {rb : List Bool}
    {r : List Byte} (hb : hbits full s.h = w.bits ++ rb) (hs : s.src = w.data ++ r) (hr : 8 < rb.length)
    (hc : s.o + (w.out s.ctx).1.length ≤ cap) :
    ∃ s', shStep full cap s = .inl s' ∧ ShAdv full cap s s' w.bits w.data (w.out s.ctx).1 (w.out s.ctx).2 := by
  have t : ∀ {i : Nat} {l : List Bool}, hbits full s.h = l ++ rb → i < 8 → l[i]? = some true →
      ¬ s.h.v.testBit i = false := by
    intro i l hb hi hl
    rw [bitAt H hb i hi hl]; decide
  unfold shStep
  cases w with
  | mark k =>
    cases k with
    | same =>
      obtain ⟨s', e1, e2, e3⟩ := emit_fwd (cap := cap) H (k := 1) (by decide) hb rfl hr (l := [s.last]) hc
      rw [if_pos (bitAt H hb 0 (by omega) rfl), e1]
      exact ⟨s', rfl, e3⟩
    | lit x =>
      obtain ⟨s', e1, e2⟩ := lit_fwd (cap := cap) H hb hs hr hc
      rw [if_neg (t hb (by omega) rfl), if_pos (bitAt H hb 1 (by omega) rfl), e1]
      exact ⟨s', rfl, e2⟩
    | second =>
      obtain ⟨s', e1, e2, e3⟩ := emit_fwd (s := { s with st := { s.st with occ := s.st.second } }) (cap := cap) H (k := 3)
        (by decide) hb rfl hr (l := [s.st.second]) hc
      rw [if_neg (t hb (by omega) rfl), if_neg (t hb (by omega) rfl), if_pos (bitAt H hb 2 (by omega) rfl), e1]
      exact ⟨s', rfl, e3.of (s := s) (d := []) rfl rfl rfl rfl rfl⟩
    | third =>
      obtain ⟨s', e1, e2, e3⟩ := emit_fwd (s := { s with st := { s.st with occ := s.st.third } }) (cap := cap) H (k := 4)
        (by decide) hb rfl hr (l := [s.st.third]) hc
      rw [if_neg (t hb (by omega) rfl), if_neg (t hb (by omega) rfl), if_neg (t hb (by omega) rfl),
        if_pos (bitAt H hb 3 (by omega) rfl), e1]
      exact ⟨s', rfl, e3.of (s := s) (d := []) rfl rfl rfl rfl rfl⟩
  | run c =>
    obtain ⟨s', e1, e2, e3⟩ := emit_fwd (s := { s with src := r }) (cap := cap) H (k := 5) (by decide) hb rfl hr
      (l := List.replicate (c.toNat + 14) s.last) hc
    rw [if_neg (t hb (by omega) rfl), if_neg (t hb (by omega) rfl), if_neg (t hb (by omega) rfl),
      if_neg (t hb (by omega) rfl), if_pos (bitAt H hb 4 (by omega) rfl)]
    have hs : s.src = c :: r := hs
    refine ⟨s', ?_, e3.of (s := s) (d := [c]) rfl rfl hs rfl rfl⟩
    unfold ShDec.runSmall
    rw [hs, rdU8_cons]
    simp only
    rw [e1]
    rfl
  | copy c xs =>
    obtain ⟨s', e1, e2, e3⟩ := emit_fwd (s := { s with src := r }) (cap := cap) H (k := 7) (by decide) hb rfl hr (l := xs) hc
    rw [if_neg (t hb (by omega) rfl), if_neg (t hb (by omega) rfl), if_neg (t hb (by omega) rfl),
      if_neg (t hb (by omega) rfl), if_neg (t hb (by omega) rfl), if_pos (bitAt H hb 5 (by omega) rfl),
      if_pos (bitAt H hb 6 (by omega) rfl)]
    have hs : s.src = c :: (xs ++ r) := hs
    refine ⟨s', ?_, e3.of (s := s) (d := c :: xs) rfl rfl hs rfl rfl⟩
    unfold ShDec.copySmall
    rw [hs, rdU8_cons]
    simp only
    rw [takeN_front xs r hw]
    simp only
    rw [e1]
    rfl
  | change c x =>
    obtain ⟨s', e1, e2, e3⟩ := emit_fwd (s := { s with src := r, last := x }) (cap := cap) H (k := 7) (by decide) hb rfl hr
      (l := List.replicate ((c + 14) % 4294967296) x) hc
    rw [if_neg (t hb (by omega) rfl), if_neg (t hb (by omega) rfl), if_neg (t hb (by omega) rfl),
      if_neg (t hb (by omega) rfl), if_neg (t hb (by omega) rfl), if_pos (bitAt H hb 5 (by omega) rfl),
      if_neg (t hb (by omega) rfl)]
    have hs' : s.src = le32 c ++ (x :: r) := by rw [hs]; simp [ShWord.data]
    refine ⟨s', ?_, e3.of (s := s) (d := le32 c ++ [x]) rfl rfl hs rfl rfl⟩
    unfold ShDec.runLarge
    rw [hs', rdU32_le32, Nat.mod_eq_of_lt hw]
    simp only
    rw [e1]
    rfl
  | copyLong c xs =>
    obtain ⟨hw1, hw2, hw3⟩ := hw
    obtain ⟨s', e1, e2, e3⟩ := emit_fwd (s := { s with src := r }) (cap := cap) H (k := 7) (by decide) hb rfl hr (l := xs) hc
    obtain ⟨h', f1, _, _⟩ := consume_spec H (k := 7) (by decide) hb rfl hr
    rw [if_neg (t hb (by omega) rfl), if_neg (t hb (by omega) rfl), if_neg (t hb (by omega) rfl),
      if_neg (t hb (by omega) rfl), if_neg (t hb (by omega) rfl), if_neg (t hb (by omega) rfl),
      if_pos (bitAt H hb 6 (by omega) rfl), f1]
    have hs' : s.src = le32 c ++ (xs ++ r) := by rw [hs]; simp [ShWord.data]
    refine ⟨s', ?_, e3.of (s := s) (d := le32 c ++ xs) rfl rfl hs rfl rfl⟩
    rw [hs', rdU32_le32, Nat.mod_eq_of_lt hw2]
    simp only
    rw [if_neg (by omega)]
    unfold ShDec.copyLarge
    rw [takeN_front xs r hw3]
    simp only
    rw [e1]
    rfl
  | block c ks =>
    have hb : hbits full s.h = [true, true, true, true, true, true, true] ++ (ks.flatMap (ShMark.bits true) ++ rb) := by
      rw [hb]; simp [ShWord.bits]
    have hs : s.src = c :: (ks.flatMap ShMark.data ++ r) := hs
    have hc : s.o + (marksOut s.ctx ks).1.length ≤ cap := hc
    rw [marksOut_length] at hc
    obtain ⟨u, e1, e2, e3⟩ := emit_fwd (s := { s with src := ks.flatMap ShMark.data ++ r }) (cap := cap) H (k := 7) (by decide)
      hb rfl (by rw [List.length_append]; omega) (l := []) (by show s.o + 0 ≤ cap; omega)
    have f2 : u.src = ks.flatMap ShMark.data ++ r := e3.src.symm
    obtain ⟨s', g1, g2⟩ := many_fwd ks (cap := cap) e3.ok e2 f2 hr (by rw [e3.o]; show s.o + 0 + _ ≤ cap; omega)
    have t' : ∀ {i : Nat}, i < 7 → ¬ s.h.v.testBit i = false := by
      intro i hi
      rw [bitAt H hb i (b := true) (by omega) (by
        rcases i with _ | _ | _ | _ | _ | _ | _ | i <;> first | rfl | omega)]
      decide
    rw [if_neg (t' (by omega)), if_neg (t' (by omega)), if_neg (t' (by omega)),
      if_neg (t' (by omega)), if_neg (t' (by omega)), if_neg (t' (by omega)),
      if_neg (t' (by omega))]
    have hk : ks.length = c.toNat + 161 := hw
    refine ⟨s', ?_, ?_⟩
    · unfold ShDec.encoded
      rw [hs, rdU8_cons]
      simp only
      rw [e1]
      simp only
      rw [← hk, g1]
      rfl
    · rw [e3.ctx] at g2
      exact (e3.of (s := s) (d := [c]) (c := s.ctx) rfl rfl hs rfl rfl).trans g2

/-! ### The loop -/

theorem ShAdv.nil {full : List Byte} {cap : Nat} {s : ShDec} (H : HOk full s.h) (h : 8 < (hbits full s.h).length)
    (ho : s.o ≤ cap) : ShAdv full cap s s [] [] [] s.ctx :=
  ⟨H, rfl, h, rfl, rfl, ho, rfl, (wrL_nil _ _).symm⟩

theorem end_conv {full : List Byte} {cap : Nat} {s : ShDec} {m' : Mem} (H : HOk full s.h)
    (e : shStep full cap s = .inr (some m')) :
    m' = s.m ∧ ∃ z rest, 8 < z.length ∧ hbits full s.h = shEndBits ++ z ∧ s.src = le32 0 ++ rest := by
  have go : ∀ {x : Option ShDec}, shGo x ≠ .inr (some m') := by
    intro x h
    cases x with
    | none => cases h
    | some t => cases h
  unfold shStep at e
  split at e
  · exact absurd e go
  next b0 =>
  rw [Bool.not_eq_false] at b0
  split at e
  · exact absurd e go
  next b1 =>
  rw [Bool.not_eq_false] at b1
  split at e
  · exact absurd e go
  next b2 =>
  rw [Bool.not_eq_false] at b2
  split at e
  · exact absurd e go
  next b3 =>
  rw [Bool.not_eq_false] at b3
  split at e
  · exact absurd e go
  next b4 =>
  rw [Bool.not_eq_false] at b4
  split at e
  · split at e <;> exact absurd e go
  next b5 =>
  rw [Bool.not_eq_false] at b5
  split at e
  · next b6 =>
    split at e
    · cases e
    · next h' hc =>
      obtain ⟨_, q2, q3⟩ := consume_conv H (by decide) hc
      split at e
      · cases e
      · next c r hs =>
        split at e
        · next hc0 =>
          cases e
          refine ⟨rfl, hbits full h', r, q3, ?_, ?_⟩
          · rw [q2, take_hbits H (by decide)]
            simp [List.range_succ, shEndBits, b0, b1, b2, b3, b4, b5, b6]
          · rw [← hc0]
            exact (le32_of_rdU32 hs).1
        · exact absurd e go
  · exact absurd e go

theorem end_fwd {full : List Byte} {cap : Nat} {s : ShDec} (H : HOk full s.h) {z : List Bool} {rest : List Byte}
    (hz : 8 < z.length) (hb : hbits full s.h = shEndBits ++ z) (hs : s.src = le32 0 ++ rest) :
    shStep full cap s = .inr (some s.m) := by
  have t' : ∀ {i : Nat}, i < 6 → ¬ s.h.v.testBit i = false := by
    intro i hi
    rw [bitAt H hb i (b := true) (by omega) (by
      rcases i with _ | _ | _ | _ | _ | _ | i <;> first | rfl | omega)]
    decide
  obtain ⟨h', f1, _, _⟩ := consume_spec H (k := 7) (by decide) hb rfl hz
  unfold shStep
  rw [if_neg (t' (by omega)), if_neg (t' (by omega)), if_neg (t' (by omega)), if_neg (t' (by omega)),
    if_neg (t' (by omega)), if_neg (t' (by omega)), if_pos (bitAt H hb 6 (by omega) rfl), f1]
  simp only
  rw [hs, rdU32_le32]
  rfl

/-- A list of words that ends, read from `s` on. -/
def Reads (full : List Byte) (cap : Nat) (s : ShDec) (ws : List ShWord) : Prop :=
  (∀ w ∈ ws, w.ok) ∧ s.o + (wordsOut s.ctx ws).length ≤ cap ∧
    (∃ rest, s.src = ws.flatMap ShWord.data ++ (le32 0 ++ rest)) ∧
    ∃ z, 8 < z.length ∧ hbits full s.h = ws.flatMap ShWord.bits ++ (shEndBits ++ z)

theorem loop_conv {full : List Byte} {cap : Nat} : ∀ (fuel : Nat) {s : ShDec} {m' : Mem}, HOk full s.h → s.o ≤ cap →
    loop (shStep full cap) fuel s = some (some m') →
    ∃ ws, Reads full cap s ws ∧ m' = wrL s.m s.o (wordsOut s.ctx ws) := by
  intro fuel
  induction fuel with
  | zero => intro s m' _ _ h; cases h
  | succ fuel ih =>
    intro s m' H ho h
    rw [loop] at h
    cases hs : shStep full cap s with
    | inr r =>
      rw [hs] at h
      cases h
      obtain ⟨h1, z, rest, h2, h3, h4⟩ := end_conv H hs
      exact ⟨[], ⟨by simp, ho, ⟨rest, h4⟩, z, h2, h3⟩, by rw [h1]; exact (wrL_nil _ _).symm⟩
    | inl t =>
      rw [hs] at h
      obtain ⟨w, hw, hadv⟩ := step_conv H hs
      obtain ⟨ws, ⟨g1, g2, ⟨rest, g3⟩, z, g4, g5⟩, g6⟩ := ih hadv.ok (by rw [hadv.o]; exact hadv.room) h
      refine ⟨w :: ws, ⟨?_, ?_, ⟨rest, ?_⟩, z, g4, ?_⟩, ?_⟩
      · intro v hv
        rcases List.mem_cons.mp hv with rfl | hv
        · exact hw
        · exact g1 v hv
      · rw [wordsOut, List.length_append]
        rw [hadv.o, hadv.ctx] at g2
        omega
      · rw [hadv.src, g3, List.flatMap_cons, List.append_assoc]
      · rw [hadv.bits, g5, List.flatMap_cons, List.append_assoc]
      · rw [g6, hadv.m, hadv.o, hadv.ctx, wordsOut, wrL_append]

theorem loop_fwd {full : List Byte} {cap : Nat} : ∀ (ws : List ShWord) {s : ShDec}, HOk full s.h → Reads full cap s ws →
    ∃ k, loop (shStep full cap) k s = some (some (wrL s.m s.o (wordsOut s.ctx ws))) := by
  intro ws
  induction ws with
  | nil =>
    intro s H ⟨_, _, ⟨rest, h3⟩, z, h4, h5⟩
    refine ⟨1, ?_⟩
    rw [loop, end_fwd H h4 h5 h3]
    show some (some s.m) = _
    rw [show wordsOut s.ctx [] = [] from rfl, wrL_nil]
  | cons w ws ih =>
    intro s H ⟨h1, h2, ⟨rest, h3⟩, z, h4, h5⟩
    rw [List.flatMap_cons, List.append_assoc] at h3 h5
    rw [wordsOut, List.length_append] at h2
    obtain ⟨t, e1, e2⟩ := step_fwd H w (h1 w (by simp)) h5 h3 (by
      simp only [List.length_append]; omega) (cap := cap) (by omega)
    obtain ⟨f1, f2⟩ := e2.rest h5 h3
    obtain ⟨k, hk⟩ := ih (s := t) e2.ok ⟨fun v hv => h1 v (by simp [hv]), by rw [e2.o, e2.ctx]; omega, ⟨rest, f2⟩, z, h4, f1⟩
    refine ⟨k + 1, ?_⟩
    rw [loop, e1]
    show loop _ k t = _
    rw [hk, e2.ctx, e2.m, e2.o, wordsOut, wrL_append]

end Hrk
