import Verif.RleShBits

/-
What the pieces of an rle8_sh stream decode to.
-/

namespace Hrk

/-- The decoder goes from `s` through the output `X` to a state in front of `rb` and `rest`. -/
def ShTo (full : List Byte) (cap : Nat) (s : ShDec) (rb : List Bool) (rest : List Byte) (X : List Byte) (last' : Byte)
    (st' : ShSt) : Prop :=
  ∃ k h', HOk full h' ∧ hbits full h' = rb ∧ ∀ fuel,
    loop (shStep full cap) (k + fuel) s =
      loop (shStep full cap) fuel ⟨h', last', st', rest, s.o + X.length, wrL s.m s.o X⟩

/-- Writes `ops`, read from run symbol `last` and symbols `st` on, give `X` and lead to `last'` and `st'`. -/
def Emits (ops : List ShOp) (last : Byte) (st : ShSt) (X : List Byte) (last' : Byte) (st' : ShSt) : Prop :=
  ∀ (full : List Byte) (cap : Nat) (s : ShDec) (rb : List Bool) (rest : List Byte), HOk full s.h →
    hbits full s.h = bitsOf ops ++ rb → s.src = dataOf ops ++ rest → s.last = last → s.st = st → 8 < rb.length →
    s.o + X.length ≤ cap → ShTo full cap s rb rest X last' st'

def cost (ops : List ShOp) : Nat := (bitsOf ops).length + 8 * (dataOf ops).length

theorem cost_append (x y : List ShOp) : cost (x ++ y) = cost x + cost y := by
  unfold cost
  rw [bitsOf_append, dataOf_append, List.length_append, List.length_append]
  omega

theorem bitsOf_cons (o : ShOp) (r : List ShOp) : bitsOf (o :: r) = o.bitsOf ++ bitsOf r := by simp [bitsOf]
theorem dataOf_cons (o : ShOp) (r : List ShOp) : dataOf (o :: r) = o.dataOf ++ dataOf r := by simp [dataOf]
theorem bitsOf_nil : bitsOf [] = [] := rfl
theorem dataOf_nil : dataOf [] = [] := rfl

theorem Emits.nil (last : Byte) (st : ShSt) : Emits [] last st [] last st := by
  intro full cap s rb rest H hb hs hl hst _ _
  refine ⟨0, s.h, H, hb, fun fuel => ?_⟩
  rw [Nat.zero_add, wrL_nil, ← hl, ← hst, show rest = s.src from hs.symm]
  rfl

theorem Emits.append {o1 o2 : List ShOp} {l l' l'' : Byte} {s s' s'' : ShSt} {X Y : List Byte} (h1 : Emits o1 l s X l' s')
    (h2 : Emits o2 l' s' Y l'' s'') : Emits (o1 ++ o2) l s (X ++ Y) l'' s'' := by
  intro full cap t rb rest H hb hs hl hst hr hc
  rw [bitsOf_append, List.append_assoc] at hb
  rw [dataOf_append, List.append_assoc] at hs
  rw [List.length_append] at hc
  obtain ⟨k, h', a1, a2, a3⟩ := h1 full cap t (bitsOf o2 ++ rb) (dataOf o2 ++ rest) H hb hs hl hst
    (by rw [List.length_append]; omega) (by omega)
  obtain ⟨k2, h'', b1, b2, b3⟩ := h2 full cap ⟨h', l', s', dataOf o2 ++ rest, t.o + X.length, wrL t.m t.o X⟩ rb rest a1 a2 rfl rfl
    rfl hr (by show t.o + X.length + Y.length ≤ cap; omega)
  refine ⟨k + k2, h'', b1, b2, fun fuel => ?_⟩
  rw [Nat.add_assoc, a3, b3]
  show loop _ fuel (ShDec.mk _ _ _ _ (t.o + X.length + Y.length) (wrL (wrL t.m t.o X) (t.o + X.length) Y)) = _
  rw [wrL_append, List.length_append, Nat.add_assoc]

theorem bitAt {full : List Byte} {h : ShHdr} (H : HOk full h) {l rb : List Bool} (hb : hbits full h = l ++ rb) (i : Nat)
    {b : Bool} (hi : i < 8) (hl : l[i]? = some b) : h.v.testBit i = b := by
  have := testBit_of_hbits H hb hi
  rw [List.getElem?_append_left] at this
  · rw [hl] at this
    exact (Option.some.inj this).symm
  · exact Decidable.byContradiction fun hc => by
      rw [List.getElem?_eq_none (by omega)] at hl
      cases hl

theorem emit_spec {full : List Byte} {cap : Nat} {s : ShDec} (H : HOk full s.h) {k : Nat} (hk : k ≤ 7) {a rb : List Bool}
    (hb : hbits full s.h = a ++ rb) (ha : a.length = k) (hr : 8 < rb.length) {l : List Byte} (hc : s.o + l.length ≤ cap) :
    ∃ h', s.emit full cap k l = some { s with h := h', o := s.o + l.length, m := wrL s.m s.o l } ∧ HOk full h' ∧
      hbits full h' = rb := by
  obtain ⟨h', h1, h2, h3⟩ := consume_spec H hk hb ha hr
  refine ⟨h', ?_, h2, h3⟩
  unfold ShDec.emit
  rw [h1]
  exact if_pos hc

/-- A single step. -/
theorem ShTo.step {full : List Byte} {cap : Nat} {s : ShDec} {rb : List Bool} {rest X : List Byte} {last' : Byte} {st' : ShSt}
    {h' : ShHdr} (h1 : HOk full h') (h2 : hbits full h' = rb)
    (h3 : shStep full cap s = .inl ⟨h', last', st', rest, s.o + X.length, wrL s.m s.o X⟩) :
    ShTo full cap s rb rest X last' st' :=
  ⟨1, h', h1, h2, fun fuel => by rw [Nat.add_comm, loop, h3]⟩

theorem shSym_emits (last : Byte) (st : ShSt) (x : Byte) :
    Emits (shSym false last st x).1 last st [x] last (shSym false last st x).2 := by
  intro full cap s rb rest H hb hs hl hst hr hc
  unfold shSym at hb hs ⊢
  by_cases h1 : x = last
  · rw [if_pos h1] at hb hs ⊢
    have b0 := bitAt H (l := [false]) (rb := rb) hb 0 (by omega) rfl
    obtain ⟨h', e1, e2, e3⟩ := emit_spec H (k := 1) (by omega) (a := [false]) hb rfl hr (l := [x]) hc
    refine ShTo.step e2 e3 ?_
    unfold shStep
    rw [if_pos b0, hl, ← h1, e1]
    show Sum.inl (ShDec.mk h' s.last s.st s.src _ _) = _
    rw [hl, hst, h1, show s.src = rest from hs]
  rw [if_neg h1] at hb hs ⊢
  by_cases h2 : x = st.second
  · rw [if_pos h2] at hb hs ⊢
    have hb : hbits full s.h = [true, true, false] ++ rb := hb
    have b0 := bitAt H hb 0 (by omega) rfl
    have b1 := bitAt H hb 1 (by omega) rfl
    have b2 := bitAt H hb 2 (by omega) rfl
    obtain ⟨h', e1, e2, e3⟩ := emit_spec (s := { s with st := { s.st with occ := s.st.second } }) H (k := 3) (by omega) hb rfl hr
      (l := [x]) hc
    refine ShTo.step e2 e3 ?_
    unfold shStep
    rw [if_neg (by rw [b0]; exact Bool.noConfusion), if_neg (by rw [b1]; exact Bool.noConfusion), if_pos b2]
    have : s.st.second = x := by rw [hst, h2]
    rw [this] at e1 ⊢
    rw [e1]
    show Sum.inl (ShDec.mk h' s.last _ s.src _ _) = _
    rw [hl, hst, show s.src = rest from hs]
  rw [if_neg h2] at hb hs ⊢
  by_cases h3 : x = st.third
  · rw [if_pos h3] at hb hs ⊢
    have hb : hbits full s.h = [true, true, true, false] ++ rb := hb
    have b0 := bitAt H hb 0 (by omega) rfl
    have b1 := bitAt H hb 1 (by omega) rfl
    have b2 := bitAt H hb 2 (by omega) rfl
    have b3 := bitAt H hb 3 (by omega) rfl
    obtain ⟨h', e1, e2, e3⟩ := emit_spec (s := { s with st := { s.st with occ := s.st.third } }) H (k := 4) (by omega) hb rfl hr
      (l := [x]) hc
    refine ShTo.step e2 e3 ?_
    unfold shStep
    rw [if_neg (by rw [b0]; exact Bool.noConfusion), if_neg (by rw [b1]; exact Bool.noConfusion),
      if_neg (by rw [b2]; exact Bool.noConfusion), if_pos b3]
    have : s.st.third = x := by rw [hst, h3]
    rw [this] at e1 ⊢
    rw [e1]
    show Sum.inl (ShDec.mk h' s.last _ s.src _ _) = _
    rw [hl, hst, show s.src = rest from hs]
  rw [if_neg h3] at hb hs ⊢
  have hb : hbits full s.h = [true, false] ++ rb := hb
  have b0 := bitAt H hb 0 (by omega) rfl
  have b1 := bitAt H hb 1 (by omega) rfl
  have hs : s.src = x :: rest := hs
  obtain ⟨h', e1, e2, e3⟩ := emit_spec (s := { s with src := rest, st :=
    { second := if x = s.st.occ then x else s.st.second, third := if x = s.st.occ then s.st.second else s.st.third
      occ := x } }) H (k := 2) (by omega) hb rfl hr (l := [x]) hc
  refine ShTo.step e2 e3 ?_
  unfold shStep
  rw [if_neg (by rw [b0]; exact Bool.noConfusion), if_pos b1]
  unfold ShDec.lit
  rw [hs]
  simp only
  rw [e1]
  show Sum.inl (ShDec.mk h' s.last _ rest _ _) = _
  rw [hl, hst]

theorem shSyms_emits (last : Byte) : ∀ (xs : List Byte) (st : ShSt),
    Emits (shSyms false last xs st).1 last st xs last (shSyms false last xs st).2 := by
  intro xs
  induction xs with
  | nil => intro st; exact Emits.nil _ _
  | cons x xs ih => intro st; exact (shSym_emits last st x).append (ih _)

theorem shSym_cost (enc : Bool) (last : Byte) (st : ShSt) (x : Byte) : cost (shSym enc last st x).1 ≤ 10 := by
  unfold shSym
  by_cases h1 : x = last
  · rw [if_pos h1]; show 1 ≤ 10; omega
  rw [if_neg h1]
  by_cases h2 : x = st.second
  · rw [if_pos h2]; show 3 ≤ 10; omega
  rw [if_neg h2]
  by_cases h3 : x = st.third
  · rw [if_pos h3]
    cases enc
    · show 4 ≤ 10; omega
    · show 3 ≤ 10; omega
  rw [if_neg h3]
  simp [cost, bitsOf, dataOf, ShOp.bitsOf, ShOp.dataOf]

theorem shSyms_cost (enc : Bool) (last : Byte) : ∀ (xs : List Byte) (st : ShSt), cost (shSyms enc last xs st).1 ≤ 10 * xs.length := by
  intro xs
  induction xs with
  | nil => intro st; show 0 ≤ 0; omega
  | cons x xs ih =>
    intro st
    have h1 := shSym_cost enc last st x
    have h2 := ih (shSym enc last st x).2
    rw [List.length_cons]
    show cost ((shSym enc last st x).1 ++ _) ≤ _
    rw [cost_append]
    omega

/-! ### Encoded blocks -/

theorem shSym_one (last : Byte) (st : ShSt) (x : Byte) {full : List Byte} {cap : Nat} {s : ShDec} {rb : List Bool}
    {rest : List Byte} (H : HOk full s.h) (hb : hbits full s.h = bitsOf (shSym true last st x).1 ++ rb)
    (hs : s.src = dataOf (shSym true last st x).1 ++ rest) (hl : s.last = last) (hst : s.st = st) (hr : 8 < rb.length)
    (hc : s.o + 1 ≤ cap) : ∃ h', HOk full h' ∧ hbits full h' = rb ∧
      s.one full cap = some ⟨h', last, (shSym true last st x).2, rest, s.o + 1, wrL s.m s.o [x]⟩ := by
  unfold shSym at hb hs ⊢
  by_cases h1 : x = last
  · rw [if_pos h1] at hb hs ⊢
    have hb : hbits full s.h = [false] ++ rb := hb
    have b0 := bitAt H hb 0 (by omega) rfl
    obtain ⟨h', e1, e2, e3⟩ := emit_spec H (k := 1) (by omega) hb rfl hr (l := [x]) hc
    refine ⟨h', e2, e3, ?_⟩
    unfold ShDec.one
    rw [if_pos b0, hl, ← h1, e1]
    show some (ShDec.mk h' s.last s.st s.src _ _) = _
    rw [hl, hst, h1, show s.src = rest from hs]
    rfl
  rw [if_neg h1] at hb hs ⊢
  by_cases h2 : x = st.second
  · rw [if_pos h2] at hb hs ⊢
    have hb : hbits full s.h = [true, true, false] ++ rb := hb
    have b0 := bitAt H hb 0 (by omega) rfl
    have b1 := bitAt H hb 1 (by omega) rfl
    have b2 := bitAt H hb 2 (by omega) rfl
    obtain ⟨h', e1, e2, e3⟩ := emit_spec (s := { s with st := { s.st with occ := s.st.second } }) H (k := 3) (by omega) hb rfl hr
      (l := [x]) hc
    refine ⟨h', e2, e3, ?_⟩
    unfold ShDec.one
    rw [if_neg (by rw [b0]; exact Bool.noConfusion), if_neg (by rw [b1]; exact Bool.noConfusion), if_pos b2]
    have : s.st.second = x := by rw [hst, h2]
    rw [this] at e1 ⊢
    rw [e1]
    show some (ShDec.mk h' s.last _ s.src _ _) = _
    rw [hl, hst, show s.src = rest from hs]
    rfl
  rw [if_neg h2] at hb hs ⊢
  by_cases h3 : x = st.third
  · rw [if_pos h3] at hb hs ⊢
    have hb : hbits full s.h = [true, true, true] ++ rb := hb
    have b0 := bitAt H hb 0 (by omega) rfl
    have b1 := bitAt H hb 1 (by omega) rfl
    have b2 := bitAt H hb 2 (by omega) rfl
    obtain ⟨h', e1, e2, e3⟩ := emit_spec (s := { s with st := { s.st with occ := s.st.third } }) H (k := 3) (by omega) hb rfl hr
      (l := [x]) hc
    refine ⟨h', e2, e3, ?_⟩
    unfold ShDec.one
    rw [if_neg (by rw [b0]; exact Bool.noConfusion), if_neg (by rw [b1]; exact Bool.noConfusion),
      if_neg (by rw [b2]; exact Bool.noConfusion)]
    have : s.st.third = x := by rw [hst, h3]
    rw [this] at e1 ⊢
    rw [e1]
    show some (ShDec.mk h' s.last _ s.src _ _) = _
    rw [hl, hst, show s.src = rest from hs]
    rfl
  rw [if_neg h3] at hb hs ⊢
  have hb : hbits full s.h = [true, false] ++ rb := hb
  have b0 := bitAt H hb 0 (by omega) rfl
  have b1 := bitAt H hb 1 (by omega) rfl
  have hs : s.src = x :: rest := hs
  obtain ⟨h', e1, e2, e3⟩ := emit_spec (s := { s with src := rest, st :=
    { second := if x = s.st.occ then x else s.st.second, third := if x = s.st.occ then s.st.second else s.st.third
      occ := x } }) H (k := 2) (by omega) hb rfl hr (l := [x]) hc
  refine ⟨h', e2, e3, ?_⟩
  unfold ShDec.one
  rw [if_neg (by rw [b0]; exact Bool.noConfusion), if_pos b1]
  unfold ShDec.lit
  rw [hs]
  simp only
  rw [e1]
  show some (ShDec.mk h' s.last _ rest _ _) = _
  rw [hl, hst]
  rfl

theorem shSyms_many (last : Byte) {full : List Byte} {cap : Nat} {rb : List Bool} {rest : List Byte} (hr : 8 < rb.length) :
    ∀ (xs : List Byte) (st : ShSt) (s : ShDec), HOk full s.h → hbits full s.h = bitsOf (shSyms true last xs st).1 ++ rb →
      s.src = dataOf (shSyms true last xs st).1 ++ rest → s.last = last → s.st = st → s.o + xs.length ≤ cap →
      ∃ h', HOk full h' ∧ hbits full h' = rb ∧ ShDec.many full cap xs.length s =
        some ⟨h', last, (shSyms true last xs st).2, rest, s.o + xs.length, wrL s.m s.o xs⟩ := by
  intro xs
  induction xs with
  | nil =>
    intro st s H hb hs hl hst hc
    refine ⟨s.h, H, hb, ?_⟩
    show some s = _
    rw [wrL_nil, ← hl, show rest = s.src from hs.symm, ← hst]
    rfl
  | cons x xs ih =>
    intro st s H hb hs hl hst hc
    rw [List.length_cons] at hc ⊢
    rw [shSyms] at hb hs ⊢
    simp only at hb hs ⊢
    rw [bitsOf_append, List.append_assoc] at hb
    rw [dataOf_append, List.append_assoc] at hs
    obtain ⟨h1, a1, a2, a3⟩ := shSym_one last st x (cap := cap) H hb hs hl hst (by rw [List.length_append]; omega) (by omega)
    obtain ⟨h2, b1, b2, b3⟩ := ih (shSym true last st x).2 ⟨h1, last, (shSym true last st x).2,
      dataOf (shSyms true last xs (shSym true last st x).2).1 ++ rest, s.o + 1, wrL s.m s.o [x]⟩ a1 a2 rfl rfl rfl
      (by show s.o + 1 + xs.length ≤ cap; omega)
    refine ⟨h2, b1, b2, ?_⟩
    rw [ShDec.many, a3]
    simp only
    rw [b3]
    show some (ShDec.mk h2 _ _ _ (s.o + 1 + xs.length) (wrL (wrL s.m s.o [x]) (s.o + [x].length) xs)) = _
    rw [wrL_append, Nat.add_assoc, Nat.add_comm 1]
    rfl

theorem wrL_at_nil (m : Mem) (a : Nat) : wrL m a ([] : List Byte) = m := wrL_nil m a

theorem encBlock_emits (last : Byte) (xs : List Byte) (st : ShSt) (c : Nat) (hc : c ≤ 255) (hx : xs.length = c + 161) :
    Emits (.bits 127 7 :: .bytes [b8 c] :: (shSyms true last xs st).1) last st xs last (shSyms true last xs st).2 := by
  intro full cap s rb rest H hb hs hl hst hr hcap
  have hb : hbits full s.h = [true, true, true, true, true, true, true] ++ (bitsOf (shSyms true last xs st).1 ++ rb) := by
    rw [hb, bitsOf_cons, bitsOf_cons, List.append_assoc]
    rfl
  have hs : s.src = b8 c :: (dataOf (shSyms true last xs st).1 ++ rest) := by
    rw [hs, dataOf_cons, dataOf_cons]
    rfl
  have b0 := bitAt H hb 0 (by omega) rfl
  have b1 := bitAt H hb 1 (by omega) rfl
  have b2 := bitAt H hb 2 (by omega) rfl
  have b3 := bitAt H hb 3 (by omega) rfl
  have b4 := bitAt H hb 4 (by omega) rfl
  have b5 := bitAt H hb 5 (by omega) rfl
  have b6 := bitAt H hb 6 (by omega) rfl
  obtain ⟨h', e1, e2, e3⟩ := emit_spec (s := { s with src := dataOf (shSyms true last xs st).1 ++ rest }) (cap := cap) H (k := 7)
    (by omega) hb rfl (by rw [List.length_append]; omega) (l := []) (by show s.o + List.length [] ≤ cap; rw [List.length_nil]; omega)
  obtain ⟨h2, f1, f2, f3⟩ := shSyms_many last hr xs st
    ⟨h', s.last, s.st, dataOf (shSyms true last xs st).1 ++ rest, s.o + 0, wrL s.m s.o []⟩ e2 e3 rfl hl hst
    (by show s.o + 0 + xs.length ≤ cap; omega)
  refine ShTo.step f1 f2 ?_
  unfold shStep
  rw [if_neg (by rw [b0]; exact Bool.noConfusion), if_neg (by rw [b1]; exact Bool.noConfusion),
    if_neg (by rw [b2]; exact Bool.noConfusion), if_neg (by rw [b3]; exact Bool.noConfusion),
    if_neg (by rw [b4]; exact Bool.noConfusion), if_neg (by rw [b5]; exact Bool.noConfusion),
    if_neg (by rw [b6]; exact Bool.noConfusion)]
  unfold ShDec.encoded
  rw [hs, rdU8_cons]
  simp only
  rw [e1, b8_toNat, Nat.mod_eq_of_lt (by omega), ← hx]
  simp only
  show shGo (ShDec.many full cap xs.length ⟨h', s.last, s.st, _, s.o + 0, wrL s.m s.o []⟩) = _
  rw [f3]
  show Sum.inl (ShDec.mk h2 _ _ _ (s.o + 0 + xs.length) (wrL (wrL s.m s.o []) (s.o + 0) xs)) = _
  rw [wrL_nil, Nat.add_zero]

theorem shEncCopy_emits (last : Byte) : ∀ (fuel : Nat) (xs : List Byte) (st : ShSt), xs.length ≤ fuel →
    Emits (shEncCopy last fuel xs st).1 last st xs last (shEncCopy last fuel xs st).2 ∧
      cost (shEncCopy last fuel xs st).1 ≤ 11 * xs.length := by
  intro fuel
  induction fuel with
  | zero =>
    intro xs st h
    cases xs with
    | nil => exact ⟨Emits.nil _ _, by show cost [] ≤ 0; decide⟩
    | cons a l => simp at h
  | succ fuel ih =>
    intro xs st h
    rw [shEncCopy]
    by_cases h0 : xs.length = 0
    · rw [if_pos h0]
      cases xs with
      | nil => exact ⟨Emits.nil _ _, by show cost [] ≤ 0; decide⟩
      | cons a l => simp at h0
    rw [if_neg h0]
    by_cases h1 : 161 < xs.length
    · rw [if_pos h1]
      simp only
      obtain ⟨c, hc⟩ : ∃ c, c = min 0xFF (xs.length - 161) := ⟨_, rfl⟩
      rw [← hc]
      have hlen : (xs.take (c + 161)).length = c + 161 := by rw [List.length_take]; omega
      obtain ⟨i1, i2⟩ := ih (xs.drop (c + 161)) (shSyms true last (xs.take (c + 161)) st).2 (by rw [List.length_drop]; omega)
      have e := (encBlock_emits last (xs.take (c + 161)) st c (by omega) hlen).append i1
      rw [List.take_append_drop] at e
      refine ⟨e, ?_⟩
      have hk := shSyms_cost true last (xs.take (c + 161)) st
      rw [List.length_drop] at i2
      rw [hlen] at hk
      show cost ([.bits 127 7, .bytes [b8 c]] ++ ((shSyms true last (xs.take (c + 161)) st).1 ++ _)) ≤ _
      rw [cost_append, cost_append, show cost [.bits 127 7, .bytes [b8 c]] = 15 from rfl]
      omega
    · rw [if_neg h1]
      have := shSyms_cost false last xs st
      exact ⟨shSyms_emits last xs st, by omega⟩

/-! ### Copies and runs -/

theorem takeN_front (x y : List Byte) {k : Nat} (h : x.length = k) : takeN k (x ++ y) = some (x, y) := by
  unfold takeN
  rw [if_pos (by rw [List.length_append]; omega), ← h, List.take_left, List.drop_left]

theorem shCopy_emits (last : Byte) (xs : List Byte) (st : ShSt) (hn : xs.length < 4294967296) :
    Emits (shCopy last xs st).1 last st xs last (shCopy last xs st).2 ∧ cost (shCopy last xs st).1 ≤ 11 * xs.length := by
  unfold shCopy
  by_cases h1 : 255 + 7 < xs.length
  · rw [if_pos h1]
    refine ⟨?_, ?_⟩
    · intro full cap s rb rest H hb hs hl hst hr hcap
      have hb : hbits full s.h = [true, true, true, true, true, true, false] ++ rb := by
        rw [hb]
        rfl
      have hs : s.src = le32 (xs.length - 7) ++ (xs ++ rest) := by
        rw [hs, dataOf_cons, dataOf_cons, dataOf_cons, dataOf_nil, List.append_nil]
        show [] ++ (le32 _ ++ xs) ++ rest = _
        rw [List.nil_append, List.append_assoc]
      have b0 := bitAt H hb 0 (by omega) rfl
      have b1 := bitAt H hb 1 (by omega) rfl
      have b2 := bitAt H hb 2 (by omega) rfl
      have b3 := bitAt H hb 3 (by omega) rfl
      have b4 := bitAt H hb 4 (by omega) rfl
      have b5 := bitAt H hb 5 (by omega) rfl
      have b6 := bitAt H hb 6 (by omega) rfl
      obtain ⟨h0, d1, _, _⟩ := consume_spec H (k := 7) (by omega) hb rfl hr
      obtain ⟨h', e1, e2, e3⟩ := emit_spec (s := { s with src := rest }) H (k := 7) (by omega) hb rfl hr (l := xs) hcap
      refine ShTo.step e2 e3 ?_
      unfold shStep
      rw [if_neg (by rw [b0]; exact Bool.noConfusion), if_neg (by rw [b1]; exact Bool.noConfusion),
        if_neg (by rw [b2]; exact Bool.noConfusion), if_neg (by rw [b3]; exact Bool.noConfusion),
        if_neg (by rw [b4]; exact Bool.noConfusion), if_neg (by rw [b5]; exact Bool.noConfusion), if_pos b6, d1, hs]
      simp only [rdU32_le32]
      rw [Nat.mod_eq_of_lt (by omega), if_neg (by omega)]
      unfold ShDec.copyLarge
      rw [takeN_front xs rest (by omega)]
      simp only
      rw [e1]
      show Sum.inl (ShDec.mk h' s.last s.st _ _ _) = _
      rw [hl, hst]
    · have : cost [.bits 0b0111111 7, .bytes (le32 (xs.length - 7)), .bytes xs] = 7 + 8 * (4 + xs.length) := by
        simp [cost, bitsOf, dataOf, ShOp.bitsOf, ShOp.dataOf]
      rw [this]
      omega
  rw [if_neg h1]
  by_cases h2 : 7 ≤ xs.length
  · rw [if_pos h2]
    refine ⟨?_, ?_⟩
    · intro full cap s rb rest H hb hs hl hst hr hcap
      have hb : hbits full s.h = [true, true, true, true, true, false, false] ++ rb := by
        rw [hb]
        rfl
      have hs : s.src = b8 (xs.length - 7) :: (xs ++ rest) := by
        rw [hs, dataOf_cons, dataOf_cons, dataOf_cons, dataOf_nil, List.append_nil]
        rfl
      have b0 := bitAt H hb 0 (by omega) rfl
      have b1 := bitAt H hb 1 (by omega) rfl
      have b2 := bitAt H hb 2 (by omega) rfl
      have b3 := bitAt H hb 3 (by omega) rfl
      have b4 := bitAt H hb 4 (by omega) rfl
      have b5 := bitAt H hb 5 (by omega) rfl
      have b6 := bitAt H hb 6 (by omega) rfl
      obtain ⟨h', e1, e2, e3⟩ := emit_spec (s := { s with src := rest }) H (k := 7) (by omega) hb rfl hr (l := xs) hcap
      refine ShTo.step e2 e3 ?_
      unfold shStep
      rw [if_neg (by rw [b0]; exact Bool.noConfusion), if_neg (by rw [b1]; exact Bool.noConfusion),
        if_neg (by rw [b2]; exact Bool.noConfusion), if_neg (by rw [b3]; exact Bool.noConfusion),
        if_neg (by rw [b4]; exact Bool.noConfusion), if_pos b5, if_pos b6]
      unfold ShDec.copySmall
      rw [hs, rdU8_cons]
      simp only
      rw [b8_toNat, Nat.mod_eq_of_lt (by omega), takeN_front xs rest (by omega)]
      simp only
      rw [e1]
      show Sum.inl (ShDec.mk h' s.last s.st _ _ _) = _
      rw [hl, hst]
    · have : cost [.bits 0b0011111 7, .bytes [b8 (xs.length - 7)], .bytes xs] = 7 + 8 * (1 + xs.length) := by
        simp [cost, bitsOf, dataOf, ShOp.bitsOf, ShOp.dataOf]
        omega
      rw [this]
      omega
  · rw [if_neg h2]
    have := shSyms_cost false last xs st
    exact ⟨shSyms_emits last xs st, by omega⟩

theorem shPick_emits (real : Nat) (last : Byte) (xs : List Byte) (st : ShSt) (hn : xs.length < 4294967296) :
    Emits (shPick real last xs st).1 last st xs last (shPick real last xs st).2 ∧
      cost (shPick real last xs st).1 ≤ 11 * xs.length := by
  unfold shPick
  by_cases h : mulU (subU xs.length real) 2 < mulU real 7
  · rw [if_pos h]
    exact shEncCopy_emits last xs.length xs st (Nat.le_refl _)
  · rw [if_neg h]
    exact shCopy_emits last xs st hn

/-- A large run record. -/
theorem runLarge_emits (last x : Byte) (st : ShSt) (c d : Nat) (hc : d < 4294967296) (hd : (d + 14) % 4294967296 = c) :
    Emits [.bits 95 7, .bytes (le32 d), .bytes [x]] last st (List.replicate c x) x st := by
  intro full cap s rb rest H hb hs hl hst hr hcap
  have hb : hbits full s.h = [true, true, true, true, true, false, true] ++ rb := by
    rw [hb]
    rfl
  have hs : s.src = le32 d ++ (x :: rest) := by
    rw [hs, dataOf_cons, dataOf_cons, dataOf_cons, dataOf_nil, List.append_nil]
    show [] ++ (le32 _ ++ [x]) ++ rest = _
    rw [List.nil_append, List.append_assoc]
    rfl
  have b0 := bitAt H hb 0 (by omega) rfl
  have b1 := bitAt H hb 1 (by omega) rfl
  have b2 := bitAt H hb 2 (by omega) rfl
  have b3 := bitAt H hb 3 (by omega) rfl
  have b4 := bitAt H hb 4 (by omega) rfl
  have b5 := bitAt H hb 5 (by omega) rfl
  have b6 := bitAt H hb 6 (by omega) rfl
  obtain ⟨h', e1, e2, e3⟩ := emit_spec (s := { s with src := rest, last := x }) H (k := 7) (by omega) hb rfl hr
    (l := List.replicate c x) hcap
  refine ShTo.step e2 e3 ?_
  unfold shStep
  rw [if_neg (by rw [b0]; exact Bool.noConfusion), if_neg (by rw [b1]; exact Bool.noConfusion),
    if_neg (by rw [b2]; exact Bool.noConfusion), if_neg (by rw [b3]; exact Bool.noConfusion),
    if_neg (by rw [b4]; exact Bool.noConfusion), if_pos b5, if_neg (by rw [b6]; exact Bool.noConfusion)]
  unfold ShDec.runLarge
  rw [hs]
  simp only [rdU32_le32]
  rw [Nat.mod_eq_of_lt hc, hd, e1]
  show Sum.inl (ShDec.mk h' x s.st _ _ _) = _
  rw [hst]

theorem zero_emits (last : Byte) (st : ShSt) : Emits [.bits 0 1] last st [last] last st := by
  have := shSym_emits last st last
  unfold shSym at this
  rw [if_pos rfl] at this
  exact this

theorem zeros_emits (last : Byte) (st : ShSt) : ∀ c, Emits (List.replicate c (.bits 0 1)) last st (List.replicate c last) last st
  | 0 => Emits.nil _ _
  | c + 1 => by
    rw [List.replicate_succ, List.replicate_succ]
    exact (zero_emits last st).append (zeros_emits last st c)

theorem zeros_cost : ∀ c, cost (List.replicate c (.bits 0 1)) = c
  | 0 => rfl
  | c + 1 => by
    rw [List.replicate_succ]
    show cost ([.bits 0 1] ++ _) = _
    rw [cost_append, zeros_cost c, show cost [.bits 0 1] = 1 from rfl]
    omega

theorem shRun_emits (last : Byte) (st : ShSt) (c : Nat) (hn : c < 4294967296) :
    Emits (shRun last c) last st (List.replicate c last) last st ∧ cost (shRun last c) ≤ 11 * c := by
  unfold shRun
  by_cases h1 : 255 + 14 < c
  · rw [if_pos h1]
    refine ⟨runLarge_emits last last st c (c - 14) (by omega) (by omega), ?_⟩
    show 47 ≤ _
    omega
  rw [if_neg h1]
  by_cases h2 : 14 ≤ c
  · rw [if_pos h2]
    refine ⟨?_, by show 13 ≤ _; omega⟩
    intro full cap s rb rest H hb hs hl hst hr hcap
    have hb : hbits full s.h = [true, true, true, true, false] ++ rb := by
      rw [hb]
      rfl
    have hs : s.src = b8 (c - 14) :: rest := by
      rw [hs, dataOf_cons, dataOf_cons, dataOf_nil, List.append_nil]
      rfl
    have b0 := bitAt H hb 0 (by omega) rfl
    have b1 := bitAt H hb 1 (by omega) rfl
    have b2 := bitAt H hb 2 (by omega) rfl
    have b3 := bitAt H hb 3 (by omega) rfl
    have b4 := bitAt H hb 4 (by omega) rfl
    obtain ⟨h', e1, e2, e3⟩ := emit_spec (s := { s with src := rest }) H (k := 5) (by omega) hb rfl hr
      (l := List.replicate c last) hcap
    refine ShTo.step e2 e3 ?_
    unfold shStep
    rw [if_neg (by rw [b0]; exact Bool.noConfusion), if_neg (by rw [b1]; exact Bool.noConfusion),
      if_neg (by rw [b2]; exact Bool.noConfusion), if_neg (by rw [b3]; exact Bool.noConfusion), if_pos b4]
    unfold ShDec.runSmall
    rw [hs, rdU8_cons]
    simp only
    rw [b8_toNat, Nat.mod_eq_of_lt (by omega), Nat.sub_add_cancel h2, hl]
    rw [hl] at e1
    rw [e1]
    show Sum.inl (ShDec.mk h' _ s.st _ _ _) = _
    rw [hst]
  · rw [if_neg h2]
    exact ⟨zeros_emits last st c, by rw [zeros_cost]; omega⟩

theorem shChange_emits (last x : Byte) (st : ShSt) (c : Nat) (hn : c < 4294967296) :
    Emits (shChange x c) last st (List.replicate c x) x st := by
  unfold shChange
  apply runLarge_emits
  · omega
  · unfold subU
    omega

end Hrk
