import Verif.MmWords

/-
rle8_mmtf128: the decompressor reads byte strings as the grammar of MmWords does.
-/

namespace Hrk

/-! ### Copy sections -/

theorem mmGroups_len (g d : Nat) (lay : List Byte → Nat → Nat → Nat) : ∀ (q : Nat) (x : List Byte),
    (mmGroups g d lay q x).length = q * g ∧ ∀ b ∈ mmGroups g d lay q x, b.length = 16
  | 0, _ => by simp [mmGroups]
  | q + 1, x => by
    obtain ⟨h1, h2⟩ := mmGroups_len g d lay q (x.drop d)
    refine ⟨by simp [mmGroups, h1, Nat.succ_mul]; omega, ?_⟩
    intro b hb
    rw [mmGroups, List.mem_append] at hb
    rcases hb with hb | hb
    · obtain ⟨i, _, rfl⟩ := List.mem_map.mp hb
      simp
    · exact h2 b hb

theorem MmKind.blocks_len (k : MmKind) (c : Nat) (x : List Byte) :
    (k.blocks c x).length = c ∧ ∀ b ∈ k.blocks c x, b.length = 16 := by
  cases k <;> simp only [MmKind.blocks]
  · have := mmGroups_len 1 16 lay8 c x
    exact ⟨by rw [this.1]; omega, this.2⟩
  · have h1 := mmGroups_len 2 16 lay4x2 (c / 2) x
    have h2 := mmGroups_len 1 8 lay4x1 (c % 2) (x.drop (16 * (c / 2)))
    refine ⟨by rw [List.length_append, h1.1, h2.1]; omega, fun b hb => ?_⟩
    rcases List.mem_append.mp hb with hb | hb
    · exact h1.2 b hb
    · exact h2.2 b hb
  · have h1 := mmGroups_len 6 36 lay3x6 (c / 6) x
    have h2 := mmGroups_len 1 6 lay3x1 (c % 6) (x.drop (36 * (c / 6)))
    refine ⟨by rw [List.length_append, h1.1, h2.1]; omega, fun b hb => ?_⟩
    rcases List.mem_append.mp hb with hb | hb
    · exact h1.2 b hb
    · exact h2.2 b hb
  · have h1 := mmGroups_len 4 16 lay2x4 (c / 4) x
    have h2 := mmGroups_len 1 4 lay2x1 (c % 4) (x.drop (16 * (c / 4)))
    refine ⟨by rw [List.length_append, h1.1, h2.1]; omega, fun b hb => ?_⟩
    rcases List.mem_append.mp hb with hb | hb
    · exact h1.2 b hb
    · exact h2.2 b hb

theorem adv_nil (s : MDec) : s.adv s.h s.src [] = s := by
  unfold MDec.adv
  rw [wrL_nil]
  rfl

theorem groups_fwd {cap g d : Nat} {unp : List Byte → List Byte} {lay : List Byte → Nat → Nat → Nat} (hL : LayOk g d unp lay) :
    ∀ (q fuel left rest : Nat) (s : MDec) (h : Nat → Vec) (x e r os : List Byte), x.length = d * q → s.src = x ++ r →
      decBlocks s.h (mmGroups g d lay q (x ++ e)) = some (h, os) → s.o + os.length ≤ cap → left = q * g + rest → rest < g →
      q ≤ fuel → dcWhile cap g d unp fuel left s = some (rest, s.adv h r os)
  | 0, fuel, left, rest, s, h, x, e, r, os, hx, hs, hd, _, hl, hr, _ => by
    obtain rfl : x = [] := List.eq_nil_of_length_eq_zero (by omega)
    rw [mmGroups, decBlocks] at hd
    cases hd
    rw [List.nil_append] at hs
    rw [← hs, adv_nil, hl, Nat.zero_mul, Nat.zero_add]
    cases fuel with
    | zero => rfl
    | succ fuel => rw [dcWhile, if_neg (by omega)]
  | q + 1, fuel, left, rest, s, h, x, e, r, os, hx, hs, hd, hc, hl, hr, hf => by
    obtain ⟨fuel, rfl⟩ : ∃ f, fuel = f + 1 := ⟨fuel - 1, by omega⟩
    rw [Nat.mul_succ] at hx
    rw [Nat.succ_mul] at hl
    have hxl : (x.take d).length = d := by rw [List.length_take]; omega
    have ex : x = x.take d ++ x.drop d := (List.take_append_drop d x).symm
    obtain ⟨h1, h2⟩ := hL (x.take d) (x.drop d ++ e) hxl
    rw [← List.append_assoc, ← ex] at h2
    rw [mmGroups, ← h2, List.drop_append_of_le_length (by omega)] at hd
    obtain ⟨h', o1, o2, hd1, hd2, rfl⟩ := decBlocks_append_some hd
    rw [List.length_append] at hc
    rw [dcWhile, if_pos (by omega), dcGroup_run (h := h') (r := x.drop d ++ r) (os := o1) hxl
      (by rw [hs, ← List.append_assoc, ← ex]) hd1 (by omega)]
    simp only
    rw [groups_fwd hL q fuel (left - g) rest _ h (x.drop d) e r o2 (by rw [List.length_drop]; omega) rfl hd2
      (by show s.o + o1.length + o2.length ≤ cap; omega) (by omega) hr (by omega), adv_adv]

theorem dcGroup_conv {cap g d : Nat} {unp : List Byte → List Byte} {s s' : MDec} (h : dcGroup cap g d unp s = some s') :
    ∃ x r hh os, x.length = d ∧ s.src = x ++ r ∧ decBlocks s.h (blocks16 g (unp x)) = some (hh, os) ∧ s.o + os.length ≤ cap ∧
      s' = s.adv hh r os := by
  unfold dcGroup at h
  cases h1 : takeN d s.src with
  | none => rw [h1] at h; cases h
  | some p =>
    rw [h1] at h
    simp only at h
    obtain ⟨e1, e2⟩ := takeN_eq h1
    cases h2 : decBlocks s.h (blocks16 g (unp p.1)) with
    | none => rw [h2] at h; cases h
    | some y =>
      rw [h2] at h
      simp only [MDec.store] at h
      split at h
      · next hc =>
        cases h
        exact ⟨p.1, p.2, y.1, y.2, e2, e1, h2, hc, rfl⟩
      · cases h

theorem decBlocks_app {h h' h'' : Nat → Vec} {xs ys : List (List Byte)} {o1 o2 : List Byte} (h1 : decBlocks h xs = some (h', o1))
    (h2 : decBlocks h' ys = some (h'', o2)) : decBlocks h (xs ++ ys) = some (h'', o1 ++ o2) := by
  rw [decBlocks_append, h1]
  simp only [h2]

theorem groups_conv {cap g d : Nat} {unp : List Byte → List Byte} {lay : List Byte → Nat → Nat → Nat} (hg : 0 < g)
    (hL : LayOk g d unp lay) : ∀ (fuel c : Nat) (s : MDec) (c' : Nat) (s' : MDec), c ≤ fuel →
      dcWhile cap g d unp fuel c s = some (c', s') →
      c' = c % g ∧ ∃ x r h os, x.length = d * (c / g) ∧ s.src = x ++ r ∧
        (∀ e, decBlocks s.h (mmGroups g d lay (c / g) (x ++ e)) = some (h, os)) ∧ (s.o ≤ cap → s.o + os.length ≤ cap) ∧
        s' = s.adv h r os
  | 0, c, s, c', s', hf, h => by
    obtain rfl : c = 0 := by omega
    rw [dcWhile] at h
    cases h
    refine ⟨by simp, [], s.src, s.h, [], by simp, rfl, fun e => ?_, fun h => h, (adv_nil s).symm⟩
    rw [Nat.zero_div]; rfl
  | fuel + 1, c, s, c', s', hf, h => by
    rw [dcWhile] at h
    by_cases hc : g ≤ c
    · rw [if_pos hc] at h
      cases h1 : dcGroup cap g d unp s with
      | none => rw [h1] at h; cases h
      | some s1 =>
        rw [h1] at h
        simp only at h
        obtain ⟨x1, r1, hh1, o1, a1, a2, a3, a4, rfl⟩ := dcGroup_conv h1
        obtain ⟨b0, x2, r2, h2, o2, b1, b2, b3, b4, b5⟩ := groups_conv hg hL fuel (c - g) _ c' s' (by omega) h
        have hdiv : c / g = (c - g) / g + 1 := by
          rw [Nat.div_eq c g, if_pos ⟨hg, hc⟩]
        refine ⟨by rw [b0, ← Nat.mod_eq_sub_mod hc], x1 ++ x2, r2, h2, o1 ++ o2, ?_, ?_, ?_, ?_, ?_⟩
        · rw [List.length_append, a1, b1, hdiv, Nat.mul_succ]; omega
        · rw [a2, show r1 = x2 ++ r2 from b2, List.append_assoc]
        · intro e
          rw [hdiv, mmGroups, List.append_assoc, ← (hL x1 (x2 ++ e) a1).2, ← a1, List.drop_left]
          exact decBlocks_app a3 (by rw [a1]; exact b3 e)
        · intro _
          have := b4 a4
          rw [List.length_append]
          show s.o + (o1.length + o2.length) ≤ cap
          have e : (s.adv hh1 r1 o1).o = s.o + o1.length := rfl
          omega
        · rw [b5, adv_adv]
    · rw [if_neg hc] at h
      cases h
      have hdiv : c / g = 0 := Nat.div_eq_of_lt (by omega)
      refine ⟨(Nat.mod_eq_of_lt (by omega)).symm, [], s.src, s.h, [], by rw [hdiv]; simp, rfl, fun e => ?_, fun h => h, (adv_nil s).symm⟩
      rw [hdiv]; rfl

/-- Two loops behind each other. -/
theorem two_conv {cap g d d' : Nat} {unp unp' : List Byte → List Byte} {lay lay' : List Byte → Nat → Nat → Nat} (hg : 0 < g)
    (hL : LayOk g d unp lay) (hL' : LayOk 1 d' unp' lay') {c : Nat} {s s' : MDec} {p : Nat × MDec}
    (h1 : dcWhile cap g d unp c c s = some p) (h2 : (dcWhile cap 1 d' unp' p.1 p.1 p.2).map (·.2) = some s') :
    ∃ body r h os, body.length = d * (c / g) + d' * (c % g) ∧ s.src = body ++ r ∧
      decBlocks s.h (mmGroups g d lay (c / g) body ++ mmGroups 1 d' lay' (c % g) (body.drop (d * (c / g)))) = some (h, os) ∧
      (s.o ≤ cap → s.o + os.length ≤ cap) ∧ s' = s.adv h r os := by
  obtain ⟨a0, x1, r1, hh1, o1, a1, a2, a3, a4, a5⟩ := groups_conv hg hL c c s p.1 p.2 (Nat.le_refl _) h1
  cases h3 : dcWhile cap 1 d' unp' p.1 p.1 p.2 with
  | none => rw [h3] at h2; cases h2
  | some q =>
    rw [h3] at h2
    cases h2
    obtain ⟨_, x2, r2, h2, o2, b1, b2, b3, b4, b5⟩ := groups_conv (by omega) hL' p.1 p.1 p.2 q.1 q.2 (Nat.le_refl _) h3
    rw [Nat.div_one, a0] at b1 b3
    rw [a5] at b2 b3 b4 b5
    refine ⟨x1 ++ x2, r2, h2, o1 ++ o2, by rw [List.length_append, a1, b1], ?_, ?_, ?_, ?_⟩
    · rw [a2, show r1 = x2 ++ r2 from b2, List.append_assoc]
    · rw [← a1, List.drop_left]
      refine decBlocks_app (h' := hh1) (a3 x2) ?_
      have := b3 []
      rw [List.append_nil] at this
      exact this
    · intro hc
      have h5 := a4 hc
      have h6 := b4 h5
      have e : (s.adv hh1 r1 o1).o = s.o + o1.length := rfl
      rw [List.length_append]
      omega
    · show q.2 = _
      rw [b5, adv_adv]

theorem dcCopy_conv {cap : Nat} {mode : Byte} {c : Nat} {s s' : MDec} (h : dcCopy cap mode c s = some s') :
    ∃ (kind : MmKind) (body r : List Byte) (hh : Nat → Vec) (os : List Byte), mode &&& 6 = b8 kind.code ∧ body.length = kind.len c ∧
      s.src = body ++ r ∧ decBlocks s.h (kind.blocks c body) = some (hh, os) ∧ (s.o ≤ cap → s.o + os.length ≤ cap) ∧
      s' = s.adv hh r os := by
  unfold dcCopy at h
  by_cases h0 : mode &&& 6 = 0
  · rw [if_pos h0] at h
    cases h1 : dcWhile cap 1 16 id c c s with
    | none => rw [h1] at h; cases h
    | some p =>
      rw [h1] at h
      cases h
      obtain ⟨_, x1, r1, hh1, o1, a1, a2, a3, a4, a5⟩ := groups_conv (by omega) layOk8 c c s p.1 p.2 (Nat.le_refl _) h1
      rw [Nat.div_one] at a1 a3
      refine ⟨.plain, x1, r1, hh1, o1, h0, a1, a2, ?_, a4, a5⟩
      have := a3 []
      rw [List.append_nil] at this
      exact this
  · rw [if_neg h0] at h
    by_cases h6 : mode &&& 6 = 6
    · rw [if_pos h6] at h
      cases h1 : dcWhile cap 4 16 unpack2x4 c c s with
      | none => rw [h1] at h; cases h
      | some p =>
        rw [h1] at h
        obtain ⟨body, r, hh, os, a1, a2, a3, a4, a5⟩ := two_conv (by omega) layOk2x4 layOk2x1 h1 h
        exact ⟨.two, body, r, hh, os, h6, a1, a2, a3, a4, a5⟩
    · rw [if_neg h6] at h
      by_cases h4 : mode &&& 6 = 4
      · rw [if_pos h4] at h
        cases h1 : dcWhile cap 6 36 unpack3x6 c c s with
        | none => rw [h1] at h; cases h
        | some p =>
          rw [h1] at h
          obtain ⟨body, r, hh, os, a1, a2, a3, a4, a5⟩ := two_conv (by omega) layOk3x6 layOk3x1 h1 h
          exact ⟨.three, body, r, hh, os, h4, a1, a2, a3, a4, a5⟩
      · rw [if_neg h4] at h
        have h2 : mode &&& 6 = 2 := by
          have key : ∀ m : Byte, m &&& 6 = 0 ∨ m &&& 6 = 6 ∨ m &&& 6 = 4 ∨ m &&& 6 = 2 :=
            byte_forall (P := fun m => m &&& 6 = 0 ∨ m &&& 6 = 6 ∨ m &&& 6 = 4 ∨ m &&& 6 = 2) (by decide +kernel)
          rcases key mode with k | k | k | k
          · exact absurd k h0
          · exact absurd k h6
          · exact absurd k h4
          · exact k
        cases h1 : dcWhile cap 2 16 unpack4x2 c c s with
        | none => rw [h1] at h; cases h
        | some p =>
          rw [h1] at h
          simp only at h
          have hp := (groups_conv (by omega) layOk4x2 c c s p.1 p.2 (Nat.le_refl _) h1).1
          have h' : (dcWhile cap 1 8 unpack4x1 p.1 p.1 p.2).map (·.2) = some s' := by
            by_cases hz : p.1 = 0
            · rw [if_pos hz] at h
              rw [hz, dcWhile]
              exact h
            · rw [if_neg hz] at h
              have e1 : p.1 = 1 := by omega
              rw [e1, dcWhile, if_pos (by omega), h]
              rfl
          obtain ⟨body, r, hh, os, a1, a2, a3, a4, a5⟩ := two_conv (by omega) layOk4x2 layOk4x1 h1 h'
          exact ⟨.four, body, r, hh, os, h2, a1, a2, a3, a4, a5⟩

theorem two_fwd {cap g d d' : Nat} {unp unp' : List Byte → List Byte} {lay lay' : List Byte → Nat → Nat → Nat} (hg : 0 < g)
    (hL : LayOk g d unp lay) (hL' : LayOk 1 d' unp' lay') {c : Nat} {body : List Byte}
    (hb : body.length = d * (c / g) + d' * (c % g)) {s : MDec} {h : Nat → Vec} {r os : List Byte} (hs : s.src = body ++ r)
    (hd : decBlocks s.h (mmGroups g d lay (c / g) body ++ mmGroups 1 d' lay' (c % g) (body.drop (d * (c / g)))) = some (h, os))
    (hc : s.o + os.length ≤ cap) : ∃ s1, dcWhile cap g d unp c c s = some (c % g, s1) ∧
      dcWhile cap 1 d' unp' (c % g) (c % g) s1 = some (0, s.adv h r os) := by
  obtain ⟨h1, o1, o2, hd1, hd2, rfl⟩ := decBlocks_append_some hd
  rw [List.length_append] at hc
  have hx : (body.take (d * (c / g))).length = d * (c / g) := by rw [List.length_take]; omega
  have ex := (List.take_append_drop (d * (c / g)) body)
  have hdm := Nat.div_add_mod c g
  rw [Nat.mul_comm] at hdm
  have hle : c / g ≤ c := Nat.div_le_self _ _
  refine ⟨s.adv h1 (body.drop (d * (c / g)) ++ r) o1, ?_, ?_⟩
  · exact groups_fwd hL (c / g) c c (c % g) s h1 (body.take (d * (c / g))) (body.drop (d * (c / g))) _ o1 hx
      (by rw [hs, ← List.append_assoc, ex]) (by rw [ex]; exact hd1) (by omega) hdm.symm (Nat.mod_lt _ hg) hle
  · rw [← adv_adv]
    exact groups_fwd hL' (c % g) (c % g) (c % g) 0 (s.adv h1 (body.drop (d * (c / g)) ++ r) o1) h (body.drop (d * (c / g))) [] r o2
      (by rw [List.length_drop]; omega) rfl (by rw [List.append_nil]; exact hd2) (by show s.o + o1.length + o2.length ≤ cap; omega)
      (by omega) (by omega) (Nat.le_refl _)

theorem kind_body (kind : MmKind) (c : Nat) (body : List Byte) (hb : body.length = kind.len c) (m : Byte)
    (hm : m &&& 6 = b8 kind.code) : CopyBody m c (kind.blocks c body).flatten body := by
  intro cap s h r os hs hd hc
  obtain ⟨hl, h16⟩ := kind.blocks_len c body
  have e : blocks16 c (kind.blocks c body).flatten = kind.blocks c body := by
    conv => lhs; rw [← hl]
    rw [hl]
    have := blocks16_flatten _ h16
    rw [hl] at this
    exact this
  rw [e] at hd
  unfold dcCopy
  cases kind with
  | plain =>
    have hm' : m &&& 6 = 0 := hm
    rw [if_pos hm', groups_fwd layOk8 c c c 0 s h body [] r os hb hs (by rw [List.append_nil]; exact hd) hc (by omega) (by omega) (Nat.le_refl _)]
    rfl
  | two =>
    have hm' : m &&& 6 = 6 := hm
    obtain ⟨s1, e1, e2⟩ := two_fwd (cap := cap) (by omega) layOk2x4 layOk2x1 hb hs hd hc
    rw [if_neg (by rw [hm]; decide), if_pos hm', e1]
    simp only [e2]
    rfl
  | three =>
    have hm' : m &&& 6 = 4 := hm
    obtain ⟨s1, e1, e2⟩ := two_fwd (cap := cap) (by omega) layOk3x6 layOk3x1 hb hs hd hc
    rw [if_neg (by rw [hm]; decide), if_neg (by rw [hm]; decide), if_pos hm', e1]
    simp only [e2]
    rfl
  | four =>
    obtain ⟨s1, e1, e2⟩ := two_fwd (cap := cap) (by omega) layOk4x2 layOk4x1 hb hs hd hc
    rw [if_neg (by rw [hm]; decide), if_neg (by rw [hm]; decide), if_neg (by rw [hm]; decide), e1]
    simp only
    by_cases hz : c % 2 = 0
    · rw [hz, dcWhile] at e2
      rw [if_pos hz]
      cases e2
      rfl
    · rw [if_neg hz]
      have e1' : c % 2 = 1 := by omega
      rw [e1', dcWhile, if_pos (by omega)] at e2
      cases h3 : dcGroup cap 1 8 unpack4x1 s1 with
      | none => rw [h3] at e2; cases e2
      | some s2 =>
        rw [h3] at e2
        simp only [dcWhile] at e2
        cases e2
        rfl

/-! ### Sections -/

theorem rdU32_conv {src r : List Byte} {v : Nat} (h : rdU32 src = some (v, r)) :
    src = le32 v ++ r ∧ v < 4294967296 ∧ src.head? = some (b8 v) := by
  match src, h with
  | a :: b :: c :: d :: r', h =>
    simp only [rdU32, Option.some.injEq, Prod.mk.injEq] at h
    obtain ⟨h1, rfl⟩ := h
    have ha := a.toNat_lt
    have hb := b.toNat_lt
    have hc := c.toNat_lt
    have hd := d.toNat_lt
    have e0 : b8 v = a := by apply UInt8.toNat.inj; rw [b8_toNat]; omega
    have e1 : b8 (v / 256) = b := by apply UInt8.toNat.inj; rw [b8_toNat]; omega
    have e2 : b8 (v / 65536) = c := by apply UInt8.toNat.inj; rw [b8_toNat]; omega
    have e3 : b8 (v / 16777216) = d := by apply UInt8.toNat.inj; rw [b8_toNat]; omega
    refine ⟨?_, by omega, by rw [e0]; rfl⟩
    simp only [le32, e0, e1, e2, e3]
    rfl
  | [], h => simp [rdU32] at h
  | [_], h => simp [rdU32] at h
  | [_, _], h => simp [rdU32] at h
  | [_, _, _], h => simp [rdU32] at h

/-- The section kind that is next. -/
def MmSec.isRep : MmSec → Bool
  | .copy _ _ _ _ => false
  | .rep _ _ _ => true

theorem kind_byte (m : Byte) (kind : MmKind) (h : m &&& 6 = b8 kind.code) : m.toNat % 8 / 2 * 2 = kind.code := by
  have key : ∀ m : Byte, (m &&& 6).toNat = m.toNat % 8 / 2 * 2 :=
    byte_forall (P := fun m => (m &&& 6).toNat = m.toNat % 8 / 2 * 2) (by decide +kernel)
  rw [← key, h]
  cases kind <;> rfl

theorem code_byte (m : Byte) (kind : MmKind) (h : m.toNat % 8 / 2 * 2 = kind.code) : m &&& 6 = b8 kind.code := by
  have key : ∀ m : Byte, m &&& 6 = b8 (m.toNat % 8 / 2 * 2) :=
    byte_forall (P := fun m => m &&& 6 = b8 (m.toNat % 8 / 2 * 2)) (by decide +kernel)
  rw [key, h]

theorem code_le (kind : MmKind) : kind.code ≤ 6 ∧ kind.code % 2 = 0 := by cases kind <;> decide

theorem step_conv_mm {cap e : Nat} {s s' : MDec} (h : dcStep cap e s = .inl s') :
    ∃ (sec : MmSec) (r : List Byte) (hh : Nat → Vec) (os : List Byte), sec.isRep = s.rle ∧ sec.ok ∧ s.src = sec.bytes ++ r ∧
      decBlocks s.h sec.blocks = some (hh, os) ∧ (s.o ≤ cap → s.o + os.length ≤ cap) ∧ HSame hh s'.h ∧
      s' = { s.adv s'.h r os with rle := !s.rle } := by
  obtain ⟨rle, h0, src, o, m⟩ := s
  unfold dcStep at h
  cases rle with
  | false =>
    simp only [if_true] at h
    cases src with
    | nil => cases h
    | cons mode r =>
      simp only at h
      by_cases h1 : mode.toNat % 2 = 1
      · rw [if_pos h1] at h
        cases h2 : rdU32 (mode :: r) with
        | none => rw [h2] at h; cases h
        | some p =>
          rw [h2] at h
          simp only at h
          obtain ⟨a1, a2, a3⟩ := rdU32_conv h2
          cases h3 : dcCopy cap mode (p.1 >>> 3) ⟨false, h0, p.2, o, m⟩ with
          | none => rw [h3] at h; cases h
          | some s1 =>
            rw [h3] at h
            cases h
            obtain ⟨kind, body, r', hh, os, b1, b2, b3, b4, b5, rfl⟩ := dcCopy_conv h3
            have hk := kind_byte mode kind b1
            have hm : mode = b8 p.1 := by simpa using a3
            have hm' := congrArg UInt8.toNat hm
            rw [b8_toNat] at hm'
            rw [Nat.shiftRight_eq_div_pow] at b2 b4
            refine ⟨.copy true kind (p.1 / 2 ^ 3) body, r', hh, os, rfl, ⟨by simp only [if_true]; omega, b2⟩, ?_, b4, b5, HSame.refl _, rfl⟩
            simp only [MmSec.bytes, if_true]
            rw [show 8 * (p.1 / 2 ^ 3) + kind.code + 1 = p.1 by omega, List.append_assoc, ← b3]
            exact a1
      · rw [if_neg h1] at h
        cases h3 : dcCopy cap mode (mode.toNat >>> 3) ⟨false, h0, r, o, m⟩ with
        | none => rw [h3] at h; cases h
        | some s1 =>
          rw [h3] at h
          cases h
          obtain ⟨kind, body, r', hh, os, b1, b2, b3, b4, b5, rfl⟩ := dcCopy_conv h3
          have hk := kind_byte mode kind b1
          have hm := mode.toNat_lt
          rw [Nat.shiftRight_eq_div_pow] at b2 b4
          refine ⟨.copy false kind (mode.toNat / 2 ^ 3) body, r', hh, os, rfl, ⟨by simp; omega, b2⟩, ?_, b4, b5, HSame.refl _, rfl⟩
          simp only [MmSec.bytes, Bool.false_eq_true, if_false]
          rw [show 8 * (mode.toNat / 2 ^ 3) + kind.code = mode.toNat by omega, b8_of_toNat, List.append_assoc, ← b3]
          rfl
  | true =>
    simp only [Bool.true_eq_false, if_false] at h
    cases src with
    | nil => cases h
    | cons last r =>
      simp only at h
      have hl := last.toNat_lt
      have key : ∀ (wide : Bool) (count : Nat) (r2 : List Byte), count < (if wide then 2147483648 else 128) →
          last :: r = (if wide then le32 (2 * count + 1) else [b8 (2 * count)]) ++ r2 →
          (if count = 0 then
            if e < o then (.inr none : MDec ⊕ Option Mem)
            else match dcTail h0 (e - o) 0 r2 with
              | none => .inr none
              | some t => if o + t.length ≤ cap then .inr (some (wrL m o t)) else .inr none
          else match r2 with
            | [] => .inr none
            | symbol :: r =>
              match (⟨true, h0, last :: r, o, m⟩ : MDec).store cap (rleOut symbol.toNat count h0).1 r (rleOut symbol.toNat count h0).2 with
              | none => .inr none
              | some s' => .inl { s' with rle := false }) = .inl s' →
          ∃ (sec : MmSec) (r' : List Byte) (hh : Nat → Vec) (os : List Byte), sec.isRep = true ∧ sec.ok ∧ last :: r = sec.bytes ++ r' ∧
            decBlocks h0 sec.blocks = some (hh, os) ∧ (o ≤ cap → o + os.length ≤ cap) ∧ HSame hh s'.h ∧
            s' = { (⟨true, h0, last :: r, o, m⟩ : MDec).adv s'.h r' os with rle := false } := by
        intro wide count r2 hc hsrc hh
        by_cases hz : count = 0
        · rw [if_pos hz] at hh
          split at hh
          · cases hh
          · split at hh
            · cases hh
            · split at hh <;> cases hh
        · rw [if_neg hz] at hh
          cases r2 with
          | nil => cases hh
          | cons x r3 =>
            simp only [MDec.store] at hh
            obtain ⟨h', e1, e2⟩ := decBlocks_uniform x count h0
            obtain ⟨e3, e4⟩ := rle_run e1
            split at hh
            · cases hh
            · next s1 hs1 =>
              split at hs1
              · next hcap =>
                cases hs1
                cases hh
                refine ⟨.rep wide count x, r3, h', _, rfl, ⟨by omega, hc⟩, ?_, e1, ?_, e3, ?_⟩
                · rw [hsrc]; simp [MmSec.bytes]
                · intro _; rw [← e4]; exact hcap
                · simp only [MDec.adv]
                  rw [e4]
              · cases hs1
      by_cases h1 : last.toNat % 2 = 1
      · rw [if_pos h1] at h
        cases h2 : rdU32 (last :: r) with
        | none => rw [h2] at h; cases h
        | some p =>
          rw [h2] at h
          simp only [Option.map_some] at h
          obtain ⟨a1, a2, a3⟩ := rdU32_conv h2
          have hm : last = b8 p.1 := by simpa using a3
          have hm' := congrArg UInt8.toNat hm
          rw [b8_toNat] at hm'
          rw [Nat.shiftRight_eq_div_pow] at h
          refine key true (p.1 / 2 ^ 1) p.2 (by simp only [if_true]; omega) ?_ h
          simp only [if_true]
          rw [show 2 * (p.1 / 2 ^ 1) + 1 = p.1 by omega]
          exact a1
      · rw [if_neg h1] at h
        simp only at h
        rw [Nat.shiftRight_eq_div_pow] at h
        refine key false (last.toNat / 2 ^ 1) r (by simp; omega) ?_ h
        simp only [Bool.false_eq_true, if_false]
        rw [show 2 * (last.toNat / 2 ^ 1) = last.toNat by omega, b8_of_toNat]
        rfl

theorem end_conv_mm {cap e : Nat} {s : MDec} {m' : Mem} (h : dcStep cap e s = .inr (some m')) :
    s.rle = true ∧ s.o ≤ e ∧ ∃ (wide : Bool) (r t : List Byte), s.src = mmEnd wide ++ r ∧ dcTail s.h (e - s.o) 0 r = some t ∧
      s.o + t.length ≤ cap ∧ m' = wrL s.m s.o t := by
  obtain ⟨rle, h0, src, o, m⟩ := s
  unfold dcStep at h
  cases rle with
  | false =>
    simp only [if_true] at h
    cases src with
    | nil => cases h
    | cons mode r =>
      simp only at h
      split at h
      · split at h
        · cases h
        · split at h <;> cases h
      · split at h <;> cases h
  | true =>
    simp only [Bool.true_eq_false, if_false] at h
    cases src with
    | nil => cases h
    | cons last r =>
      simp only at h
      have hl := last.toNat_lt
      have key : ∀ (count : Nat) (r2 : List Byte), (count = 0 → ∃ wide, last :: r = mmEnd wide ++ r2) →
          (if count = 0 then
            if e < o then (.inr none : MDec ⊕ Option Mem)
            else match dcTail h0 (e - o) 0 r2 with
              | none => .inr none
              | some t => if o + t.length ≤ cap then .inr (some (wrL m o t)) else .inr none
          else match r2 with
            | [] => .inr none
            | symbol :: r =>
              match (⟨true, h0, last :: r, o, m⟩ : MDec).store cap (rleOut symbol.toNat count h0).1 r (rleOut symbol.toNat count h0).2 with
              | none => .inr none
              | some s' => .inl { s' with rle := false }) = .inr (some m') →
          o ≤ e ∧ ∃ (wide : Bool) (r' t : List Byte), last :: r = mmEnd wide ++ r' ∧ dcTail h0 (e - o) 0 r' = some t ∧
            o + t.length ≤ cap ∧ m' = wrL m o t := by
        intro count r2 hsrc hh
        by_cases hz : count = 0
        · rw [if_pos hz] at hh
          obtain ⟨wide, hw⟩ := hsrc hz
          split at hh
          · cases hh
          · next hlt =>
            split at hh
            · cases hh
            · next t ht =>
              split at hh
              · next hc =>
                cases hh
                exact ⟨by omega, wide, r2, t, hw, ht, hc, rfl⟩
              · cases hh
        · rw [if_neg hz] at hh
          split at hh
          · cases hh
          · split at hh <;> cases hh
      by_cases h1 : last.toNat % 2 = 1
      · rw [if_pos h1] at h
        cases h2 : rdU32 (last :: r) with
        | none => rw [h2] at h; cases h
        | some p =>
          rw [h2] at h
          simp only [Option.map_some] at h
          obtain ⟨a1, a2, a3⟩ := rdU32_conv h2
          have hm : last = b8 p.1 := by simpa using a3
          have hm' := congrArg UInt8.toNat hm
          rw [b8_toNat] at hm'
          rw [Nat.shiftRight_eq_div_pow] at h
          refine ⟨rfl, key (p.1 / 2 ^ 1) p.2 (fun hz => ⟨true, ?_⟩) h⟩
          rw [a1, show p.1 = 1 by omega]
          rfl
      · rw [if_neg h1] at h
        simp only at h
        rw [Nat.shiftRight_eq_div_pow] at h
        refine ⟨rfl, key (last.toNat / 2 ^ 1) r (fun hz => ⟨false, ?_⟩) h⟩
        have : last = 0 := by apply UInt8.toNat.inj; show last.toNat = 0; omega
        rw [this]
        rfl

theorem sec_copy (wide : Bool) (kind : MmKind) (count : Nat) (body : List Byte) (h : (MmSec.copy wide kind count body).ok) :
    Sec false (MmSec.copy wide kind count body).bytes (MmSec.copy wide kind count body).blocks := by
  obtain ⟨hc, hb⟩ := h
  obtain ⟨k1, k2⟩ := code_le kind
  obtain ⟨l1, l2⟩ := kind.blocks_len count body
  refine ⟨by cases wide <;> simp [MmSec.bytes, le32], ?_⟩
  intro cap e hd r o m hd' os hdec hcap
  refine ⟨hd', HSame.refl _, ?_⟩
  have hdec' : decBlocks hd (blocks16 count (kind.blocks count body).flatten) = some (hd', os) := by
    have := blocks16_flatten _ l2
    rw [l1] at this
    rw [this]
    exact hdec
  cases wide with
  | false =>
    simp only [Bool.false_eq_true, if_false] at hc
    have hv : (b8 (8 * count + kind.code)).toNat = 8 * count + kind.code := by rw [b8_toNat]; omega
    have hb6 := code_byte (b8 (8 * count + kind.code)) kind (by rw [hv]; omega)
    unfold dcStep
    simp only [if_true, MmSec.bytes, Bool.false_eq_true, if_false, List.cons_append, List.nil_append, hv]
    rw [if_neg (by omega), show (8 * count + kind.code) >>> 3 = count by rw [Nat.shiftRight_eq_div_pow]; omega,
      kind_body kind count body hb _ hb6 cap _ hd' r os rfl hdec' hcap]
    rfl
  | true =>
    simp only [if_true] at hc
    have hv : (b8 (8 * count + kind.code + 1)).toNat = (8 * count + kind.code + 1) % 256 := b8_toNat _
    have hb6 := code_byte (b8 (8 * count + kind.code + 1)) kind (by rw [hv]; omega)
    have hrd : rdU32 (b8 (8 * count + kind.code + 1) :: ((le32 (8 * count + kind.code + 1)).tail ++ (body ++ r))) =
        some (8 * count + kind.code + 1, body ++ r) := by
      have := rdU32_le32 (8 * count + kind.code + 1) (body ++ r)
      rw [Nat.mod_eq_of_lt (by omega)] at this
      exact this
    have es : (MmSec.copy true kind count body).bytes ++ r =
        b8 (8 * count + kind.code + 1) :: ((le32 (8 * count + kind.code + 1)).tail ++ (body ++ r)) := by
      simp [MmSec.bytes, le32]
    rw [es]
    unfold dcStep
    simp only [if_true]
    rw [if_pos (by rw [hv]; omega)]
    rw [hrd]
    simp only
    rw [show (8 * count + kind.code + 1) >>> 3 = count by rw [Nat.shiftRight_eq_div_pow]; omega,
      kind_body kind count body hb _ hb6 cap _ hd' r os rfl hdec' hcap]
    rfl

theorem sec_rep (wide : Bool) (count : Nat) (x : Byte) (h : (MmSec.rep wide count x).ok) :
    Sec true (MmSec.rep wide count x).bytes (MmSec.rep wide count x).blocks := by
  obtain ⟨h0, hc⟩ := h
  refine ⟨by cases wide <;> simp [MmSec.bytes, le32], ?_⟩
  intro cap e hd r o m hd' os hdec hcap
  obtain ⟨h1, h2⟩ := rle_run hdec
  refine ⟨_, h1, ?_⟩
  have hcap' : o + (rleOut x.toNat count hd).2.length ≤ cap := by rw [h2]; exact hcap
  cases wide with
  | false =>
    simp only [Bool.false_eq_true, if_false] at hc
    have h3 : (b8 (2 * count)).toNat = 2 * count := by rw [b8_toNat]; omega
    have h4 : (2 * count) >>> 1 = count := by rw [Nat.shiftRight_eq_div_pow]; omega
    unfold dcStep
    simp only [Bool.true_eq_false, if_false, MmSec.bytes, Bool.false_eq_true, List.cons_append, List.nil_append, h3]
    rw [if_neg (by omega)]
    simp only [h4]
    rw [if_neg (by omega)]
    simp only [MDec.store]
    rw [if_pos hcap', h2]
    rfl
  | true =>
    simp only [if_true] at hc
    have hv : (b8 (2 * count + 1)).toNat = (2 * count + 1) % 256 := b8_toNat _
    have hrd : rdU32 (b8 (2 * count + 1) :: ((le32 (2 * count + 1)).tail ++ (x :: r))) = some (2 * count + 1, x :: r) := by
      have := rdU32_le32 (2 * count + 1) (x :: r)
      rw [Nat.mod_eq_of_lt (by omega)] at this
      exact this
    have es : (MmSec.rep true count x).bytes ++ r = b8 (2 * count + 1) :: ((le32 (2 * count + 1)).tail ++ (x :: r)) := by
      simp [MmSec.bytes, le32]
    have h4 : (2 * count + 1) >>> 1 = count := by rw [Nat.shiftRight_eq_div_pow]; omega
    rw [es]
    unfold dcStep
    simp only [Bool.true_eq_false, if_false]
    rw [if_pos (by rw [hv]; omega), hrd]
    simp only [Option.map_some, h4]
    rw [if_neg (by omega)]
    simp only [MDec.store]
    rw [if_pos hcap', h2]
    rfl

theorem sec_of (sec : MmSec) (h : sec.ok) : Sec sec.isRep sec.bytes sec.blocks := by
  cases sec with
  | copy w k c b => exact sec_copy w k c b h
  | rep w c x => exact sec_rep w c x h

theorem sec_blocks16 (sec : MmSec) : ∀ b ∈ sec.blocks, b.length = 16 := by
  cases sec with
  | copy w k c b => exact (k.blocks_len c b).2
  | rep w c x =>
    intro b hb
    rw [(List.mem_replicate.mp hb).2]
    simp

theorem end_fwd_mm {cap e : Nat} (wide : Bool) {h0 : Nat → Vec} {r t : List Byte} {o : Nat} {m : Mem} (ho : o ≤ e)
    (ht : dcTail h0 (e - o) 0 r = some t) (hc : o + t.length ≤ cap) :
    dcStep cap e ⟨true, h0, mmEnd wide ++ r, o, m⟩ = .inr (some (wrL m o t)) := by
  cases wide with
  | false =>
    unfold dcStep mmEnd
    simp only [Bool.true_eq_false, Bool.false_eq_true, if_false, List.cons_append, List.nil_append]
    rw [if_neg (by decide)]
    simp only
    rw [if_pos (by decide), if_neg (by omega), ht]
    simp only
    rw [if_pos hc]
  | true =>
    have hrd : rdU32 (b8 1 :: ((le32 1).tail ++ r)) = some (1, r) := rdU32_le32 1 r
    have es : mmEnd true ++ r = b8 1 :: ((le32 1).tail ++ r) := by simp [mmEnd, le32]
    rw [es]
    unfold dcStep
    simp only [Bool.true_eq_false, if_false]
    rw [if_pos (by decide), hrd]
    simp only [Option.map_some]
    rw [if_pos (by decide), if_neg (by omega), ht]
    simp only
    rw [if_pos hc]

/-! ### Columns -/

/-- A history and the tables of its sixteen columns. -/
def Tabs (h : Nat → Vec) (T : Nat → List Byte) : Prop := ∀ j, j < 16 → Holds256 h j (T j)

theorem Tabs.same {h h' : Nat → Vec} {T : Nat → List Byte} (H : Tabs h T) (hs : HSame h h') : Tabs h' T := by
  intro j hj
  refine ⟨(H j hj).1, fun r hr => ?_⟩
  rw [(H j hj).2 r hr, hs r j hr hj]

theorem unmtf_app : ∀ (a T b : List Byte), unmtf T (a ++ b) = unmtf T a ++ unmtf (unmtfAfter T a) b
  | [], _, _ => rfl
  | i :: a, T, b => by simp only [List.cons_append, unmtf, unmtfAfter, unmtf_app a]

theorem unmtfAfter_app : ∀ (a T b : List Byte), unmtfAfter T (a ++ b) = unmtfAfter (unmtfAfter T a) b
  | [], _, _ => rfl
  | i :: a, T, b => by simp only [List.cons_append, unmtfAfter, unmtfAfter_app a]

theorem dec_block {h : Nat → Vec} {T : Nat → List Byte} (H : Tabs h T) (x : List Byte) :
    ∃ h' o, mtfBlock true 1 16 h x = some (h', o) ∧ o.length = 16 ∧
      (∀ j, j < 16 → o.getD j 0 = (T j).getD (x.getD j 0).toNat 0) ∧
      Tabs h' (fun j => (T j).getD (x.getD j 0).toNat 0 :: (T j).eraseIdx (x.getD j 0).toNat) := by
  obtain ⟨h', o, h1, h2, h3, h4⟩ := mtfBlock_spec (dec := true) (parts := 1) (w := 16) (h := h) (blk := x)
    (t := fun j => (x.getD j 0).toNat) (by omega) (by
      intro j hj
      refine ⟨UInt8.toNat_lt _, fun r hr => ?_⟩
      simp only [if_true]
      show x.getD j 0 = b8 r ↔ _
      generalize x.getD j 0 = y
      constructor
      · rintro rfl; rw [b8_toNat]; omega
      · rintro rfl; exact (b8_of_toNat y).symm)
  have key : ∀ j, j < 16 → h (x.getD j 0).toNat j = (T j).getD (x.getD j 0).toNat 0 := by
    intro j hj
    have hl := (H j hj).len
    have hy := (x.getD j 0).toNat_lt
    generalize (x.getD j 0).toNat = y at hy ⊢
    rw [getD_of_lt (T j) _ (by omega), (H j hj).row hy]
  refine ⟨h', o, h1, h2, fun j hj => ?_, fun j hj => ?_⟩
  · rw [h3 j (by omega), ← key j hj]
    rfl
  · have := (H j hj).moved (t := fun j => (x.getD j 0).toNat) (UInt8.toNat_lt _) (h' := h') (fun r => h4 r j (by omega))
    rw [key j hj] at this
    exact this

theorem lane_mul {a b : List Byte} {k : Nat} (ha : a.length = 16 * k) (j : Nat) : lane 16 j (a ++ b) = lane 16 j a ++ lane 16 j b := by
  unfold lane
  rw [laneAt_append, ha]
  have : ∀ k i, laneAt 16 j (i + 16 * k) b = laneAt 16 j i b := by
    intro k
    induction k with
    | zero => intro i; rfl
    | succ k ih => intro i; rw [Nat.mul_succ, ← Nat.add_assoc, laneAt_shift, ih]
  rw [this]

theorem dec_blocks : ∀ (xs : List (List Byte)) (h : Nat → Vec) (T : Nat → List Byte), Tabs h T → (∀ x ∈ xs, x.length = 16) →
    ∃ h' os, decBlocks h xs = some (h', os) ∧ os.length = 16 * xs.length ∧
      (∀ j, j < 16 → lane 16 j os = unmtf (T j) (lane 16 j xs.flatten)) ∧
      Tabs h' (fun j => unmtfAfter (T j) (lane 16 j xs.flatten))
  | [], h, T, H, _ => ⟨h, [], rfl, rfl, fun _ _ => rfl, H⟩
  | x :: xs, h, T, H, hx => by
    obtain ⟨h1, o1, a1, a2, a3, a4⟩ := dec_block H x
    obtain ⟨h2, o2, b1, b2, b3, b4⟩ := dec_blocks xs h1 _ a4 (fun y hy => hx y (by simp [hy]))
    have hx16 := hx x (by simp)
    refine ⟨h2, o1 ++ o2, ?_, ?_, ?_, ?_⟩
    · rw [decBlocks, a1]
      simp only [b1]
    · rw [List.length_append, a2, b2, List.length_cons]; omega
    · intro j hj
      rw [List.flatten_cons, lane_block a2 hj, lane_block hx16 hj, unmtf, a3 j hj, b3 j hj]
    · intro j hj
      simp only
      rw [List.flatten_cons, lane_block hx16 hj, unmtfAfter]
      exact b4 j hj

theorem flat_len16 (xs : List (List Byte)) (hx : ∀ x ∈ xs, x.length = 16) : xs.flatten.length = 16 * xs.length := by
  rw [flatten_len xs hx, Nat.mul_comm]

/-! ### The tail -/

theorem tail_conv {h : Nat → Vec} {T : Nat → List Byte} (H : Tabs h T) : ∀ (k i : Nat) (src t : List Byte),
    dcTail h k i src = some t → ∃ tail rest, src = tail ++ rest ∧ tail.length = k ∧ t.length = k ∧
      ∀ q, q < k → (tail.getD q 0).toNat * 16 + (i + q) < 4096 ∧
        t.getD q 0 = (T ((i + q) % 16)).getD ((tail.getD q 0).toNat + (i + q) / 16) 0
  | 0, i, src, t, hd => by
    rw [dcTail] at hd
    cases hd
    exact ⟨[], src, rfl, rfl, rfl, fun q hq => absurd hq (by omega)⟩
  | k + 1, i, src, t, hd => by
    cases src with
    | nil => simp [dcTail] at hd
    | cons x src =>
      simp only [dcTail] at hd
      split at hd
      · next hlt =>
        cases h1 : dcTail h k (i + 1) src with
        | none => rw [h1] at hd; cases hd
        | some t1 =>
          rw [h1] at hd
          cases hd
          obtain ⟨tail, rest, a1, a2, a3, a4⟩ := tail_conv H k (i + 1) src t1 h1
          refine ⟨x :: tail, rest, by rw [a1]; rfl, by simp [a2], by simp [a3], ?_⟩
          intro q hq
          cases q with
          | zero =>
            simp only [List.getD_cons_zero, Nat.add_zero]
            refine ⟨hlt, ?_⟩
            have hH := H (i % 16) (Nat.mod_lt _ (by omega))
            have hl := hH.len
            have hrow : x.toNat + i / 16 < 256 := by omega
            rw [getD_of_lt _ _ (by omega), hH.row hrow]
          | succ q =>
            have := a4 q (by omega)
            simp only [List.getD_cons_succ]
            rw [show i + (q + 1) = i + 1 + q by omega]
            exact this
      · cases hd

theorem tail_fwd {h : Nat → Vec} {T : Nat → List Byte} (H : Tabs h T) : ∀ (tail : List Byte) (i : Nat) (rest t : List Byte),
    t.length = tail.length → (∀ q, q < tail.length → (tail.getD q 0).toNat * 16 + (i + q) < 4096 ∧
        t.getD q 0 = (T ((i + q) % 16)).getD ((tail.getD q 0).toNat + (i + q) / 16) 0) →
    dcTail h tail.length i (tail ++ rest) = some t
  | [], i, rest, t, hl, _ => by
    obtain rfl : t = [] := List.eq_nil_of_length_eq_zero (by simpa using hl)
    rfl
  | x :: tail, i, rest, t, hl, hq => by
    cases t with
    | nil => simp at hl
    | cons y t =>
      have h0 := hq 0 (by simp)
      simp only [List.getD_cons_zero, Nat.add_zero] at h0
      have ih := tail_fwd H tail (i + 1) rest t (by simpa using hl) (by
        intro q hq'
        have := hq (q + 1) (by simp; omega)
        simp only [List.getD_cons_succ] at this
        rw [show i + (q + 1) = i + 1 + q by omega] at this
        exact this)
      simp only [List.length_cons, List.cons_append, dcTail]
      rw [if_pos h0.1, ih, Option.map_some]
      have hH := H (i % 16) (Nat.mod_lt _ (by omega))
      have hln := hH.len
      have hrow : x.toNat + i / 16 < 256 := by omega
      rw [h0.2, getD_of_lt _ _ (by omega), hH.row hrow]

/-! ### Whole streams -/

theorem secsBlocks16 (secs : List MmSec) : ∀ b ∈ secsBlocks secs, b.length = 16 := by
  intro b hb
  unfold secsBlocks at hb
  rw [List.mem_flatten] at hb
  obtain ⟨l, hl, hb⟩ := hb
  obtain ⟨s, _, rfl⟩ := List.mem_map.mp hl
  exact sec_blocks16 s b hb

theorem MmAlt.cons {sec : MmSec} {secs : List MmSec} {rle : Bool} (h : sec.isRep = rle) (ha : MmAlt (!rle) secs) :
    MmAlt rle (sec :: secs) := by
  subst h
  cases sec <;> exact ha

theorem loop_conv_mm {cap e : Nat} : ∀ (fuel : Nat) (s : MDec) (T : Nat → List Byte) (m' : Mem), Tabs s.h T → s.o ≤ cap →
    loop (dcStep cap e) fuel s = some (some m') →
    ∃ (secs : List MmSec) (wide : Bool) (tail rest t : List Byte), MmAlt s.rle secs ∧ (∀ x ∈ secs, x.ok) ∧
      s.src = secsBytes secs ++ mmEnd wide ++ tail ++ rest ∧ MmText T (secsBlocks secs).flatten tail t ∧ s.o + t.length = e ∧
      e ≤ cap ∧ m' = wrL s.m s.o t
  | 0, s, T, m', _, _, h => by simp [loop] at h
  | fuel + 1, s, T, m', H, ho, h => by
    rw [loop] at h
    cases hst : dcStep cap e s with
    | inl s' =>
      rw [hst] at h
      simp only at h
      obtain ⟨sec, r, hh, os, a1, a2, a3, a4, a5, a6, a7⟩ := step_conv_mm hst
      obtain ⟨h2, os2, b1, b2, b3, b4⟩ := dec_blocks sec.blocks s.h T H (sec_blocks16 sec)
      rw [a4] at b1
      cases b1
      have ho' : s'.o = s.o + os.length := by rw [a7]; rfl
      have hr' : s'.rle = !s.rle := by rw [a7]
      have hs' : s'.src = r := by rw [a7]; rfl
      have hm' : s'.m = wrL s.m s.o os := by rw [a7]; rfl
      obtain ⟨secs, wide, tail, rest, t, c1, c2, c3, c4, c5, c6, c7⟩ := loop_conv_mm fuel s' _ m' (b4.same a6)
        (by rw [ho']; exact a5 ho) h
      rw [hr'] at c1
      rw [hs'] at c3
      rw [ho'] at c5 c7
      rw [hm'] at c7
      have hfl := flat_len16 _ (sec_blocks16 sec)
      have hI : (secsBlocks (sec :: secs)).flatten = sec.blocks.flatten ++ (secsBlocks secs).flatten := by
        simp [secsBlocks]
      refine ⟨sec :: secs, wide, tail, rest, os ++ t, MmAlt.cons a1 c1, ?_, ?_, ?_, ?_, c6, ?_⟩
      · intro x hx
        rcases List.mem_cons.mp hx with rfl | hx
        · exact a2
        · exact c2 x hx
      · rw [a3, c3]; simp [secsBytes]
      · rw [hI]
        obtain ⟨d1, d2, d3⟩ := c4
        have hos : os.length = sec.blocks.flatten.length := by omega
        refine ⟨by simp only [List.length_append]; omega, ?_, ?_⟩
        · intro j hj
          rw [List.length_append, ← hos, List.take_append, List.take_of_length_le (by omega), Nat.add_sub_cancel_left, lane_mul b2 j,
            lane_mul hfl j, unmtf_app, b3 j hj, d2 j hj]
        · intro i hi
          obtain ⟨f1, f2⟩ := d3 i hi
          refine ⟨f1, ?_⟩
          rw [lane_mul hfl, unmtfAfter_app, ← f2, List.length_append, ← hos, Nat.add_assoc, getD_append_r (by omega),
            Nat.add_sub_cancel_left]
      · rw [List.length_append]; omega
      · rw [c7, wrL_append]
    | inr o =>
      rw [hst] at h
      simp only [Option.some.injEq] at h
      subst h
      obtain ⟨a1, a2, wide, r, t, a3, a4, a5, a6⟩ := end_conv_mm hst
      obtain ⟨tail, rest, b1, b2, b3, b4⟩ := tail_conv H _ _ _ _ a4
      refine ⟨[], wide, tail, rest, t, by rw [a1]; trivial, by simp, by rw [a3, b1]; simp [secsBytes], ?_, by omega, by omega, a6⟩
      refine ⟨by simp [secsBlocks]; omega, fun j _ => rfl, ?_⟩
      intro i hi
      have := b4 i (by omega)
      rw [Nat.zero_add] at this
      simp only [secsBlocks, List.map_nil, List.flatten_nil, List.length_nil, Nat.zero_add]
      exact this

theorem loop_fwd_mm {cap e : Nat} : ∀ (secs : List MmSec) (s : MDec) (T : Nat → List Byte) (wide : Bool) (tail rest t : List Byte),
    Tabs s.h T → e ≤ cap → MmAlt s.rle secs → (∀ x ∈ secs, x.ok) → s.src = secsBytes secs ++ mmEnd wide ++ tail ++ rest →
    MmText T (secsBlocks secs).flatten tail t → s.o + t.length = e →
    ∃ k, loop (dcStep cap e) k s = some (some (wrL s.m s.o t))
  | [], s, T, wide, tail, rest, t, H, he, ha, _, hs, ht, ho => by
    obtain ⟨rle, h0, src, o, m⟩ := s
    cases rle with
    | false => exact absurd ha (by simp [MmAlt])
    | true =>
      obtain ⟨d1, _, d3⟩ := ht
      simp only [secsBlocks, List.map_nil, List.flatten_nil, List.length_nil, Nat.zero_add] at d1 d3
      simp only at H hs ho
      have h1 := tail_fwd H tail 0 rest t d1 (by
        intro q hq
        have := d3 q hq
        rw [Nat.zero_add]
        exact this)
      have h2 := end_fwd_mm (cap := cap) (e := e) wide (h0 := h0) (r := tail ++ rest) (t := t) (o := o) (m := m) (by omega)
        (by rw [show e - o = tail.length by omega]; exact h1) (by omega)
      refine ⟨1, ?_⟩
      rw [loop, hs]
      simp only [secsBytes, List.map_nil, List.flatten_nil, List.nil_append, List.append_assoc]
      rw [h2]
  | sec :: secs, s, T, wide, tail, rest, t, H, he, ha, hok, hs, ht, ho => by
    obtain ⟨rle, h0, src, o, m⟩ := s
    simp only at H hs ho
    have hI : (secsBlocks (sec :: secs)).flatten = sec.blocks.flatten ++ (secsBlocks secs).flatten := by
      simp [secsBlocks]
    rw [hI] at ht
    obtain ⟨d1, d2, d3⟩ := ht
    have hrle : sec.isRep = rle ∧ MmAlt (!rle) secs := by
      cases sec <;> cases rle <;> first | exact ⟨rfl, ha⟩ | exact absurd ha (by simp [MmAlt])
    obtain ⟨h2, os, b1, b2, b3, b4⟩ := dec_blocks sec.blocks h0 T H (sec_blocks16 sec)
    have hfl := flat_len16 _ (sec_blocks16 sec)
    have hos : os.length = sec.blocks.flatten.length := by omega
    rw [List.length_append] at d1
    have hle : os.length ≤ t.length := by omega
    have htk : t.take os.length = os := by
      refine lane_ext (L := 16) (by omega) _ _ 0 (by rw [List.length_take]; omega) ?_
      intro j hj
      show lane 16 j _ = lane 16 j _
      have h3 := d2 j hj
      have e1 : t.take (sec.blocks.flatten ++ (secsBlocks secs).flatten).length =
          t.take os.length ++ (t.drop os.length).take (secsBlocks secs).flatten.length := by
        rw [List.length_append, ← hos, List.take_add]
      rw [e1, lane_mul (k := sec.blocks.length) (by rw [List.length_take]; omega), lane_mul hfl, unmtf_app] at h3
      have h4 := congrArg (List.take (lane 16 j os).length) h3
      have hl1 : ∀ (k : Nat) (a : List Byte), a.length = 16 * k → (lane 16 j a).length = k := by
        intro k
        induction k with
        | zero => intro a ha; rw [List.eq_nil_of_length_eq_zero (by omega : a.length = 0)]; rfl
        | succ k ih =>
          intro a ha
          rw [← List.take_append_drop 16 a, lane_block (by rw [List.length_take]; omega) hj, List.length_cons,
            ih _ (by rw [List.length_drop]; omega)]
      have l1 := hl1 sec.blocks.length os b2
      have l2 := hl1 sec.blocks.length (t.take os.length) (by rw [List.length_take]; omega)
      rw [← b3 j hj] at h4
      have l3 : (lane 16 j os).length = (lane 16 j (t.take os.length)).length := by omega
      have e2 : ∀ (a b : List Byte) (n : Nat), n = a.length → (a ++ b).take n = a := by
        intro a b n hn
        rw [hn, List.take_left]
      rw [e2 _ _ _ l3, e2 _ _ _ rfl] at h4
      exact h4
    have hte : t = os ++ t.drop os.length := by
      conv => lhs; rw [← List.take_append_drop os.length t, htk]
    obtain ⟨h3, c1, c2⟩ := (sec_of sec (hok sec (by simp))).2 cap e h0 (secsBytes secs ++ mmEnd wide ++ tail ++ rest) o m h2 os b1 (by omega)
    rw [hrle.1] at c2
    have htx : MmText (fun j => unmtfAfter (T j) (lane 16 j sec.blocks.flatten)) (secsBlocks secs).flatten tail (t.drop os.length) := by
      refine ⟨by rw [List.length_drop]; omega, ?_, ?_⟩
      · intro j hj
        have h3 := d2 j hj
        have e1 : t.take (sec.blocks.flatten ++ (secsBlocks secs).flatten).length =
            os ++ (t.drop os.length).take (secsBlocks secs).flatten.length := by
          rw [List.length_append, ← hos, List.take_add, htk]
        rw [e1, lane_mul b2, lane_mul hfl, unmtf_app, b3 j hj] at h3
        exact List.append_cancel_left h3
      · intro i hi
        obtain ⟨f1, f2⟩ := d3 i hi
        refine ⟨f1, ?_⟩
        rw [lane_mul hfl, unmtfAfter_app, List.length_append, ← hos, Nat.add_assoc] at f2
        rw [← f2]
        rw [List.getD_eq_getElem?_getD, List.getElem?_drop, List.getD_eq_getElem?_getD]
    obtain ⟨k, hk⟩ := loop_fwd_mm (cap := cap) (e := e) secs ⟨!rle, h3, secsBytes secs ++ mmEnd wide ++ tail ++ rest, o + os.length, wrL m o os⟩
      _ wide tail rest _ (b4.same c1) he hrle.2 (fun x hx => hok x (by simp [hx])) rfl htx
      (by show o + os.length + _ = e; rw [List.length_drop]; omega)
    refine ⟨k + 1, ?_⟩
    rw [loop, hs, show secsBytes (sec :: secs) ++ mmEnd wide ++ tail ++ rest = sec.bytes ++ (secsBytes secs ++ mmEnd wide ++ tail ++ rest) by
      simp [secsBytes], c2]
    simp only [hk, wrL_append]
    rw [← hte]

end Hrk
