import Verif.MmTightInv

/-
How rle8_mmtf128 chooses its sections: the last section, and that a stream has one reading only.
-/

namespace Hrk

/-- The last section, and the one behind it if there has to be one. -/
theorem meFinish_tight {inp : Mem} {n i : Nat} {junk : Vec} {s : MEnc} {W X Y : List Byte} {hc : Nat → Vec} {xs : List (List Byte)}
    {secs : List MmSec} (H : EInv inp n s i W X Y hc xs) (T : SecInv junk s W xs secs) (hi : i ≤ 268435456) {tail V : List Byte}
    (h1 : (meFinish s tail).2 = 8 + (V ++ [0] ++ mtfTailEnc s.hist 0 tail).length)
    (h2 : rd (meFinish s tail).1.m 0 (meFinish s tail).2 =
        le32 n ++ le32 (meFinish s tail).2 ++ (V ++ [0] ++ mtfTailEnc s.hist 0 tail)) :
    ∃ secs', secsBytes secs' = V ∧ Secs junk secs' ∧ MmAlt false secs' := by
  have hlen := H.len
  have hlast := H.last
  have hV8 : rd (meFinish s tail).1.m 8 V.length = V := by
    generalize (meFinish s tail).2 = z at h1 h2
    generalize (meFinish s tail).1.m = M at h2 ⊢
    generalize mtfTailEnc s.hist 0 tail = t at h1 h2
    rw [show z = 8 + (V.length + (1 + t.length)) by
        rw [h1, List.length_append, List.length_append, List.length_singleton, Nat.add_assoc], rd_cat, rd_cat] at h2
    have h3 := (List.append_inj h2 (by rw [rd_length]; rfl)).2
    rw [List.append_assoc V] at h3
    have h4 := (List.append_inj h3 (by rw [rd_length])).1
    rwa [Nat.zero_add] at h4
  by_cases hcp : s.copying = true
  · obtain ⟨hp, hrd, hmask, hW⟩ := H.copy hcp
    obtain ⟨V1, hV1⟩ := closeCopy_spec (b := s.b) H.blocks H.count hrd hmask (by omega)
    rw [← hp] at hV1
    obtain ⟨k1, k2, k3⟩ := hV1.keep hlast H.here H.hdr
    obtain ⟨secs', a1, a2, a3, -⟩ := T.close_copy H hcp hV1
    refine ⟨secs', ?_, a2, a3⟩
    rw [a1]
    unfold meFinish at h1 hV8
    simp only [hcp, if_true] at h1 hV8
    generalize closeCopy s.b s.last s.pOut s.count s.mask = c at *
    generalize mtfTailEnc s.hist 0 tail = t at *
    simp only [List.length_append, List.length_singleton] at h1
    have w1 := Wrote.put c.1 c.2 [0]
    have w2 := Wrote.put (c.1.put c.2 [0]) (c.2 + 1) t
    have w3 := Wrote.put ((c.1.put c.2 [0]).put (c.2 + 1) t) 4 (le32 (c.2 + 1 + t.length))
    refine eq_of_rd (by rw [List.length_append] at k3 ⊢; omega) ?_ hV8
    rw [rd_congr (m₂ := c.1.m) (fun j _ h => by
      rw [w3.rest j (by rw [le32_length]; omega), w2.rest j (by omega), w1.rest j (by omega)]), k1]
  · have hcf : s.copying = false := by simpa using hcp
    obtain ⟨hc1, hxs, hW⟩ := H.rle hcf
    obtain ⟨V1, hV1⟩ := closeRle_spec (b := s.b) (last := s.last) s.symbol hc1 (by omega)
    obtain ⟨k1, k2, k3⟩ := hV1.keep hlast H.here H.hdr
    obtain ⟨wide, a1, a2, a3⟩ := T.close_rep hcf hc1 hV1
    obtain ⟨b1, b2⟩ := a2.empty
    refine ⟨_, ?_, b2, a3 _ _ _ _⟩
    rw [b1, a1]
    unfold meFinish at h1 hV8
    simp only [hcf, Bool.false_eq_true, if_false] at h1 hV8
    generalize closeRle s.b s.last s.count s.symbol = c at *
    generalize mtfTailEnc s.hist 0 tail = t at *
    simp only [List.length_append, List.length_singleton] at h1
    have w1 := Wrote.put c.1 c.2 [0]
    have w2 := Wrote.put (c.1.put c.2 [0]) (c.2 + 1) [0]
    have w3 := Wrote.put ((c.1.put c.2 [0]).put (c.2 + 1) [0]) (c.2 + 2) t
    have w4 := Wrote.put (((c.1.put c.2 [0]).put (c.2 + 1) [0]).put (c.2 + 2) t) 4 (le32 (c.2 + 2 + t.length))
    refine eq_of_rd (by rw [List.length_append] at k3; rw [List.length_append, List.length_append, List.length_singleton]; omega) ?_ hV8
    have e : rd (c.1.put c.2 [0]).m 8 (W ++ V1 ++ [0]).length = W ++ V1 ++ [0] := by
      rw [List.length_append, rd_cat, k3, w1.here, rd_congr (m₂ := c.1.m) (fun j _ h => w1.rest j (by omega)), k1]
    rw [rd_congr (m₂ := (c.1.put c.2 [0]).m) (fun j _ h => by
      rw [List.length_append, List.length_singleton] at h
      rw [w4.rest j (by rw [le32_length]; omega), w3.rest j (by omega), w2.rest j (by omega)]), e]

/-! ### One reading -/

theorem le32_pre {a b : Nat} {r r' : List Byte} (ha : a < 4294967296) (hb : b < 4294967296) (h : le32 a ++ r = le32 b ++ r') :
    a = b ∧ r = r' := by
  have h1 := congrArg rdU32 h
  rw [rdU32_le32, rdU32_le32, Nat.mod_eq_of_lt ha, Nat.mod_eq_of_lt hb] at h1
  simpa using h1

theorem b8_pre {a b : Nat} {r r' : List Byte} (ha : a < 256) (hb : b < 256) (h : [b8 a] ++ r = [b8 b] ++ r') : a = b ∧ r = r' := by
  have h1 := List.cons.inj h
  exact ⟨(b8_inj ha hb).mp h1.1, h1.2⟩

theorem mixed_pre {a b : Nat} {r r' : List Byte} (ha : a % 2 = 1) (hb : b % 2 = 0) (h : le32 a ++ r = [b8 b] ++ r') : False := by
  have h1 : b8 a = b8 b := (List.cons.inj h).1
  have h2 := congrArg UInt8.toNat h1
  rw [b8_toNat, b8_toNat] at h2
  omega

theorem code_lt (k : MmKind) : k.code < 7 ∧ k.code % 2 = 0 := by cases k <;> decide

theorem sec_pre {x y : MmSec} (hx : x.ok) (hy : y.ok) (hr : x.isRep = y.isRep) {r r' : List Byte} (h : x.bytes ++ r = y.bytes ++ r') :
    x = y ∧ r = r' := by
  cases x with
  | copy w k c b =>
    cases y with
    | rep => cases hr
    | copy w' k' c' b' =>
      have u1 := code_lt k
      have u2 := code_lt k'
      simp only [MmSec.bytes, List.append_assoc] at h
      obtain ⟨x1, x2⟩ := hx
      obtain ⟨y1, y2⟩ := hy
      have key : w = w' ∧ 8 * c + k.code = 8 * c' + k'.code ∧ b ++ r = b' ++ r' := by
        cases w <;> cases w' <;> simp only [if_true, Bool.false_eq_true, if_false] at h x1 y1
        · exact ⟨rfl, b8_pre (by omega) (by omega) h⟩
        · exact (mixed_pre (by omega) (by omega) h.symm).elim
        · exact (mixed_pre (by omega) (by omega) h).elim
        · obtain ⟨e1, e2⟩ := le32_pre (by omega) (by omega) h
          exact ⟨rfl, by omega, e2⟩
      obtain ⟨rfl, e1, e2⟩ := key
      have e3 : c = c' := by omega
      subst e3
      have e4 : k = k' := by
        have : k.code = k'.code := by omega
        cases k <;> cases k' <;> first | rfl | (simp [MmKind.code] at this)
      subst e4
      obtain ⟨e5, e6⟩ := List.append_inj e2 (x2.trans y2.symm)
      rw [e5]
      exact ⟨rfl, e6⟩
  | rep w c i =>
    cases y with
    | copy => cases hr
    | rep w' c' i' =>
      simp only [MmSec.bytes, List.append_assoc] at h
      obtain ⟨x1, x2⟩ := hx
      obtain ⟨y1, y2⟩ := hy
      have key : w = w' ∧ c = c' ∧ [i] ++ r = [i'] ++ r' := by
        cases w <;> cases w' <;> simp only [if_true, Bool.false_eq_true, if_false] at h x2 y2
        · obtain ⟨e1, e2⟩ := b8_pre (by omega) (by omega) h
          exact ⟨rfl, by omega, e2⟩
        · exact (mixed_pre (by omega) (by omega) h.symm).elim
        · exact (mixed_pre (by omega) (by omega) h).elim
        · obtain ⟨e1, e2⟩ := le32_pre (by omega) (by omega) h
          exact ⟨rfl, by omega, e2⟩
      obtain ⟨rfl, rfl, e⟩ := key
      obtain ⟨e1, e2⟩ := List.cons.inj e
      rw [e1]
      exact ⟨rfl, e2⟩

theorem end_rep {w w' : Bool} {c : Nat} {i : Byte} {r r' : List Byte} (hok : (MmSec.rep w' c i).ok) (h : mmEnd w ++ r = (MmSec.rep w' c i).bytes ++ r') :
    False := by
  obtain ⟨x1, x2⟩ := hok
  simp only [MmSec.bytes, List.append_assoc, mmEnd] at h
  cases w <;> cases w' <;> simp only [if_true, Bool.false_eq_true, if_false] at h x2
  · have := (b8_pre (a := 0) (by omega) (by omega) h).1
    omega
  · exact mixed_pre (b := 0) (by omega) (by omega) h.symm
  · exact mixed_pre (by omega) (by omega) h
  · have := (le32_pre (by omega) (by omega) h).1
    omega

theorem end_end {w w' : Bool} {r r' : List Byte} (h : mmEnd w ++ r = mmEnd w' ++ r') : w = w' ∧ r = r' := by
  cases w <;> cases w' <;> simp only [mmEnd, if_true, Bool.false_eq_true, if_false] at h
  · exact ⟨rfl, (List.cons.inj h).2⟩
  · exact (mixed_pre (b := 0) (by omega) (by omega) h.symm).elim
  · exact (mixed_pre (b := 0) (by omega) (by omega) h).elim
  · exact ⟨rfl, (le32_pre (by omega) (by omega) h).2⟩

theorem secs_pre {w w' : Bool} {r r' : List Byte} : ∀ (q : Bool) (l l' : List MmSec), MmAlt q l → MmAlt q l' → (∀ x ∈ l, x.ok) → (∀ x ∈ l', x.ok) →
    secsBytes l ++ (mmEnd w ++ r) = secsBytes l' ++ (mmEnd w' ++ r') → l = l' ∧ w = w' ∧ r = r'
  | true, [], [], _, _, _, _, h => ⟨rfl, end_end h⟩
  | true, [], .rep _ _ _ :: l', _, _, _, ho, h => by
    simp only [secsBytes, List.map_nil, List.flatten_nil, List.nil_append, List.map_cons, List.flatten_cons, List.append_assoc] at h
    exact (end_rep (ho _ (by simp)) h).elim
  | true, .rep _ _ _ :: l, [], _, _, ho, _, h => by
    simp only [secsBytes, List.map_nil, List.flatten_nil, List.nil_append, List.map_cons, List.flatten_cons, List.append_assoc] at h
    exact (end_rep (ho _ (by simp)) h.symm).elim
  | true, .rep a b c :: l, .rep a' b' c' :: l', h1, h2, h3, h4, h => by
    simp only [secsBytes, List.map_cons, List.flatten_cons, List.append_assoc] at h
    obtain ⟨e1, e2⟩ := sec_pre (h3 _ List.mem_cons_self) (h4 _ List.mem_cons_self) rfl h
    obtain ⟨e3, e4⟩ := secs_pre false l l' h1 h2 (fun x hx => h3 x (by simp [hx])) (fun x hx => h4 x (by simp [hx])) e2
    rw [e1, e3]
    exact ⟨rfl, e4⟩
  | false, .copy a b c d :: l, .copy a' b' c' d' :: l', h1, h2, h3, h4, h => by
    simp only [secsBytes, List.map_cons, List.flatten_cons, List.append_assoc] at h
    obtain ⟨e1, e2⟩ := sec_pre (h3 _ List.mem_cons_self) (h4 _ List.mem_cons_self) rfl h
    obtain ⟨e3, e4⟩ := secs_pre true l l' h1 h2 (fun x hx => h3 x (by simp [hx])) (fun x hx => h4 x (by simp [hx])) e2
    rw [e1, e3]
    exact ⟨rfl, e4⟩
  | false, [], _, h, _, _, _, _ => absurd h (by simp [MmAlt])
  | false, .rep _ _ _ :: _, _, h, _, _, _, _ => absurd h (by simp [MmAlt])
  | true, .copy _ _ _ _ :: _, _, h, _, _, _, _ => absurd h (by simp [MmAlt])
  | false, .copy _ _ _ _ :: _, [], _, h, _, _, _ => absurd h (by simp [MmAlt])
  | false, .copy _ _ _ _ :: _, .rep _ _ _ :: _, _, h, _, _, _ => absurd h (by simp [MmAlt])
  | true, .rep _ _ _ :: _, .copy _ _ _ _ :: _, _, h, _, _, _ => absurd h (by simp [MmAlt])
  | true, [], .copy _ _ _ _ :: _, _, h, _, _, _ => absurd h (by simp [MmAlt])

end Hrk
