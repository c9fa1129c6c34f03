import Verif.ShWords

/-
C27 and C28 for rle8_sh, on arbitrary byte strings: decompression gives what the string spells, and leaves
its buffers exactly when the string spells nothing or too much.
-/

namespace Hrk

theorem bitsFromEnd_eq (src : List Byte) (len : Nat) (h : len ≤ src.length) : bitsFromEnd src len = lowBits src len := by
  have := lowBits_append (src.take len) (src.drop len)
  rw [List.take_append_drop, List.length_take, Nat.min_eq_left h] at this
  exact this.symm

theorem bitsFromEnd_append (src tail : List Byte) (len : Nat) (h : len ≤ src.length) :
    bitsFromEnd (src ++ tail) len = bitsFromEnd src len := by
  unfold bitsFromEnd
  rw [List.take_append_of_le_length h]

theorem ShSpells.append {src t : List Byte} {len : Nat} (h : ShSpells src len t) (hl : len ≤ src.length) (h8 : 8 ≤ src.length)
    (tail : List Byte) : ShSpells (src ++ tail) len t := by
  obtain ⟨ws, h1, h2, ⟨rest, h3⟩, z, h4, h5⟩ := h
  refine ⟨ws, h1, h2, ⟨rest ++ tail, ?_⟩, z, h4, ?_⟩
  · rw [List.drop_append_of_le_length h8, h3]
    simp
  · rw [bitsFromEnd_append _ _ _ hl, h5]

theorem ShSpells.len_pos {src t : List Byte} {len : Nat} (h : ShSpells src len t) : 0 < len := by
  obtain ⟨ws, _, _, _, z, h4, h5⟩ := h
  rcases Nat.eq_zero_or_pos len with rfl | h
  · have := congrArg List.length h5
    simp [bitsFromEnd, shEndBits] at this
  · exact h

/-- The first bits. -/
theorem sh_start (src : List Byte) (len : Nat) (h0 : 0 < len) (hread : len ≤ src.length) :
    ∃ b, src[len - 1]? = some b ∧ HOk src ⟨b.toNat, 8, len - 1⟩ ∧
      hbits src ⟨b.toNat, 8, len - 1⟩ = bitsFromEnd src len := by
  obtain ⟨b, hb⟩ : ∃ b, src[len - 1]? = some b := ⟨_, List.getElem?_eq_getElem (by omega)⟩
  refine ⟨b, hb, ⟨UInt8.toNat_lt b, Nat.le_refl _, by show 8 ≤ 16; omega, by show len - 1 ≤ _; omega⟩, ?_⟩
  rw [bitsFromEnd_eq _ _ hread]
  obtain ⟨p, rfl⟩ : ∃ p, len = p + 1 := ⟨len - 1, by omega⟩
  show patBits b.toNat 8 ++ lowBits src p = lowBits src (p + 1)
  rw [lowBits, byteBits]
  rw [Nat.add_sub_cancel] at hb
  rw [List.getD_eq_getElem?_getD, hb]
  rfl

theorem spells_loop {src t : List Byte} {len cap : Nat} (h : ShSpells src len t) (hread : len ≤ src.length)
    (hcap : t.length ≤ cap) {b : Byte} (hb : src[len - 1]? = some b) (m : Mem) :
    ∃ k, loop (shStep src cap) k ⟨⟨b.toNat, 8, len - 1⟩, 0x7F, shSt0, src.drop 8, 0, m⟩ = some (some (wrL m 0 t)) := by
  obtain ⟨b', hb', H, h0⟩ := sh_start src len h.len_pos hread
  rw [hb] at hb'
  cases hb'
  obtain ⟨ws, h1, h2, ⟨rest, h3⟩, z, h4, h5⟩ := h
  have := loop_fwd (full := src) (cap := cap) ws (s := ⟨⟨b.toNat, 8, len - 1⟩, 0x7F, shSt0, src.drop 8, 0, m⟩) H
    ⟨h1, by show 0 + (wordsOut shCtx0 ws).length ≤ _; rw [h2]; omega, ⟨rest, h3⟩, z, h4, by rw [h0]; exact h5⟩
  obtain ⟨k, hk⟩ := this
  exact ⟨k, by rw [hk, ← h2]; rfl⟩

/-- C27, rle8_sh, for every byte string and all sizes that pass the guards: the call returns the size in the
header and writes the bytes the string spells, if it spells bytes the output has room for; if it does not,
the call leaves its buffers (C28). There is only one decoder for this codec. -/
theorem C27_sh_meaning (src : List Byte) (x len : Nat) (r : List Byte) (hx : x < 4294967296) (hlen : len < 4294967296)
    (hsrc : src = le32 x ++ le32 len ++ r) (a : DArgs) (m : Mem) (hpi : a.pIn = some src) (hpo : a.pOut = some m)
    (h0 : 0 < a.inSize) (ho : 0 < a.outSize) (hin : len ≤ a.inSize) (hout : x ≤ a.outSize) (hread : len ≤ src.length) :
    (∃ t, ShSpells src len t ∧ t.length ≤ a.cap ∧ shDecompress a = .ok x (wrL m 0 t)) ∨
    ((∀ t, ShSpells src len t → a.cap < t.length) ∧ shDecompress a = .ub) := by
  have hd8 : src.drop 8 = r := by rw [hsrc]; rfl
  by_cases hz : len = 0
  · refine Or.inr ⟨fun t ht => absurd ht.len_pos (by omega), ?_⟩
    unfold shDecompress
    rw [hpi, hpo, hsrc]
    simp only
    rw [if_neg (by omega)]
    simp only [List.append_assoc, rdU32_le32, Nat.mod_eq_of_lt hx, Nat.mod_eq_of_lt hlen]
    rw [if_neg (by omega), if_pos hz]
  obtain ⟨b, hb, H, hbits0⟩ := sh_start src len (by omega) hread
  have heq : shDecompress a = match loop (shStep src a.cap) (8 * len + 1) ⟨⟨b.toNat, 8, len - 1⟩, 0x7F, shSt0, r, 0, m⟩ with
      | none => .hang
      | some none => .ub
      | some (some m') => .ok x m' := by
    unfold shDecompress
    rw [hpi, hpo]
    simp only
    rw [if_neg (by omega)]
    rw [show rdU32 src = some (x, le32 len ++ r) by
      rw [hsrc, List.append_assoc, rdU32_le32, Nat.mod_eq_of_lt hx]]
    simp only [rdU32_le32, Nat.mod_eq_of_lt hlen]
    rw [if_neg (by omega), if_neg hz, hb]
    rfl
  obtain ⟨q, hq⟩ := shLoop_some src a.cap ⟨⟨b.toNat, 8, len - 1⟩, 0x7F, shSt0, r, 0, m⟩ (Nat.le_refl _) (8 * len + 1)
    (by show 8 + 8 * (len - 1) < _; omega)
  rw [hq] at heq
  cases q with
  | some m' =>
    obtain ⟨ws, ⟨g1, g2, ⟨rest, g3⟩, z, g4, g5⟩, g6⟩ := loop_conv _ H (by show 0 ≤ a.cap; omega) hq
    refine Or.inl ⟨wordsOut shCtx0 ws, ⟨ws, g1, rfl, ⟨rest, ?_⟩, z, g4, ?_⟩, ?_, ?_⟩
    · rw [hd8]; exact g3
    · rw [← hbits0]; exact g5
    · have g2 : 0 + (wordsOut shCtx0 ws).length ≤ a.cap := g2
      omega
    · rw [heq, g6]; rfl
  | none =>
    refine Or.inr ⟨fun t ht => ?_, heq⟩
    rcases Nat.lt_or_ge a.cap t.length with h | h
    · exact h
    · exfalso
      obtain ⟨k, hk⟩ := spells_loop ht hread h hb m
      rw [hd8] at hk
      have f1 := loop_mono _ (max (8 * len + 1) k) _ _ hq (by omega)
      have f2 := loop_mono _ (max (8 * len + 1) k) _ _ hk (by omega)
      rw [f1] at f2
      cases f2

/-- A byte string spells at most one thing. -/
theorem C27_sh_unique (src : List Byte) (len : Nat) (t t' : List Byte) (hread : len ≤ src.length)
    (h : ShSpells src len t) (h' : ShSpells src len t') : t = t' := by
  obtain ⟨b, hb, _, _⟩ := sh_start src len h.len_pos hread
  have key : ∀ m, wrL m 0 t = wrL m 0 t' := by
    intro m
    obtain ⟨k, hk⟩ := spells_loop h hread (Nat.le_max_left t.length t'.length) hb m
    obtain ⟨k', hk'⟩ := spells_loop h' hread (Nat.le_max_right t.length t'.length) hb m
    have f1 := loop_mono _ (max k k') _ _ hk (by omega)
    have f2 := loop_mono _ (max k k') _ _ hk' (by omega)
    rw [f1] at f2
    exact Option.some.inj (Option.some.inj f2)
  have long : ∀ {u v : List Byte}, (∀ m, wrL m 0 u = wrL m 0 v) → v.length ≤ u.length := by
    intro u v hk
    rcases Nat.lt_or_ge u.length v.length with hlt | hge
    · exfalso
      have := congrFun (hk fun _ => v.getD u.length 0 + 1) u.length
      have e2 := wrL_in (m := fun _ => v.getD u.length 0 + 1) (a := 0) (l := v) (k := u.length) hlt
      rw [Nat.zero_add] at e2
      rw [wrL_out (by omega), e2] at this
      generalize v.getD u.length 0 = y at this
      revert this
      exact byte_forall (P := fun y => y + 1 = y → False) (by decide +kernel) y
    · exact hge
  have l1 := long key
  have l2 := long fun m => (key m).symm
  apply List.ext_getElem (by omega)
  intro i h1 h2
  have := congrFun (key fun _ => 0) i
  have e1 := wrL_in (m := fun _ => 0) (a := 0) (l := t) (k := i) h1
  have e2 := wrL_in (m := fun _ => 0) (a := 0) (l := t') (k := i) h2
  rw [Nat.zero_add] at e1 e2
  rw [e1, e2, getD_of_lt _ _ h1, getD_of_lt _ _ h2] at this
  exact this

/-- What `rle8_sh_compress` returns spells its input. -/
theorem C27_sh_written (m0 inp : Mem) (n outSize ret : Nat) (out : List Byte) (h0 : 0 < n) (hn' : n < 4294967296)
    (ho : outSize < 4294967296) (hc : shCompress m0 (some inp) n true outSize = .ok ret out) :
    ShSpells out out.length (rd inp 0 n) := by
  have hrt := C15_roundtrip m0 inp n outSize ret out h0 (by omega) ho hc
  obtain ⟨r, hout, hl⟩ : ∃ r, out = le32 n ++ le32 out.length ++ r ∧ out.length < 4294967296 := by
    have hb : mmBounds n ≤ outSize := by
      apply Decidable.byContradiction
      intro h
      simp only [shCompress] at hc
      rw [if_pos (.inr (.inr (by omega)))] at hc
      cases hc
    rw [shCompress_eq m0 inp h0 hb ho] at hc
    split at hc
    · cases hc
      rw [shStream_length]
      exact ⟨shData inp n ++ (packs (shBitsE inp n)).reverse, by rw [shStream]; simp, by omega⟩
    · cases hc
  have key : ∀ m : Mem, ∃ t, ShSpells out out.length t ∧ t.length ≤ n ∧ ∀ k, k < n → wrL m 0 t k = inp k := by
    intro m
    obtain ⟨m', e1, e2, _⟩ := hrt [] m ⟨some out, out.length, some m, n, n, 0, 0⟩ (by simp) (Nat.le_refl _) rfl (Nat.le_refl _)
      (Nat.le_refl _)
    rcases C27_sh_meaning out n out.length r hn' hl hout ⟨some out, out.length, some m, n, n, 0, 0⟩ m rfl rfl
      (by show 0 < out.length; rw [hout]; simp) h0 (Nat.le_refl _) (Nat.le_refl _) (Nat.le_refl _) with
      ⟨t, f1, f2, f3⟩ | ⟨_, f3⟩
    · rw [f3] at e1
      cases e1
      exact ⟨t, f1, f2, e2⟩
    · rw [f3] at e1
      cases e1
  obtain ⟨t, f1, f2, f3⟩ := key fun k => inp k + 1
  have hlen : t.length = n := by
    rcases Nat.lt_or_ge t.length n with hlt | hge
    · exfalso
      have := f3 t.length hlt
      rw [wrL_out (by omega)] at this
      generalize inp t.length = y at this
      revert this
      exact byte_forall (P := fun y => y + 1 = y → False) (by decide +kernel) y
    · omega
  have : t = rd inp 0 n := by
    apply List.ext_getElem (by rw [rd_length, hlen])
    intro i h1 h2
    have := f3 i (by omega)
    have e1 := wrL_in (m := fun k => inp k + 1) (a := 0) (l := t) (k := i) h1
    rw [Nat.zero_add] at e1
    rw [e1, getD_of_lt _ _ h1] at this
    rw [this, rd_getElem, Nat.zero_add]
  rw [← this]
  exact f1

/-- C28 for rle8_sh on every byte string that spells as many bytes as its header says: nothing outside the
stream is read and nothing outside `outSize` bytes is written, whatever sizes the caller passes and whatever
follows the stream. Missing: the other byte strings, on which `C27_sh_meaning` shows that the buffers are
left exactly if nothing is spelled or too much (`C28_sh_violated`). -/
theorem C28_sh_partial (src t r : List Byte) (len : Nat) (hsrc : src = le32 t.length ++ le32 len ++ r)
    (ht : t.length < 4294967296) (hlen : len < 4294967296) (hread : len ≤ src.length) (h : ShSpells src len t)
    (tail : List Byte) (a : DArgs) (hpi : a.pIn = some (src ++ tail)) (hcap : a.outSize ≤ a.cap) :
    shDecompress a ≠ .ub := by
  obtain ⟨g1, g2⟩ := C25_sh_guards
  have fail : shDecompress a = .fail → shDecompress a ≠ .ub := by intro h; rw [h]; simp
  cases hpo : a.pOut with
  | none => exact fail (g1 a (Or.inr (Or.inl hpo)))
  | some m =>
    by_cases z1 : a.inSize = 0
    · exact fail (g1 a (Or.inr (Or.inr (Or.inl z1))))
    · by_cases z2 : a.outSize = 0
      · exact fail (g1 a (Or.inr (Or.inr (Or.inr z2))))
      · have hsrc' : src ++ tail = le32 t.length ++ le32 len ++ (r ++ tail) := by rw [hsrc]; simp
        by_cases z3 : a.outSize < t.length
        · exact fail (g2 a _ _ _ ht hlen (by rw [hpi, hsrc']) (Or.inl z3))
        · by_cases z4 : a.inSize < len
          · exact fail (g2 a _ _ _ ht hlen (by rw [hpi, hsrc']) (Or.inr z4))
          · rcases C27_sh_meaning (src ++ tail) t.length len (r ++ tail) ht hlen hsrc' a m hpi hpo (by omega) (by omega)
              (by omega) (by omega) (by rw [List.length_append]; omega) with ⟨_, _, _, h3⟩ | ⟨h3, _⟩
            · rw [h3]; simp
            · have := h3 t (h.append hread (by rw [hsrc]; simp; omega) tail)
              omega

/-- The hypotheses of `C28_sh_partial` can be met: the stream below, which no compressor writes (it spells the
run symbol out), spells the 16 bytes its header announces. -/
example : ∃ src t r len, src = le32 t.length ++ le32 len ++ r ∧ t.length < 4294967296 ∧ len < 4294967296 ∧
    len ≤ src.length ∧ ShSpells src len t ∧ t.length = 16 := by
  refine ⟨[16, 0, 0, 0, 17, 0, 0, 0] ++ [0x7F, 0, 0, 0, 0, 0, 0, 0xFD, 0xBD], 0x7F :: (List.replicate 14 0x7F ++ [0x80]),
    [0x7F, 0, 0, 0, 0, 0, 0, 0xFD, 0xBD], 17, by decide +kernel, by decide, by decide, by decide,
    ⟨[.mark (.lit 0x7F), .run 0, .mark .second], ?_, by decide +kernel, ⟨[0, 0xFD, 0xBD], by decide +kernel⟩, ?_⟩, rfl⟩
  · intro w hw
    simp at hw
    rcases hw with rfl | rfl | rfl <;> trivial
  · refine ⟨(bitsFromEnd ([16, 0, 0, 0, 17, 0, 0, 0] ++ [0x7F, 0, 0, 0, 0, 0, 0, 0xFD, 0xBD]) 17).drop 17, by decide +kernel, by decide +kernel⟩

end Hrk
