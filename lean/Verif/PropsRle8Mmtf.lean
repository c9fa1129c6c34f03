import Verif.Rle8MmtfEnc

/-
Theorems about rle8_mmtf128.
-/

namespace Hrk

/-- Decoding the index blocks `xs` from a history like `h` gives `Y` and a history like `h'`. -/
def DecTo (h : Nat → Vec) (xs : List (List Byte)) (Y : List Byte) (h' : Nat → Vec) : Prop :=
  ∀ hd, HSame h hd → ∃ hd', decBlocks hd xs = some (hd', Y) ∧ HSame h' hd'

theorem DecTo.nil (h : Nat → Vec) : DecTo h [] [] h := fun hd hs => ⟨hd, rfl, hs⟩

theorem DecTo.snoc {h h' h'' : Nat → Vec} {xs : List (List Byte)} {Y o blk : List Byte} (H : DecTo h xs Y h')
    (hb : ∀ hd, HSame h' hd → ∃ hd', mtfBlock true 1 16 hd o = some (hd', blk) ∧ HSame h'' hd') :
    DecTo h (xs ++ [o]) (Y ++ blk) h'' := by
  intro hd hs
  obtain ⟨hd1, h1, h2⟩ := H hd hs
  obtain ⟨hd2, h3, h4⟩ := hb hd1 h2
  refine ⟨hd2, ?_, h4⟩
  rw [decBlocks_append, h1]
  simp [decBlocks, h3]

/-- The stream so far, `W`, stands for `X`, and leaves a history like `h`. -/
def Reach (W X : List Byte) (h : Nat → Vec) (rle : Bool) : Prop :=
  ∀ (cap e : Nat) (m : Mem) (r : List Byte), X.length ≤ cap → ∃ k hd, k ≤ W.length ∧ HSame h hd ∧
    ∀ fuel, loop (dcStep cap e) (k + fuel) ⟨false, fun r => vset1 (b8 r), W ++ r, 0, m⟩ =
      loop (dcStep cap e) fuel ⟨rle, hd, r, X.length, wrL m 0 X⟩

theorem Reach.nil : Reach [] [] (fun r => vset1 (b8 r)) false := by
  intro cap e m r _
  refine ⟨0, _, Nat.le_refl _, HSame.refl _, fun fuel => ?_⟩
  rw [Nat.zero_add, wrL_nil]
  rfl

theorem Reach.sec {W X V Y : List Byte} {h h' : Nat → Vec} {rle : Bool} {xs : List (List Byte)} (H : Reach W X h rle)
    (hs : Sec rle V xs) (hd : DecTo h xs Y h') : Reach (W ++ V) (X ++ Y) h' (!rle) := by
  intro cap e m r hcap
  rw [List.length_append] at hcap
  obtain ⟨k, hd1, h1, h2, h3⟩ := H cap e m (V ++ r) (by omega)
  obtain ⟨hd2, h4, h5⟩ := hd hd1 h2
  obtain ⟨hd3, h6, h7⟩ := hs.2 cap e hd1 r X.length (wrL m 0 X) hd2 Y h4 hcap
  have hV : 1 ≤ V.length := List.length_pos_iff.mpr hs.1
  refine ⟨k + 1, hd3, by rw [List.length_append]; omega, h5.trans h6, fun fuel => ?_⟩
  rw [Nat.add_assoc, Nat.add_comm 1 fuel, List.append_assoc, h3, loop, h7, List.length_append]
  have := wrL_append m 0 X Y
  rw [Nat.zero_add] at this
  rw [this]

theorem allEq_iff {x : Byte} {o : List Byte} (hl : o.length = 16) : allEq x (vload o) = true ↔ o = List.replicate 16 x := by
  unfold allEq
  rw [beq_iff_eq]
  have h1 := movemask_full 16 (veq (vload o) (vset1 x))
  rw [show (65535 : Nat) = 2 ^ 16 - 1 from rfl, h1]
  have h2 : ∀ j, j < 16 → (veq (vload o) (vset1 x) j ≥ 128 ↔ o.getD j 0 = x) := by
    intro j _
    unfold veq vload vset1
    by_cases h : o.getD j 0 = x
    · simp only [h, if_true, iff_true]; decide
    · simp only [h, if_false, iff_false]; decide
  constructor
  · intro h
    apply List.ext_getElem (by simp [hl])
    intro j hj hj'
    rw [List.getElem_replicate, ← getD_of_lt _ _ hj]
    exact (h2 j (by omega)).mp (h j (by omega))
  · rintro rfl j hj
    rw [h2 j hj, getD_of_lt _ _ (by simpa using hj), List.getElem_replicate]

theorem noneAbove_iff {hi : Byte} {v : Vec} : noneAbove hi v = true ↔ ∀ j, j < 16 → hi &&& v j = 0 := by
  unfold noneAbove
  rw [beq_iff_eq]
  have h1 := movemask_full 16 (veq vzero (vand (vset1 hi) v))
  rw [show (65535 : Nat) = 2 ^ 16 - 1 from rfl, h1]
  have h2 : ∀ j, j < 16 → (veq vzero (vand (vset1 hi) v) j ≥ 128 ↔ hi &&& v j = 0) := by
    intro j _
    unfold veq vzero vand vset1
    by_cases h : hi &&& v j = 0
    · simp [h]
    · rw [if_neg (fun h' => h h'.symm)]
      simp only [h, iff_false]; decide
  exact ⟨fun h j hj => (h2 j hj).mp (h j hj), fun h j hj => (h2 j hj).mpr (h j hj)⟩

theorem byte_and_or_zero (h a b : Byte) (e : h &&& (a ||| b) = 0) : h &&& a = 0 ∧ h &&& b = 0 := by
  rw [byte_and_or] at e
  have e1 := congrArg UInt8.toNat e
  rw [UInt8.toNat_or] at e1
  have e2 := Nat.or_eq_zero_iff.mp e1
  exact ⟨UInt8.toNat.inj e2.1, UInt8.toNat.inj e2.2⟩

theorem OrOk.vload {o : List Byte} (hl : o.length = 16) : OrOk (vload o) o := by
  intro hi h x hx
  rw [noneAbove_iff] at h
  obtain ⟨j, hj, rfl⟩ := List.getElem_of_mem hx
  have := h j (by omega)
  unfold Hrk.vload at this
  rwa [getD_of_lt _ _ hj] at this

theorem OrOk.append {mask : Vec} {idx o : List Byte} (h : OrOk mask idx) (hl : o.length = 16) :
    OrOk (vor mask (Hrk.vload o)) (idx ++ o) := by
  intro hi hn x hx
  rw [noneAbove_iff] at hn
  rcases List.mem_append.mp hx with hx | hx
  · exact h hi (noneAbove_iff.mpr fun j hj => (byte_and_or_zero _ _ _ (hn j hj)).1) x hx
  · exact OrOk.vload hl hi (noneAbove_iff.mpr fun j hj => (byte_and_or_zero _ _ _ (hn j hj)).2) x hx

/-- After `i` blocks: `W` are the closed sections and stand for `X`; the open section stands for `Y`. -/
structure EInv (inp : Mem) (n : Nat) (s : MEnc) (i : Nat) (W X Y : List Byte) (hc : Nat → Vec) (xs : List (List Byte)) :
    Prop where
  good : HGood s.hist
  last : 8 + W.length = s.last
  here : rd s.b.m 8 W.length = W
  hdr : rd s.b.m 0 4 = le32 n
  inp : X ++ Y = rd inp 0 (16 * i)
  len : X.length + 16 * s.count = 16 * i
  reach : Reach W X hc (!s.copying)
  count : xs.length = s.count
  blocks : ∀ x ∈ xs, x.length = 16
  dec : DecTo hc xs Y s.hist
  hi : s.b.hi ≤ 12 + 16 * i
  copy : s.copying = true → s.pOut = s.last + 4 + 16 * s.count ∧ rd s.b.m (s.last + 4) (16 * s.count) = xs.flatten ∧
    OrOk s.mask xs.flatten ∧ W.length ≤ X.length
  rle : s.copying = false → 1 ≤ s.count ∧ xs = List.replicate s.count (List.replicate 16 s.symbol) ∧ W.length ≤ 4 + X.length

theorem EInv.init (junk : Vec) (m inp : Mem) (n : Nat) :
    EInv inp n (meInit junk m n) 0 [] [] [] (fun r => vset1 (b8 r)) [] where
  good := hinit_good
  last := rfl
  here := by simp
  hdr := rd_wrL_same m 0 (le32 n)
  inp := by simp
  len := rfl
  reach := Reach.nil
  count := rfl
  blocks := by simp
  dec := DecTo.nil _
  hi := by show max 0 (0 + 4) ≤ _; omega
  copy := fun _ => ⟨rfl, by simp [meInit], (by intro _ _ x hx; cases hx), Nat.le_refl _⟩
  rle := by intro h; cases h

/-- Closing a section keeps what was there. -/
theorem SecClosed.keep {b b' : Buf} {last pOut lim : Nat} {rle : Bool} {V W : List Byte} {xs : List (List Byte)}
    (H : SecClosed b b' last pOut rle V xs lim) (hl : 8 + W.length = last) (hh : rd b.m 8 W.length = W) {n : Nat}
    (hn : rd b.m 0 4 = le32 n) :
    rd b'.m 8 (W ++ V).length = W ++ V ∧ rd b'.m 0 4 = le32 n ∧ 8 + (W ++ V).length = pOut := by
  refine ⟨?_, ?_, ?_⟩
  · rw [List.length_append, rd_cat, hl, H.here, rd_congr (m₂ := b.m) (fun j _ h => H.rest j (by omega)), hh]
  · rw [rd_congr (m₂ := b.m) (fun j _ h => H.rest j (by omega)), hn]
  · rw [H.pOut_eq, List.length_append]; omega

theorem EInv.step {inp : Mem} {n : Nat} {s : MEnc} {i : Nat} {W X Y : List Byte} {hc : Nat → Vec} {xs : List (List Byte)}
    (H : EInv inp n s i W X Y hc xs) (hi : i < 268435456) :
    ∃ h o, mtfBlock false 1 16 s.hist (rd inp (16 * i) 16) = some (h, o) ∧
      ∃ W' X' Y' hc' xs', EInv inp n (meOut s h o) (i + 1) W' X' Y' hc' xs' := by
  obtain ⟨h, o, hb, hol, hgood, hback⟩ := block_rt H.good (blk := rd inp (16 * i) 16) (by simp)
  refine ⟨h, o, hb, ?_⟩
  have hlen := H.len
  have hlast := H.last
  have hhi := H.hi
  have hinp : rd inp 0 (16 * (i + 1)) = X ++ Y ++ rd inp (16 * i) 16 := by
    rw [H.inp, Nat.mul_add, Nat.mul_one, rd_cat, Nat.zero_add]
  have hYl : Y.length = 16 * s.count := by
    have := congrArg List.length H.inp
    rw [List.length_append, rd_length] at this
    omega
  have hnew : DecTo s.hist [o] (rd inp (16 * i) 16) h := by
    have := (DecTo.nil s.hist).snoc hback
    simpa using this
  unfold meOut
  by_cases hcp : s.copying = true
  · rw [if_pos hcp]
    obtain ⟨hp, hrd, hmask, hW⟩ := H.copy hcp
    have hreach := H.reach
    rw [hcp] at hreach
    by_cases hu : allEq (o.getD 0 0) (vload o) = true
    · rw [if_pos hu]
      have ho := (allEq_iff hol).mp hu
      obtain ⟨V, hV⟩ := closeCopy_spec (b := s.b) H.blocks H.count hrd hmask (by omega)
      rw [← hp] at hV
      obtain ⟨k1, k2, k3⟩ := hV.keep hlast H.here H.hdr
      have hVl := hV.len
      have hVh := hV.hi
      refine ⟨W ++ V, X ++ Y, rd inp (16 * i) 16, s.hist, [o], hgood, k3, k1, k2, hinp.symm, ?_, hreach.sec hV.sec H.dec, rfl,
        by simpa using hol, hnew, ?_, ?_, ?_⟩
      · rw [List.length_append]; simp only; omega
      · simp only; omega
      · intro h; cases h
      · intro _
        refine ⟨Nat.le_refl _, ?_, ?_⟩
        · rw [← ho]; rfl
        · simp only [List.length_append]; omega
    · rw [if_neg hu]
      have hw := Wrote.put s.b s.pOut o
      refine ⟨W, X, Y ++ rd inp (16 * i) 16, hc, xs ++ [o], hgood, hlast, ?_, ?_, ?_, ?_, ?_, ?_, ?_, H.dec.snoc hback, ?_, ?_, ?_⟩
      · rw [rd_congr (m₂ := s.b.m) (fun j _ h => hw.rest j (by omega)), H.here]
      · rw [rd_congr (m₂ := s.b.m) (fun j _ h => hw.rest j (by omega)), H.hdr]
      · rw [hinp, List.append_assoc]
      · simp only; omega
      · simp only [hcp]; exact hreach
      · rw [List.length_append, H.count]; rfl
      · intro x hx
        rcases List.mem_append.mp hx with hx | hx
        · exact H.blocks x hx
        · simp only [List.mem_singleton] at hx; rw [hx]; exact hol
      · have := hw.hi
        rw [hol] at this
        simp only
        omega
      · intro _
        refine ⟨by simp only; omega, ?_, ?_, hW⟩
        · simp only [Nat.mul_add, Nat.mul_one]
          rw [rd_cat, ← hp]
          have h2 := hw.here
          rw [hol] at h2
          rw [h2, rd_congr (m₂ := s.b.m) (fun j _ h => hw.rest j (by omega)), hrd]
          simp
        · rw [List.flatten_append]
          simpa using hmask.append hol
      · intro h'; simp only [hcp] at h'; cases h'
  · rw [if_neg hcp]
    have hcf : s.copying = false := by simpa using hcp
    obtain ⟨hc1, hxs, hW⟩ := H.rle hcf
    have hreach := H.reach
    rw [hcf] at hreach
    by_cases he : allEq s.symbol (vload o) = true
    · rw [if_pos he]
      have ho := (allEq_iff hol).mp he
      refine ⟨W, X, Y ++ rd inp (16 * i) 16, hc, xs ++ [o], hgood, hlast, H.here, H.hdr, ?_, ?_, ?_, ?_, ?_, H.dec.snoc hback, ?_, ?_, ?_⟩
      · rw [hinp, List.append_assoc]
      · simp only; omega
      · simp only [hcf]; exact hreach
      · rw [List.length_append, H.count]; rfl
      · intro x hx
        rcases List.mem_append.mp hx with hx | hx
        · exact H.blocks x hx
        · simp only [List.mem_singleton] at hx; rw [hx]; exact hol
      · simp only; omega
      · intro h'; simp only [hcf] at h'; cases h'
      · intro _
        refine ⟨by simp only; omega, ?_, hW⟩
        show xs ++ [o] = List.replicate (s.count + 1) (List.replicate 16 s.symbol)
        rw [hxs, ← ho, List.replicate_succ' (n := s.count)]
    · rw [if_neg he]
      obtain ⟨V, hV⟩ := closeRle_spec (b := s.b) (last := s.last) s.symbol hc1 (by omega)
      rw [← hxs] at hV
      obtain ⟨k1, k2, k3⟩ := hV.keep hlast H.here H.hdr
      have hVl := hV.len
      have hVh := hV.hi
      have hb2 : V.length + 4 ≤ 16 * s.count ∧ (closeRle s.b s.last s.count s.symbol).1.hi ≤ 12 + 16 * i := by
        by_cases h128 : s.count < 128
        · rw [if_pos h128] at hVl hVh; omega
        · rw [if_neg h128] at hVl hVh; omega
      rw [List.length_append] at k3
      by_cases hu : allEq (o.getD 0 0) (vload o) = true
      · rw [if_pos hu]
        have ho := (allEq_iff hol).mp hu
        have hw := Wrote.put (closeRle s.b s.last s.count s.symbol).1 (closeRle s.b s.last s.count s.symbol).2 [0]
        have hr2 := (hreach.sec hV.sec H.dec).sec sec_null (DecTo.nil _)
        rw [List.append_nil] at hr2
        refine ⟨W ++ V ++ [0], X ++ Y, rd inp (16 * i) 16, s.hist, [o], hgood, ?_, ?_, ?_, hinp.symm, ?_, ?_, rfl,
          by simpa using hol, hnew, ?_, ?_, ?_⟩
        · simp only [List.length_append, List.length_singleton]; omega
        · rw [List.length_append, rd_cat]
          have e1 := hw.here
          have e2 : 8 + (W ++ V).length = (closeRle s.b s.last s.count s.symbol).2 := by rw [List.length_append]; omega
          rw [e2, e1, rd_congr (m₂ := (closeRle s.b s.last s.count s.symbol).1.m) (fun j _ h => hw.rest j (by omega)), k1]
        · rw [rd_congr (m₂ := (closeRle s.b s.last s.count s.symbol).1.m) (fun j _ h => hw.rest j (by omega)), k2]
        · rw [List.length_append]; simp only; omega
        · simp only [hcf]; exact hr2
        · have := hw.hi
          simp only [List.length_singleton] at this ⊢
          omega
        · intro h'; simp only [hcf] at h'; cases h'
        · intro _
          refine ⟨Nat.le_refl _, ?_, ?_⟩
          · rw [← ho]; rfl
          · simp only [List.length_append, List.length_singleton]; omega
      · rw [if_neg hu]
        have hw := Wrote.put (closeRle s.b s.last s.count s.symbol).1 ((closeRle s.b s.last s.count s.symbol).2 + 4) o
        refine ⟨W ++ V, X ++ Y, rd inp (16 * i) 16, s.hist, [o], hgood, ?_, ?_, ?_, hinp.symm, ?_, hreach.sec hV.sec H.dec, rfl,
          by simpa using hol, hnew, ?_, ?_, ?_⟩
        · rw [List.length_append]; exact k3
        · rw [rd_congr (m₂ := (closeRle s.b s.last s.count s.symbol).1.m) (fun j _ h => hw.rest j (by
            rw [List.length_append] at h; omega)), k1]
        · rw [rd_congr (m₂ := (closeRle s.b s.last s.count s.symbol).1.m) (fun j _ h => hw.rest j (by omega)), k2]
        · rw [List.length_append]; simp only; omega
        · have := hw.hi
          rw [hol] at this
          simp only
          omega
        · intro _
          refine ⟨rfl, ?_, ?_, ?_⟩
          · have e1 := hw.here
            rw [hol] at e1
            simpa using e1
          · simpa using OrOk.vload hol
          · simp only [List.length_append]; omega
        · intro h'; cases h'

theorem meLoop_spec {inp : Mem} {n : Nat} : ∀ (k i : Nat) (s : MEnc) (W X Y : List Byte) (hc : Nat → Vec) (xs : List (List Byte)),
    EInv inp n s i W X Y hc xs → i + k ≤ 268435456 →
    ∃ s', meLoop inp i k s = some s' ∧ ∃ W' X' Y' hc' xs', EInv inp n s' (i + k) W' X' Y' hc' xs'
  | 0, i, s, W, X, Y, hc, xs, H, _ => ⟨s, rfl, W, X, Y, hc, xs, H⟩
  | k + 1, i, s, W, X, Y, hc, xs, H, hk => by
    obtain ⟨h, o, h1, W', X', Y', hc', xs', H'⟩ := H.step (by omega)
    obtain ⟨s', h2, W'', X'', Y'', hc'', xs'', H''⟩ := meLoop_spec k (i + 1) _ W' X' Y' hc' xs' H' (by omega)
    refine ⟨s', ?_, W'', X'', Y'', hc'', xs'', by rw [Nat.add_right_comm, Nat.add_assoc] at H''; exact H''⟩
    rw [meLoop, h1]
    exact h2

/-- What `rle8_mmtf128_compress` leaves in the buffer: sizes, sections, terminator and tail. -/
theorem meFinish_spec {inp : Mem} {n i : Nat} {s : MEnc} {W X Y : List Byte} {hc : Nat → Vec} {xs : List (List Byte)}
    (H : EInv inp n s i W X Y hc xs) (hi : i ≤ 268435456) (tail : List Byte) (ht : tail.length ≤ 16) :
    ∃ V, (meFinish s tail).2 = 8 + (V ++ [0] ++ mtfTailEnc s.hist 0 tail).length ∧
      rd (meFinish s tail).1.m 0 (meFinish s tail).2 =
        le32 n ++ le32 (meFinish s tail).2 ++ (V ++ [0] ++ mtfTailEnc s.hist 0 tail) ∧
      (meFinish s tail).1.hi ≤ 13 + 16 * i + tail.length ∧ (meFinish s tail).2 ≤ (meFinish s tail).1.hi ∧
      Reach V (rd inp 0 (16 * i)) s.hist true := by
  have hlen := H.len
  have hlast := H.last
  have hhi := H.hi
  have htl : (mtfTailEnc s.hist 0 tail).length = tail.length := (tail_rt H.good (HSame.refl _) tail 0 [] (by omega)).1
  have hYl : Y.length = 16 * s.count := by
    have := congrArg List.length H.inp
    rw [List.length_append, rd_length] at this
    omega
  -- everything but the tail
  obtain ⟨c, hcdef⟩ : ∃ c : Buf × Nat, c = if s.copying then
      ((closeCopy s.b s.last s.pOut s.count s.mask).1.put (closeCopy s.b s.last s.pOut s.count s.mask).2 [0],
        (closeCopy s.b s.last s.pOut s.count s.mask).2 + 1)
    else (((closeRle s.b s.last s.count s.symbol).1.put (closeRle s.b s.last s.count s.symbol).2 [0]).put
        ((closeRle s.b s.last s.count s.symbol).2 + 1) [0], (closeRle s.b s.last s.count s.symbol).2 + 2) := ⟨_, rfl⟩
  have key : ∃ V, c.2 = 8 + (V ++ [0]).length ∧ rd c.1.m 8 (V ++ [0]).length = V ++ [0] ∧ rd c.1.m 0 4 = le32 n ∧
      c.1.hi ≤ 13 + 16 * i ∧ c.2 ≤ 13 + 16 * i ∧ Reach V (rd inp 0 (16 * i)) s.hist true := by
    by_cases hcp : s.copying = true
    · rw [if_pos hcp] at hcdef
      obtain ⟨hp, hrd, hmask, hW⟩ := H.copy hcp
      have hreach := H.reach
      rw [hcp] at hreach
      obtain ⟨V, hV⟩ := closeCopy_spec (b := s.b) H.blocks H.count hrd hmask (by omega)
      rw [← hp] at hV
      obtain ⟨k1, k2, k3⟩ := hV.keep hlast H.here H.hdr
      have hVl := hV.len
      have hVh := hV.hi
      have hw := Wrote.put (closeCopy s.b s.last s.pOut s.count s.mask).1 (closeCopy s.b s.last s.pOut s.count s.mask).2 [0]
      have hr2 := hreach.sec hV.sec H.dec
      rw [H.inp] at hr2
      subst hcdef
      refine ⟨W ++ V, ?_, ?_, ?_, ?_, ?_, hr2⟩
      · rw [List.length_append, ← Nat.add_assoc, k3]; rfl
      · rw [List.length_append, rd_cat, k3, hw.here]
        rw [rd_congr (m₂ := (closeCopy s.b s.last s.pOut s.count s.mask).1.m) (fun j _ h => hw.rest j (by omega)), k1]
      · simp only
        rw [rd_congr (m₂ := (closeCopy s.b s.last s.pOut s.count s.mask).1.m) (fun j _ h => hw.rest j (by omega)), k2]
      · have := hw.hi
        rw [List.length_append] at k3
        simp only [List.length_singleton] at this ⊢
        omega
      · rw [List.length_append] at k3
        simp only
        omega
    · rw [if_neg hcp] at hcdef
      have hcf : s.copying = false := by simpa using hcp
      obtain ⟨hc1, hxs, hW⟩ := H.rle hcf
      have hreach := H.reach
      rw [hcf] at hreach
      obtain ⟨V, hV⟩ := closeRle_spec (b := s.b) (last := s.last) s.symbol hc1 (by omega)
      rw [← hxs] at hV
      obtain ⟨k1, k2, k3⟩ := hV.keep hlast H.here H.hdr
      have hVl := hV.len
      have hVh := hV.hi
      have hb2 : V.length + 4 ≤ 16 * s.count ∧ (closeRle s.b s.last s.count s.symbol).1.hi ≤ 12 + 16 * i := by
        by_cases h128 : s.count < 128
        · rw [if_pos h128] at hVl hVh; omega
        · rw [if_neg h128] at hVl hVh; omega
      have hw := (Wrote.put (closeRle s.b s.last s.count s.symbol).1 (closeRle s.b s.last s.count s.symbol).2 [0]).append
        (Wrote.put _ ((closeRle s.b s.last s.count s.symbol).2 + 1) [0])
      have hr2 := (hreach.sec hV.sec H.dec).sec sec_null (DecTo.nil _)
      rw [List.append_nil, H.inp] at hr2
      subst hcdef
      have e : W ++ V ++ [0] ++ [0] = (W ++ V) ++ ([0] ++ [0]) := by simp
      refine ⟨W ++ V ++ [0], ?_, ?_, ?_, ?_, ?_, hr2⟩
      · rw [e, List.length_append, ← Nat.add_assoc, k3]; rfl
      · rw [e, List.length_append, rd_cat, k3, hw.here]
        rw [rd_congr (m₂ := (closeRle s.b s.last s.count s.symbol).1.m) (fun j _ h => hw.rest j (by omega)), k1]
      · simp only
        rw [rd_congr (m₂ := (closeRle s.b s.last s.count s.symbol).1.m) (fun j _ h => hw.rest j (by omega)), k2]
      · have := hw.hi
        rw [List.length_append] at k3
        simp only [List.length_append, List.length_singleton] at this ⊢
        omega
      · rw [List.length_append] at k3
        simp only
        omega
  obtain ⟨V, v1, v2, v3, v4, v5, v6⟩ := key
  have hfin : meFinish s tail = ((c.1.put c.2 (mtfTailEnc s.hist 0 tail)).put 4 (le32 (c.2 + (mtfTailEnc s.hist 0 tail).length)),
      c.2 + (mtfTailEnc s.hist 0 tail).length) := by
    rw [hcdef]; rfl
  rw [hfin]
  generalize ht' : mtfTailEnc s.hist 0 tail = t at *
  have hw := Wrote.put c.1 c.2 t
  have hw2 := Wrote.put (c.1.put c.2 t) 4 (le32 (c.2 + t.length))
  refine ⟨V, ?_, ?_, ?_, ?_, v6⟩
  · rw [List.length_append, v1, Nat.add_assoc]
  · have e : c.2 + t.length = 4 + (4 + ((V ++ [0]).length + t.length)) := by omega
    have e0 : ∀ M : Mem, rd M 0 (c.2 + t.length) = rd M 0 4 ++ (rd M (0 + 4) 4 ++ (rd M (0 + 4 + 4) (V ++ [0]).length ++
        rd M (0 + 4 + 4 + (V ++ [0]).length) t.length)) := by
      intro M
      rw [e, rd_cat, rd_cat, rd_cat]
    simp only
    rw [e0]
    have a1 : rd ((c.1.put c.2 t).put 4 (le32 (c.2 + t.length))).m 0 4 = le32 n := by
      rw [rd_congr (m₂ := (c.1.put c.2 t).m) (fun j _ h => hw2.rest j (by omega)),
        rd_congr (m₂ := c.1.m) (fun j _ h => hw.rest j (by omega)), v3]
    have a2 : rd ((c.1.put c.2 t).put 4 (le32 (c.2 + t.length))).m (0 + 4) 4 = le32 (c.2 + t.length) := hw2.here
    have a3 : rd ((c.1.put c.2 t).put 4 (le32 (c.2 + t.length))).m (0 + 4 + 4) (V ++ [0]).length = V ++ [0] := by
      rw [rd_congr (m₂ := (c.1.put c.2 t).m) (fun j _ h => hw2.rest j (by rw [le32_length]; omega)),
        rd_congr (m₂ := c.1.m) (fun j _ h => hw.rest j (by omega)), v2]
    have a4 : rd ((c.1.put c.2 t).put 4 (le32 (c.2 + t.length))).m (0 + 4 + 4 + (V ++ [0]).length) t.length = t := by
      rw [rd_congr (m₂ := (c.1.put c.2 t).m) (fun j _ h => hw2.rest j (by rw [le32_length]; omega))]
      have e' : 0 + 4 + 4 + (V ++ [0]).length = c.2 := by omega
      rw [e']
      exact hw.here
    rw [a1, a2, a3, a4]
    simp only [List.append_assoc]
  · have h1 := hw.hi
    have h2 := hw2.hi
    rw [le32_length] at h2
    simp only
    omega
  · show c.2 + t.length ≤ max (max c.1.hi (c.2 + t.length)) _
    omega

/-- A successful compression, taken apart. -/
theorem mmCompress_ok {junk : Vec} {m0 inp : Mem} {n outSize ret : Nat} {out : List Byte} (hn : n < 4294967296)
    (hc : mmCompress junk m0 (some inp) n true outSize = .ok ret out) :
    ∃ (h : Nat → Vec) (V t : List Byte), HGood h ∧ Reach V (rd inp 0 (16 * (n / 16))) h true ∧
      t = mtfTailEnc h 0 (rd inp (16 * (n / 16)) (n % 16)) ∧
      out = le32 n ++ le32 out.length ++ (V ++ [0] ++ t) ∧ out.length ≤ outSize ∧ ret = out.length % 4294967296 := by
  simp only [mmCompress] at hc
  split at hc
  · cases hc
  obtain ⟨s, h1, W, X, Y, hcc, xs, H⟩ := meLoop_spec (n / 16) 0 _ _ _ _ _ _ (EInv.init junk m0 inp n) (by omega)
  rw [Nat.zero_add] at H
  rw [h1] at hc
  simp only at hc
  obtain ⟨V, f1, f2, f3, f4, f5⟩ := meFinish_spec H (by omega) (rd inp (16 * (n / 16)) (n % 16)) (by rw [rd_length]; omega)
  split at hc
  · cases hc
    refine ⟨s.hist, V, _, H.good, f5, rfl, ?_, ?_, ?_⟩
    · rw [rd_length]; exact f2
    · rw [rd_length]; omega
    · rw [rd_length]
  · cases hc

/-- It succeeds whenever there is room for 13 bytes more than the input has. -/
theorem mmCompress_fits (junk : Vec) (m0 inp : Mem) {n outSize : Nat} (h0 : 0 < n) (hn : n < 4294967296)
    (ho : n + 13 ≤ outSize) : ∃ out, mmCompress junk m0 (some inp) n true outSize = .ok (out.length % 4294967296) out ∧
      out.length ≤ n + 13 := by
  obtain ⟨s, h1, W, X, Y, hcc, xs, H⟩ := meLoop_spec (n / 16) 0 _ _ _ _ _ _ (EInv.init junk m0 inp n) (by omega)
  rw [Nat.zero_add] at H
  obtain ⟨V, f1, f2, f3, f4, f5⟩ := meFinish_spec H (by omega) (rd inp (16 * (n / 16)) (n % 16)) (by rw [rd_length]; omega)
  rw [rd_length] at f3
  have hb : mmBounds n ≤ n + 8 := by unfold mmBounds; split <;> omega
  simp only [mmCompress]
  rw [if_neg (by simp; omega), h1]
  simp only
  rw [if_pos (by omega)]
  refine ⟨_, by rw [rd_length], ?_⟩
  rw [rd_length]
  omega

/-- C14: whatever the uninitialised register and the output buffer held before, and whatever follows
the stream, decompressing what was compressed gives the input back, and nothing behind it is
written. -/
theorem C14_roundtrip (junk : Vec) (m0 : Mem) : RoundTripExact 4294967295 (mmCompress junk m0) mmDecompress := by
  intro inp n outSize ret out h0 hn ho hc tail m a hpi hin hpo hos hcap
  obtain ⟨h, V, t, hg, hr, ht, hout, hol, _⟩ := mmCompress_ok (by omega) hc
  have hol2 : out.length < 4294967296 := by omega
  obtain ⟨k, hd, hk, hs, hl⟩ := hr a.cap n m ([0] ++ t ++ tail) (by rw [rd_length]; omega)
  have hsrc : out ++ tail = le32 n ++ (le32 out.length ++ (V ++ ([0] ++ t ++ tail))) := by
    conv => lhs; rw [hout]
    simp only [List.append_assoc]
  have hpos : 0 < out.length := by
    rw [hout]; simp [le32]
  have hX : rd inp 0 (16 * (n / 16)) ++ rd inp (16 * (n / 16)) (n % 16) = rd inp 0 n := by
    conv => rhs; rw [← Nat.div_add_mod n 16, rd_cat, Nat.zero_add]
  obtain ⟨t1, t2⟩ := tail_rt hg hs (rd inp (16 * (n / 16)) (n % 16)) 0 tail (by rw [rd_length]; omega)
  rw [rd_length] at t1 t2
  rw [← ht] at t1 t2
  refine ⟨wrL m 0 (rd inp 0 n), ?_, ?_, ?_⟩
  · unfold mmDecompress
    simp only [hpi, hpo]
    rw [if_neg (by omega), hsrc]
    simp only [rdU32_le32]
    rw [Nat.mod_eq_of_lt (by omega), Nat.mod_eq_of_lt hol2, if_neg (by omega)]
    obtain ⟨g, hg'⟩ : ∃ g, (V ++ ([0] ++ t ++ tail)).length + 1 = k + (g + 1) :=
      ⟨(V ++ ([0] ++ t ++ tail)).length - k, by simp only [List.length_append]; omega⟩
    rw [hg', hl, loop]
    have hstep : dcStep a.cap n ⟨true, hd, [0] ++ t ++ tail, (rd inp 0 (16 * (n / 16))).length, wrL m 0 (rd inp 0 (16 * (n / 16)))⟩ =
        .inr (some (wrL m 0 (rd inp 0 n))) := by
      unfold dcStep
      simp only [Bool.true_eq_false, if_false, List.cons_append, List.nil_append, rd_length]
      rw [if_neg (by decide)]
      simp only
      rw [if_pos (by decide), if_neg (by omega), show n - 16 * (n / 16) = n % 16 by omega, t2]
      simp only [rd_length]
      rw [if_pos (by omega)]
      have := wrL_append m 0 (rd inp 0 (16 * (n / 16))) (rd inp (16 * (n / 16)) (n % 16))
      rw [Nat.zero_add, rd_length, hX] at this
      rw [this]
    rw [hstep]
  · intro j hj
    have := wrL_in (m := m) (a := 0) (l := rd inp 0 n) (k := j) (by rw [rd_length]; exact hj)
    rw [Nat.zero_add] at this
    rw [this, rd_getD _ _ _ _ _ hj, Nat.zero_add]
  · intro j hj
    exact wrL_out (by rw [rd_length]; omega)

end Hrk
