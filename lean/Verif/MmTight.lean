import Verif.PropsMmWords
import Verif.MmTightSpec

/-
How rle8_mmtf128 chooses its sections: helper lemmas for C76.
-/

namespace Hrk

/-! ### What a section says about its blocks -/

theorem flatten_inj16 : ∀ (xs ys : List (List Byte)), (∀ x ∈ xs, x.length = 16) → (∀ x ∈ ys, x.length = 16) →
    xs.flatten = ys.flatten → xs = ys
  | [], [], _, _, _ => rfl
  | [], y :: ys, _, hy, h => by
    have h1 := hy y (by simp)
    have h2 := congrArg List.length h
    simp at h2
    omega
  | x :: xs, [], hx, _, h => by
    have h1 := hx x (by simp)
    rw [List.flatten_cons] at h
    have h2 := congrArg List.length h
    rw [List.length_append, List.flatten_nil, List.length_nil] at h2
    omega
  | x :: xs, y :: ys, hx, hy, h => by
    have h1 := hx x (by simp)
    have h2 := hy y (by simp)
    rw [List.flatten_cons, List.flatten_cons] at h
    obtain ⟨e1, e2⟩ := List.append_inj h (h1.trans h2.symm)
    rw [e1, flatten_inj16 xs ys (fun z hz => hx z (by simp [hz])) (fun z hz => hy z (by simp [hz])) e2]

theorem decBlock_inj {h : Nat → Vec} {T : Nat → List Byte} (H : Tabs h T) {x y o : List Byte} {h1 h2 : Nat → Vec} (hx : x.length = 16)
    (hy : y.length = 16) (ex : mtfBlock true 1 16 h x = some (h1, o)) (ey : mtfBlock true 1 16 h y = some (h2, o)) : x = y := by
  obtain ⟨hx', ox, a1, a2, a3, -⟩ := dec_block H x
  obtain ⟨hy', oy, b1, b2, b3, -⟩ := dec_block H y
  rw [a1] at ex
  rw [b1] at ey
  cases ex
  cases ey
  apply List.ext_getElem (by omega)
  intro j hj hj'
  have e := (a3 j (by omega)).symm.trans (b3 j (by omega))
  have hlen := (H j (by omega)).len
  have hnd : (T j).Nodup := (H j (by omega)).1.nodup_iff.mpr mtfTable_nodup
  have u1 := (x.getD j 0).toNat_lt
  have u2 := (y.getD j 0).toNat_lt
  rw [getD_of_lt (T j) _ (by omega), getD_of_lt (T j) _ (by omega)] at e
  have e' : (x.getD j 0).toNat = (y.getD j 0).toNat := by
    rcases Nat.lt_trichotomy (x.getD j 0).toNat (y.getD j 0).toNat with h | h | h
    · exact absurd e (List.pairwise_iff_getElem.mp hnd _ _ _ _ h)
    · exact h
    · exact absurd e.symm (List.pairwise_iff_getElem.mp hnd _ _ _ _ h)
  have := UInt8.toNat_inj.mp e'
  rwa [getD_of_lt _ _ hj, getD_of_lt _ _ hj'] at this

theorem decBlocks_inj : ∀ (xs ys : List (List Byte)) (h : Nat → Vec) (T : Nat → List Byte), Tabs h T → (∀ x ∈ xs, x.length = 16) →
    (∀ x ∈ ys, x.length = 16) → ∀ (h1 h2 : Nat → Vec) (os : List Byte), decBlocks h xs = some (h1, os) → decBlocks h ys = some (h2, os) →
    xs = ys
  | [], ys, h, T, H, hx, hy, h1, h2, os, ex, ey => by
    cases ex
    obtain ⟨_, _, a1, a2, -⟩ := dec_blocks ys h T H hy
    rw [a1] at ey
    cases ey
    exact (List.eq_nil_of_length_eq_zero (by rw [List.length_nil] at a2; omega)).symm
  | x :: xs, [], h, T, H, hx, hy, h1, h2, os, ex, ey => by
    cases ey
    obtain ⟨_, _, a1, a2, -⟩ := dec_blocks (x :: xs) h T H hx
    rw [a1] at ex
    cases ex
    simp at a2
  | x :: xs, y :: ys, h, T, H, hx, hy, h1, h2, os, ex, ey => by
    obtain ⟨hx', ox, a1, a2, a3, a4⟩ := dec_block H x
    obtain ⟨hy', oy, b1, b2, b3, b4⟩ := dec_block H y
    rw [decBlocks, a1] at ex
    rw [decBlocks, b1] at ey
    simp only at ex ey
    cases c1 : decBlocks hx' xs with
    | none => rw [c1] at ex; cases ex
    | some p =>
      cases c2 : decBlocks hy' ys with
      | none => rw [c2] at ey; cases ey
      | some q =>
        rw [c1] at ex
        rw [c2] at ey
        simp only [Option.some.injEq, Prod.mk.injEq] at ex ey
        obtain ⟨e1, e2⟩ := List.append_inj (ex.2.trans ey.2.symm) (a2.trans b2.symm)
        subst e1
        obtain rfl := decBlock_inj H (hx x (by simp)) (hy y (by simp)) a1 b1
        rw [a1] at b1
        cases b1
        rw [decBlocks_inj xs ys hx' _ a4 (fun z hz => hx z (by simp [hz])) (fun z hz => hy z (by simp [hz])) _ _ _ c1
          (by rw [c2, e2])]

/-- A section the decompressor takes for the blocks `xs` is one of the grammar, with these blocks. -/
theorem mmSec_of {rle : Bool} {V : List Byte} {xs : List (List Byte)} (H : Sec rle V xs) (hx : ∀ x ∈ xs, x.length = 16) :
    ∃ sec : MmSec, sec.isRep = rle ∧ sec.ok ∧ sec.bytes = V ∧ sec.blocks = xs := by
  obtain ⟨h', os, a1, -⟩ := dec_blocks xs _ _ tabs_init hx
  obtain ⟨h2, -, b1⟩ := H.2 os.length 0 _ [] 0 (fun _ => 0) h' os a1 (by omega)
  obtain ⟨sec, r, hh, os', c1, c2, c3, c4, -, -, c7⟩ := step_conv_mm b1
  simp only [MDec.adv, MDec.mk.injEq, true_and] at c7
  obtain ⟨d1, d2, d3⟩ := c7
  subst d1
  have d4 : os = os' := by
    apply List.ext_getElem (by omega)
    intro i h1 h2
    have := congrFun d3 i
    have e1 := wrL_in (m := fun _ => 0) (a := 0) (l := os) (k := i) h1
    have e2 := wrL_in (m := fun _ => 0) (a := 0) (l := os') (k := i) h2
    rw [Nat.zero_add] at e1 e2
    rwa [e1, e2, getD_of_lt _ _ h1, getD_of_lt _ _ h2] at this
  subst d4
  simp only [List.append_nil] at c3
  exact ⟨sec, c1, c2, c3.symm, decBlocks_inj _ _ _ _ tabs_init (sec_blocks16 sec) hx _ _ _ c4 a1⟩

/-! ### Header bytes -/

/-- The packing for an or of blocks. -/
def kindOf (mask : Vec) : MmKind :=
  if noneAbove 0xF0 mask = true then
    if noneAbove 0xFC mask = true then .two else if noneAbove 0xF8 mask = true then .three else .four
  else .plain

theorem hdr_small {c : Nat} (hc : c < 32) (k : MmKind) :
    (b8 (c <<< 3) ||| b8 k.code).toNat % 8 = k.code := by
  have key : ∀ c : Fin 32, ∀ md ∈ [0, 2, 4, 6], (b8 (c.val <<< 3) ||| b8 md).toNat % 8 = md := by decide +kernel
  exact key ⟨c, hc⟩ k.code (by cases k <;> simp [MmKind.code])

theorem hdr_large (c : Nat) (k : MmKind) : (b8 ((c <<< 3) ||| 1) ||| b8 k.code).toNat % 8 = k.code + 1 := by
  have e : b8 ((c <<< 3) ||| 1) = b8 (8 * (c % 32) + 1) := by
    rw [shl3_or1]
    apply UInt8.toNat_inj.mp
    rw [b8_toNat, b8_toNat]
    omega
  rw [e]
  have key : ∀ c : Fin 32, ∀ md ∈ [0, 2, 4, 6], (b8 (8 * c.val + 1) ||| b8 md).toNat % 8 = md + 1 := by decide +kernel
  exact key ⟨c % 32, by omega⟩ k.code (by cases k <;> simp [MmKind.code])

theorem pack_head {ip : Buf → Nat → Nat → Nat → Buf × Nat} {md : Byte} {ok : List Byte → Prop} (hp : Packs ip md ok) {b1 : Buf}
    {rp wp count a : Nat} {idx : List Byte} (hl : idx.length = 16 * count) (hrd : rd b1.m rp (16 * count) = idx) (hok : ok idx) (hw : wp ≤ rp)
    (ha : a < wp) : (ip b1 rp wp (count * 16)).1.m a = b1.m a := by
  obtain ⟨b', body, h1, h2, -⟩ := hp b1 rp wp count idx hl hrd hok hw
  rw [h1]
  exact h2.rest a (.inl ha)

theorem closeCopy_head {b : Buf} {last count pOut : Nat} {mask : Vec} {idx : List Byte} (hl : idx.length = 16 * count)
    (hrd : rd b.m (last + 4) (16 * count) = idx) (hm : OrOk mask idx) :
    ((closeCopy b last pOut count mask).1.m last).toNat % 8 = (kindOf mask).code + if count < 32 then 0 else 1 := by
  have keep1 : ∀ x y : Byte, rd ((b.put last [x]).put last [y]).m (last + 4) (16 * count) = idx ∧ ((b.put last [x]).put last [y]).m last = y := by
    intro x y
    refine ⟨?_, ?_⟩
    · rw [← hrd]
      refine (rd_congr fun j h5 h6 => ?_)
      rw [(Wrote.put (b.put last [x]) last [y]).rest j (.inr (by simp; omega)), (Wrote.put b last [x]).rest j (.inr (by simp; omega))]
    · have := (Wrote.put (b.put last [x]) last [y]).here
      simpa [rd] using this
  have keep4 : ∀ (v : Nat) (y : Byte), rd ((b.put last (le32 v)).put last [y]).m (last + 4) (16 * count) = idx ∧
      ((b.put last (le32 v)).put last [y]).m last = y := by
    intro v y
    refine ⟨?_, ?_⟩
    · rw [← hrd]
      refine (rd_congr fun j h5 h6 => ?_)
      rw [(Wrote.put (b.put last (le32 v)) last [y]).rest j (.inr (by simp; omega)), (Wrote.put b last (le32 v)).rest j (.inr (by simp; omega))]
    · have := (Wrote.put (b.put last (le32 v)) last [y]).here
      simpa [rd] using this
  have move1 : ∀ x : Byte, rd (b.put last [x]).m (last + 4) (16 * count) = idx ∧ (b.put last [x]).m last = x := by
    intro x
    refine ⟨?_, ?_⟩
    · rw [← hrd]
      exact (rd_congr fun j h5 h6 => (Wrote.put b last [x]).rest j (.inr (by simp; omega)))
    · have := (Wrote.put b last [x]).here
      simpa [rd] using this
  unfold closeCopy kindOf
  by_cases h32 : count < 32
  · rw [if_pos h32, if_pos h32]
    by_cases h4 : noneAbove 0xF0 mask = true
    · rw [if_pos h4, if_pos h4]
      by_cases h2 : noneAbove 0xFC mask = true
      · rw [if_pos h2, if_pos h2, pack_head packs2 hl (keep1 _ _).1 (fun x hx => (below_of_mask x).2.2 (hm _ h2 x hx)) (by omega) (by omega),
          (keep1 _ _).2]
        exact hdr_small h32 .two
      · rw [if_neg h2, if_neg h2]
        by_cases h3 : noneAbove 0xF8 mask = true
        · rw [if_pos h3, if_pos h3, pack_head packs3 hl (keep1 _ _).1 (fun x hx => (below_of_mask x).2.1 (hm _ h3 x hx)) (by omega) (by omega),
            (keep1 _ _).2]
          exact hdr_small h32 .three
        · rw [if_neg h3, if_neg h3, pack_head packs4 hl (keep1 _ _).1 (fun x hx => (below_of_mask x).1 (hm _ h4 x hx)) (by omega) (by omega),
            (keep1 _ _).2]
          exact hdr_small h32 .four
    · rw [if_neg h4, if_neg h4]
      simp only
      rw [pack_head packs0 hl (move1 _).1 trivial (by omega) (by omega), (move1 _).2]
      have := hdr_small h32 .plain
      rwa [show b8 MmKind.plain.code = 0 from rfl, UInt8.or_zero] at this
  · rw [if_neg h32, if_neg h32]
    by_cases h4 : noneAbove 0xF0 mask = true
    · rw [if_pos h4, if_pos h4]
      by_cases h2 : noneAbove 0xFC mask = true
      · rw [if_pos h2, if_pos h2, pack_head packs2 hl (keep4 _ _).1 (fun x hx => (below_of_mask x).2.2 (hm _ h2 x hx)) (by omega) (by omega),
          (keep4 _ _).2]
        exact hdr_large count .two
      · rw [if_neg h2, if_neg h2]
        by_cases h3 : noneAbove 0xF8 mask = true
        · rw [if_pos h3, if_pos h3, pack_head packs3 hl (keep4 _ _).1 (fun x hx => (below_of_mask x).2.1 (hm _ h3 x hx)) (by omega) (by omega),
            (keep4 _ _).2]
          exact hdr_large count .three
        · rw [if_neg h3, if_neg h3, pack_head packs4 hl (keep4 _ _).1 (fun x hx => (below_of_mask x).1 (hm _ h4 x hx)) (by omega) (by omega),
            (keep4 _ _).2]
          exact hdr_large count .four
    · rw [if_neg h4, if_neg h4]
      have h1 := (Wrote.put b last (le32 ((count <<< 3) ||| 1))).here
      have h5 := congrArg (fun l => l.getD 0 0) h1
      simp only [le32_length] at h5
      rw [rd_getD _ _ _ _ _ (by omega)] at h5
      simp only [Nat.add_zero] at h5
      rw [h5]
      have := hdr_large count .plain
      rwa [show b8 MmKind.plain.code = 0 from rfl, UInt8.or_zero] at this

/-! ### Closed sections -/

theorem byte0 {b : Buf} {a : Nat} {V : List Byte} (h : rd b.m a V.length = V) (hV : V ≠ []) : V.getD 0 0 = b.m a := by
  have hp : 0 < V.length := List.length_pos_iff.mpr hV
  have := rd_getD b.m a V.length 0 0 hp
  rw [h] at this
  exact this

theorem copy_byte0 (wide : Bool) (kind : MmKind) (count : Nat) (body : List Byte) :
    ((MmSec.copy wide kind count body).bytes.getD 0 0).toNat % 8 = kind.code + if wide then 1 else 0 := by
  cases wide <;> simp only [MmSec.bytes, if_true, Bool.false_eq_true, if_false]
  · show (b8 _).toNat % 8 = _
    rw [b8_toNat]
    cases kind <;> simp only [MmKind.code] <;> omega
  · show (b8 _).toNat % 8 = _
    rw [b8_toNat]
    cases kind <;> simp only [MmKind.code] <;> omega

theorem rep_byte0 (wide : Bool) (count : Nat) (i : Byte) :
    ((MmSec.rep wide count i).bytes.getD 0 0).toNat % 2 = if wide then 1 else 0 := by
  cases wide <;> simp only [MmSec.bytes, if_true, Bool.false_eq_true, if_false]
  · show (b8 _).toNat % 2 = _
    rw [b8_toNat]
    omega
  · show (b8 _).toNat % 2 = _
    rw [b8_toNat]
    omega

/-- A copy section that was closed. -/
theorem copy_closed {b : Buf} {last count pOut lim : Nat} {mask : Vec} {xs : List (List Byte)} {V : List Byte}
    (hV : SecClosed b (closeCopy b last pOut count mask).1 last (closeCopy b last pOut count mask).2 false V xs lim)
    (hx : ∀ x ∈ xs, x.length = 16) (hl : xs.length = count) (hrd : rd b.m (last + 4) (16 * count) = xs.flatten) (hm : OrOk mask xs.flatten) :
    ∃ (wide : Bool) (body : List Byte), (MmSec.copy wide (kindOf mask) count body).ok ∧
      (MmSec.copy wide (kindOf mask) count body).bytes = V ∧ (kindOf mask).blocks count body = xs ∧ (wide = true ↔ 32 ≤ count) := by
  obtain ⟨sec, h1, h2, h3, h4⟩ := mmSec_of hV.sec hx
  have h5 := closeCopy_head (pOut := pOut) (by rw [flatten_len xs hx, hl, Nat.mul_comm]) hrd hm
  have h6 := byte0 hV.here hV.sec.1
  cases sec with
  | rep w c i => cases h1
  | copy wide kind c body =>
    have h7 : (kind.blocks c body).length = count := by rw [← hl, ← h4]; rfl
    rw [(kind.blocks_len c body).1] at h7
    subst h7
    have h8 := copy_byte0 wide kind c body
    rw [h3, h6, h5] at h8
    have h9 : kindOf mask = kind ∧ (wide = true ↔ 32 ≤ c) := by
      generalize kindOf mask = k at h8
      by_cases hc : c < 32
      · rw [if_pos hc] at h8
        cases wide <;> cases k <;> cases kind <;> simp [MmKind.code] at h8 ⊢ <;> omega
      · rw [if_neg hc] at h8
        cases wide <;> cases k <;> cases kind <;> simp [MmKind.code] at h8 ⊢ <;> omega
    rw [h9.1]
    exact ⟨wide, body, h2, h3, h4, h9.2⟩

theorem closeRle_head (b : Buf) (last count : Nat) (x : Byte) :
    ((closeRle b last count x).1.m last).toNat % 2 = if count < 128 then 0 else 1 := by
  unfold closeRle
  by_cases h : count < 128
  · rw [if_pos h, if_pos h]
    simp only
    rw [(Wrote.put (b.put last [b8 (count <<< 1)]) (last + 1) [x]).rest last (.inl (by omega))]
    have := (Wrote.put b last [b8 (count <<< 1)]).here
    simp only [rd, List.length_singleton, List.range_one, List.map_cons, List.map_nil, Nat.add_zero, List.cons.injEq, and_true] at this
    rw [this, b8_toNat, Nat.shiftLeft_eq]
    omega
  · rw [if_neg h, if_neg h]
    simp only
    rw [(Wrote.put (b.put last (le32 (count <<< 1 ||| 1))) (last + 4) [x]).rest last (.inl (by omega))]
    have h1 := (Wrote.put b last (le32 ((count <<< 1) ||| 1))).here
    have h5 := congrArg (fun l => l.getD 0 0) h1
    simp only [le32_length] at h5
    rw [rd_getD _ _ _ _ _ (by omega)] at h5
    simp only [Nat.add_zero] at h5
    rw [h5]
    show (b8 _).toNat % 2 = 1
    rw [b8_toNat, shl1_or1]
    omega

/-- A repeat section that was closed. -/
theorem rep_closed {b : Buf} {last count lim : Nat} {x : Byte} {V : List Byte}
    (hV : SecClosed b (closeRle b last count x).1 last (closeRle b last count x).2 true V
      (List.replicate count (List.replicate 16 x)) lim) (h0 : 0 < count) :
    ∃ wide : Bool, (MmSec.rep wide count x).ok ∧ (MmSec.rep wide count x).bytes = V ∧ (wide = true ↔ 128 ≤ count) := by
  obtain ⟨sec, h1, h2, h3, h4⟩ := mmSec_of hV.sec (by
    intro y hy
    rw [List.eq_of_mem_replicate hy, List.length_replicate])
  have h5 := closeRle_head b last count x
  have h6 := byte0 hV.here hV.sec.1
  cases sec with
  | copy w k c body => cases h1
  | rep wide c i =>
    have h4 : List.replicate c (List.replicate 16 i) = List.replicate count (List.replicate 16 x) := h4
    have h7 := congrArg List.length h4
    rw [List.length_replicate, List.length_replicate] at h7
    subst h7
    obtain ⟨d, rfl⟩ : ∃ d, c = d + 1 := ⟨c - 1, by omega⟩
    rw [List.replicate_succ, List.replicate_succ (n := d)] at h4
    have h8 := (List.cons.inj h4).1
    obtain rfl : i = x := (List.cons.inj h8).1
    have h9 := rep_byte0 wide (d + 1) i
    rw [h3, h6, h5] at h9
    refine ⟨wide, h2, h3, ?_⟩
    by_cases hc : d + 1 < 128
    · rw [if_pos hc] at h9
      cases wide <;> simp at h9 ⊢ <;> omega
    · rw [if_neg hc] at h9
      cases wide <;> simp at h9 ⊢ <;> omega

/-! ### One block -/

/-- What a block does to the closed sections and to the open one. -/
def How (s : MEnc) (o W : List Byte) (xs : List (List Byte)) (W' : List Byte) (xs' : List (List Byte)) : Prop :=
  if s.copying = true then
    if allEq (o.getD 0 0) (vload o) = true then
      ∃ V lim, SecClosed s.b (closeCopy s.b s.last s.pOut s.count s.mask).1 s.last (closeCopy s.b s.last s.pOut s.count s.mask).2
        false V xs lim ∧ W' = W ++ V ∧ xs' = [o]
    else W' = W ∧ xs' = xs ++ [o]
  else if allEq s.symbol (vload o) = true then W' = W ∧ xs' = xs ++ [o]
  else ∃ V lim, SecClosed s.b (closeRle s.b s.last s.count s.symbol).1 s.last (closeRle s.b s.last s.count s.symbol).2 true V
      (List.replicate s.count (List.replicate 16 s.symbol)) lim ∧ xs' = [o] ∧
      W' = if allEq (o.getD 0 0) (vload o) = true then W ++ V ++ [0] else W ++ V

theorem eq_of_rd {m : Mem} {a : Nat} {A B : List Byte} (hl : A.length = B.length) (h1 : rd m a A.length = A) (h2 : rd m a B.length = B) :
    A = B := by rw [← h1, hl, h2]

theorem EInv.how {inp : Mem} {n : Nat} {s : MEnc} {i : Nat} {W X Y : List Byte} {hc : Nat → Vec} {xs : List (List Byte)}
    (H : EInv inp n s i W X Y hc xs) (hi : i < 268435456) {h : Nat → Vec} {o : List Byte} (hol : o.length = 16)
    {W' X' Y' : List Byte} {hc' : Nat → Vec} {xs' : List (List Byte)} (H' : EInv inp n (meOut s h o) (i + 1) W' X' Y' hc' xs') :
    How s o W xs W' xs' := by
  have hlen := H.len
  have hlast := H.last
  have hhere := H'.here
  have hlast' := H'.last
  have hb' := H'.blocks
  have hcp' := H'.copy
  have hrl' := H'.rle
  have one : ∀ b ∈ [o], b.length = 16 := by simpa using hol
  unfold How
  unfold meOut at hhere hlast' hcp' hrl'
  by_cases hcp : s.copying = true
  · rw [if_pos hcp] at hhere hlast' hcp' hrl' ⊢
    obtain ⟨hp, hrd, hmask, hW⟩ := H.copy hcp
    by_cases hu : allEq (o.getD 0 0) (vload o) = true
    · rw [if_pos hu] at hhere hlast' hcp' hrl' ⊢
      have ho := (allEq_iff hol).mp hu
      obtain ⟨V, hV⟩ := closeCopy_spec (b := s.b) H.blocks H.count hrd hmask (by omega)
      rw [← hp] at hV
      obtain ⟨k1, k2, k3⟩ := hV.keep hlast H.here H.hdr
      refine ⟨V, _, hV, eq_of_rd (by simp only at hlast'; omega) hhere k1, ?_⟩
      obtain ⟨-, h2, -⟩ := hrl' rfl
      rw [h2, ← ho]; rfl
    · rw [if_neg hu] at hhere hlast' hcp' hrl' ⊢
      have hw := Wrote.put s.b s.pOut o
      have e1 : rd (s.b.put s.pOut o).m 8 W.length = W := by
        rw [rd_congr (m₂ := s.b.m) (fun j _ h => hw.rest j (by omega)), H.here]
      refine ⟨eq_of_rd (by simp only at hlast'; omega) hhere e1, ?_⟩
      obtain ⟨-, h2, -⟩ := hcp' hcp
      apply flatten_inj16 _ _ hb'
      · intro x hx
        rcases List.mem_append.mp hx with hx | hx
        · exact H.blocks x hx
        · exact one x hx
      rw [← h2]
      simp only [Nat.mul_add, Nat.mul_one]
      rw [rd_cat, ← hp]
      have h3 := hw.here
      rw [hol] at h3
      rw [h3, rd_congr (m₂ := s.b.m) (fun j _ h => hw.rest j (by omega)), hrd]
      simp
  · rw [if_neg hcp] at hhere hlast' hcp' hrl' ⊢
    have hcf : s.copying = false := by simpa using hcp
    obtain ⟨hc1, hxs, hW⟩ := H.rle hcf
    by_cases he : allEq s.symbol (vload o) = true
    · rw [if_pos he] at hhere hlast' hcp' hrl' ⊢
      have ho := (allEq_iff hol).mp he
      refine ⟨eq_of_rd (by simp only at hlast'; omega) hhere H.here, ?_⟩
      obtain ⟨-, h2, -⟩ := hrl' hcf
      rw [h2, hxs]
      show List.replicate (s.count + 1) (List.replicate 16 s.symbol) = _
      rw [List.replicate_succ' (n := s.count), ← ho]
    · rw [if_neg he] at hhere hlast' hcp' hrl' ⊢
      obtain ⟨V, hV⟩ := closeRle_spec (b := s.b) (last := s.last) s.symbol hc1 (by omega)
      obtain ⟨k1, k2, k3⟩ := hV.keep hlast H.here H.hdr
      refine ⟨V, _, hV, ?_⟩
      simp only at hhere hlast' hcp' hrl'
      by_cases hu : allEq (o.getD 0 0) (vload o) = true
      · rw [if_pos hu] at hhere hlast' hcp' hrl' ⊢
        have ho := (allEq_iff hol).mp hu
        obtain ⟨-, h2, -⟩ := hrl' hcf
        refine ⟨by rw [h2, ← ho]; rfl, ?_⟩
        have hw := Wrote.put (closeRle s.b s.last s.count s.symbol).1 (closeRle s.b s.last s.count s.symbol).2 [0]
        refine eq_of_rd (by simp only at hlast'; rw [List.length_append, List.length_singleton]; omega) hhere ?_
        rw [List.length_append, rd_cat, k3, hw.here,
          rd_congr (m₂ := (closeRle s.b s.last s.count s.symbol).1.m) (fun j _ h => hw.rest j (by omega)), k1]
      · rw [if_neg hu] at hhere hlast' hcp' hrl' ⊢
        have hw := Wrote.put (closeRle s.b s.last s.count s.symbol).1 ((closeRle s.b s.last s.count s.symbol).2 + 4) o
        obtain ⟨-, h2, -⟩ := hcp' rfl
        refine ⟨?_, ?_⟩
        · apply flatten_inj16 _ _ hb' one
          rw [← h2]
          have e1 := hw.here
          rw [hol] at e1
          simpa using e1
        · refine eq_of_rd (by simp only at hlast'; omega) hhere ?_
          rw [rd_congr (m₂ := (closeRle s.b s.last s.count s.symbol).1.m) (fun j _ h => hw.rest j (by omega)), k1]

end Hrk
