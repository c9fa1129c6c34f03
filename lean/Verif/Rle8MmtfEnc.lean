import Verif.Rle8MmtfHist

/-
rle8_mmtf128: what the compressor has written, at every point, is what the decompressor needs.
-/

namespace Hrk

/-- A section and the blocks of indices it stands for. -/
def Sec (rle : Bool) (V : List Byte) (xs : List (List Byte)) : Prop :=
  V ≠ [] ∧ ∀ (cap e : Nat) (hd : Nat → Vec) (r : List Byte) (o : Nat) (m : Mem) (hd' : Nat → Vec) (os : List Byte),
    decBlocks hd xs = some (hd', os) → o + os.length ≤ cap →
    ∃ h2, HSame hd' h2 ∧ dcStep cap e ⟨rle, hd, V ++ r, o, m⟩ = .inl ⟨!rle, h2, r, o + os.length, wrL m o os⟩

theorem copy_small {c : Nat} (hc : c < 32) {md : Byte} (hmd : md = 0 ∨ md = 2 ∨ md = 4 ∨ md = 6) :
    (b8 (c <<< 3) ||| md).toNat % 2 = 0 ∧ (b8 (c <<< 3) ||| md).toNat >>> 3 = c ∧ (b8 (c <<< 3) ||| md) &&& 6 = md := by
  have key : ∀ md ∈ [(0 : Byte), 2, 4, 6], ∀ c : Fin 32, (b8 (c.val <<< 3) ||| md).toNat % 2 = 0 ∧
      (b8 (c.val <<< 3) ||| md).toNat >>> 3 = c.val ∧ (b8 (c.val <<< 3) ||| md) &&& 6 = md := by decide +kernel
  exact key md (by simpa using hmd) ⟨c, hc⟩

theorem shl3_or1 (c : Nat) : (c <<< 3) ||| 1 = 8 * c + 1 := by
  rw [Nat.shiftLeft_eq, Nat.mul_comm]
  exact (Nat.two_pow_add_eq_or_of_lt (i := 3) (by omega) c).symm

theorem shl1_or1 (c : Nat) : (c <<< 1) ||| 1 = 2 * c + 1 := by
  rw [Nat.shiftLeft_eq, Nat.mul_comm]
  exact (Nat.two_pow_add_eq_or_of_lt (i := 1) (by omega) c).symm

theorem b8_mod (x : Nat) : b8 (x % 256) = b8 x := by
  apply UInt8.toNat.inj
  rw [b8_toNat, b8_toNat]
  omega

theorem copy_large (c : Nat) {md : Byte} (hmd : md = 0 ∨ md = 2 ∨ md = 4 ∨ md = 6) :
    (b8 ((c <<< 3) ||| 1) ||| md).toNat = (8 * c + 1 + md.toNat) % 256 ∧ (b8 ((c <<< 3) ||| 1) ||| md) &&& 6 = md := by
  have key : ∀ md ∈ [(0 : Byte), 2, 4, 6], ∀ c : Fin 32, (b8 (8 * c.val + 1) ||| md).toNat = 8 * c.val + 1 + md.toNat ∧
      (b8 (8 * c.val + 1) ||| md) &&& 6 = md := by decide +kernel
  have h1 := key md (by simpa using hmd) ⟨c % 32, by omega⟩
  have h2 : b8 (8 * (c % 32) + 1) = b8 ((c <<< 3) ||| 1) := by
    rw [shl3_or1, ← b8_mod (8 * c + 1)]
    congr 1; omega
  have h3 : md.toNat < 7 := by rcases hmd with rfl | rfl | rfl | rfl <;> decide
  rw [h2] at h1
  refine ⟨?_, h1.2⟩
  rw [h1.1]
  show 8 * (c % 32) + 1 + md.toNat = _
  omega

theorem blocks16_flatten : ∀ (xs : List (List Byte)), (∀ x ∈ xs, x.length = 16) → blocks16 xs.length xs.flatten = xs
  | [], _ => rfl
  | x :: xs, h => by
    rw [List.length_cons, Nat.add_comm, List.flatten_cons, blocks16_append (g := 1) (h x (by simp)),
      blocks16_flatten xs (fun y hy => h y (by simp [hy]))]
    have : blocks16 1 x = [x] := by
      unfold blocks16
      simp [List.range_succ, List.take_of_length_le (Nat.le_of_eq (h x (by simp)))]
    rw [this]
    rfl

/-- A copy section with a one byte header. -/
theorem sec_small {c : Nat} (hc : c < 32) {md : Byte} (hmd : md = 0 ∨ md = 2 ∨ md = 4 ∨ md = 6) {xs : List (List Byte)}
    {body : List Byte} (hx : ∀ x ∈ xs, x.length = 16) (hl : xs.length = c)
    (hb : ∀ m : Byte, m &&& 6 = md → CopyBody m c xs.flatten body) : Sec false ((b8 (c <<< 3) ||| md) :: body) xs := by
  refine ⟨List.cons_ne_nil _ _, ?_⟩
  intro cap e hd r o m hd' os hdec hcap
  obtain ⟨h1, h2, h3⟩ := copy_small hc hmd
  refine ⟨hd', HSame.refl _, ?_⟩
  unfold dcStep
  simp only [if_true, List.cons_append, h1, h2]
  rw [if_neg (by decide)]
  rw [hb _ h3 cap _ hd' r os rfl (by rw [← hl, blocks16_flatten xs hx]; exact hdec) hcap]
  rfl

/-- A copy section with a four byte header. -/
theorem sec_large {c : Nat} (hc : c < 536870912) {md : Byte} (hmd : md = 0 ∨ md = 2 ∨ md = 4 ∨ md = 6) {xs : List (List Byte)}
    {body : List Byte} (hx : ∀ x ∈ xs, x.length = 16) (hl : xs.length = c)
    (hb : ∀ m : Byte, m &&& 6 = md → CopyBody m c xs.flatten body) :
    Sec false ((b8 ((c <<< 3) ||| 1) ||| md) :: (le32 ((c <<< 3) ||| 1)).tail ++ body) xs := by
  refine ⟨by simp, ?_⟩
  intro cap e hd r o m hd' os hdec hcap
  obtain ⟨h1, h2⟩ := copy_large c hmd
  have h3 : md.toNat < 8 ∧ md.toNat % 2 = 0 := by rcases hmd with rfl | rfl | rfl | rfl <;> decide
  refine ⟨hd', HSame.refl _, ?_⟩
  have hv : ((b8 ((c <<< 3) ||| 1) ||| md).toNat + 256 * (b8 (((c <<< 3) ||| 1) / 256)).toNat +
      65536 * (b8 (((c <<< 3) ||| 1) / 65536)).toNat + 16777216 * (b8 (((c <<< 3) ||| 1) / 16777216)).toNat) >>> 3 = c := by
    rw [h1]
    simp only [b8_toNat, shl3_or1, Nat.shiftRight_eq_div_pow]
    omega
  unfold dcStep
  simp only [if_true, List.cons_append, le32, List.tail_cons, List.nil_append, rdU32, hv]
  rw [if_pos (by rw [h1]; omega)]
  rw [hb _ h2 cap _ hd' r os rfl (by rw [← hl, blocks16_flatten xs hx]; exact hdec) hcap]
  rfl

theorem sec_null : Sec false [0] [] := by
  have := sec_small (c := 0) (md := 0) (body := []) (xs := []) (by omega) (.inl rfl) (by simp) rfl
    (fun m hm => raw_body rfl m hm)
  exact this

/-- A repeat section. -/
theorem sec_rle {c : Nat} (h0 : 0 < c) (hc : c < 2147483648) (s : Byte) :
    Sec true (if c < 128 then [b8 (c <<< 1), s] else le32 ((c <<< 1) ||| 1) ++ [s])
      (List.replicate c (List.replicate 16 s)) := by
  refine ⟨by split <;> simp [le32], ?_⟩
  intro cap e hd r o m hd' os hdec hcap
  obtain ⟨h1, h2⟩ := rle_run hdec
  refine ⟨_, h1, ?_⟩
  have hcap' : o + (rleOut s.toNat c hd).2.length ≤ cap := by rw [h2]; exact hcap
  by_cases h : c < 128
  · rw [if_pos h]
    have h3 : (b8 (c <<< 1)).toNat = 2 * c := by
      rw [b8_toNat, Nat.shiftLeft_eq]; omega
    have h4 : (2 * c) >>> 1 = c := by rw [Nat.shiftRight_eq_div_pow]; omega
    unfold dcStep
    simp only [Bool.true_eq_false, if_false, List.cons_append, List.nil_append, h3]
    rw [if_neg (by omega)]
    simp only [h4]
    rw [if_neg (by omega)]
    simp only [MDec.store]
    rw [if_pos hcap', h2]
    rfl
  · rw [if_neg h]
    have h3 : (b8 ((c <<< 1) ||| 1)).toNat % 2 = 1 := by
      rw [b8_toNat, shl1_or1]; omega
    unfold dcStep
    have e1 : le32 ((c <<< 1) ||| 1) ++ [s] ++ r = le32 ((c <<< 1) ||| 1) ++ (s :: r) := by simp
    have e2 : le32 ((c <<< 1) ||| 1) ++ (s :: r) = b8 ((c <<< 1) ||| 1) :: ((le32 ((c <<< 1) ||| 1)).tail ++ (s :: r)) := rfl
    simp only [Bool.true_eq_false, if_false, e1, rdU32_le32, Option.map_some]
    rw [e2]
    simp only [h3, if_true]
    have h4 : ((c <<< 1 ||| 1) % 4294967296) >>> 1 = c := by
      rw [shl1_or1, Nat.shiftRight_eq_div_pow]; omega
    rw [h4]
    rw [if_neg (by omega)]
    simp only [MDec.store]
    rw [if_pos hcap', h2]
    rfl

/-! ### Closing sections -/

/-- The or of all blocks so far only has bits that some block has. -/
def OrOk (mask : Vec) (idx : List Byte) : Prop := ∀ hi : Byte, noneAbove hi mask = true → ∀ x ∈ idx, hi &&& x = 0

theorem below_of_mask : ∀ x : Byte, ((0xF0 : Byte) &&& x = 0 → x.toNat < 2 ^ 4) ∧ ((0xF8 : Byte) &&& x = 0 → x.toNat < 2 ^ 3) ∧
    ((0xFC : Byte) &&& x = 0 → x.toNat < 2 ^ 2) := by
  apply byte_forall
  decide +kernel

theorem Wrote.patch {b b' : Buf} {a : Nat} {x y : Byte} {l : List Byte} (h : Wrote b b' a (x :: l)) :
    Wrote b (b'.put a [y]) a (y :: l) := by
  have h1 := h.here
  have e : (x :: l).length = 1 + l.length := by simp [Nat.add_comm]
  have e' : (y :: l).length = 1 + l.length := by simp [Nat.add_comm]
  rw [e, rd_cat] at h1
  have h2 : rd b'.m (a + 1) l.length = l := (List.append_inj h1 (t₁ := rd b'.m (a + 1) l.length) (s₂ := [x]) (by simp)).2
  constructor
  · rw [e', rd_cat, show (b'.put a [y]).m = wrL b'.m a [y] from rfl]
    have := rd_wrL_same b'.m a [y]
    simp only [List.length_singleton] at this
    rw [this, rd_wrL_out (by simp), h2]
    rfl
  · intro k hk
    rw [e'] at hk
    rw [show (b'.put a [y]).m = wrL b'.m a [y] from rfl, wrL_out (by simp; omega), h.rest k (by rw [e]; omega)]
  · have := h.hi
    show max b'.hi (a + 1) ≤ _
    rw [e'] 
    rw [e] at this
    omega

/-- What a closed section is like. -/
structure SecClosed (b b' : Buf) (last pOut : Nat) (rle : Bool) (V : List Byte) (xs : List (List Byte)) (lim : Nat) : Prop where
  pOut_eq : pOut = last + V.length
  here : rd b'.m last V.length = V
  rest : ∀ a, a < last → b'.m a = b.m a
  hi : b'.hi ≤ max b.hi (last + lim)
  len : V.length ≤ lim
  sec : Sec rle V xs

theorem close_with {ip : Buf → Nat → Nat → Nat → Buf × Nat} {md : Byte} {ok : List Byte → Prop} (hp : Packs ip md ok)
    {b b1 : Buf} {last count : Nat} {hdr : List Byte} {xs : List (List Byte)} (hx : ∀ x ∈ xs, x.length = 16)
    (hl : xs.length = count) (hrd : rd b.m (last + 4) (16 * count) = xs.flatten) (hok : ok xs.flatten)
    (hw : Wrote b b1 last hdr) (hh : hdr.length ≤ 4)
    (hsec : ∀ body, (∀ m : Byte, m &&& 6 = md → CopyBody m count xs.flatten body) → Sec false (hdr ++ body) xs) :
    ∃ V, SecClosed b (ip b1 (last + 4) (last + hdr.length) (count * 16)).1 last
      (ip b1 (last + 4) (last + hdr.length) (count * 16)).2 false V xs (4 + 16 * count) := by
  have hfl : xs.flatten.length = 16 * count := by rw [flatten_len xs hx, hl, Nat.mul_comm]
  obtain ⟨b', body, h1, h2, h3, h4⟩ := hp b1 (last + 4) (last + hdr.length) count xs.flatten hfl
    (by rw [← hrd]; exact rd_congr fun j h5 h6 => hw.rest j (by omega)) hok (by omega)
  have h5 := hw.append h2
  rw [h1]
  refine ⟨hdr ++ body, ?_, h5.here, fun a ha => h5.rest a (.inl ha), ?_, ?_, hsec body h4⟩
  · simp only [List.length_append]; omega
  · have := h5.hi
    rw [List.length_append] at this
    show b'.hi ≤ _
    omega
  · rw [List.length_append]; omega

theorem closeCopy_spec {b : Buf} {last count : Nat} {mask : Vec} {xs : List (List Byte)} (hx : ∀ x ∈ xs, x.length = 16)
    (hl : xs.length = count) (hrd : rd b.m (last + 4) (16 * count) = xs.flatten) (hm : OrOk mask xs.flatten)
    (hc : count < 536870912) :
    ∃ V, SecClosed b (closeCopy b last (last + 4 + 16 * count) count mask).1 last
      (closeCopy b last (last + 4 + 16 * count) count mask).2 false V xs (4 + 16 * count) := by
  have hfl : xs.flatten.length = 16 * count := by rw [flatten_len xs hx, hl, Nat.mul_comm]
  unfold closeCopy
  by_cases h32 : count < 32
  · rw [if_pos h32]
    have hw := Wrote.put b last [b8 (count <<< 3)]
    by_cases h4 : noneAbove 0xF0 mask = true
    · rw [if_pos h4]
      by_cases h2 : noneAbove 0xFC mask = true
      · rw [if_pos h2]
        exact close_with (hdr := [b8 (count <<< 3) ||| 6]) packs2 hx hl hrd
          (fun x hx => (below_of_mask x).2.2 (hm _ h2 x hx)) hw.patch (by simp)
          (fun body hb => sec_small h32 (.inr (.inr (.inr rfl))) hx hl hb)
      · rw [if_neg h2]
        by_cases h3 : noneAbove 0xF8 mask = true
        · rw [if_pos h3]
          exact close_with (hdr := [b8 (count <<< 3) ||| 4]) packs3 hx hl hrd
            (fun x hx => (below_of_mask x).2.1 (hm _ h3 x hx)) hw.patch (by simp)
            (fun body hb => sec_small h32 (.inr (.inr (.inl rfl))) hx hl hb)
        · rw [if_neg h3]
          exact close_with (hdr := [b8 (count <<< 3) ||| 2]) packs4 hx hl hrd
            (fun x hx => (below_of_mask x).1 (hm _ h4 x hx)) hw.patch (by simp)
            (fun body hb => sec_small h32 (.inr (.inl rfl)) hx hl hb)
    · rw [if_neg h4]
      obtain ⟨b', body, h1, h2, h3, h5⟩ := packs0 (b.put last [b8 (count <<< 3)]) (last + 4) (last + 1) count xs.flatten hfl
        (by rw [← hrd]; exact rd_congr fun j h5 h6 => hw.rest j (by simp; omega)) trivial (by omega)
      obtain ⟨V, hV⟩ := close_with (hdr := [b8 (count <<< 3) ||| 0]) packs0 hx hl hrd trivial
          (by rw [UInt8.or_zero]; exact hw) (by simp) (fun body hb => sec_small h32 (.inl rfl) hx hl hb)
      refine ⟨V, ?_⟩
      have e : (ipMove (b.put last [b8 (count <<< 3)]) (last + 4) (last + 1) (count * 16)).2 = last + 4 + 16 * count - 3 := by
        unfold ipMove ipFor
        obtain ⟨ys, r', h6, h7, h8, h9⟩ := cut 16 count xs.flatten (by omega)
        obtain ⟨b'', h10, -⟩ := ipWhile_run (lim := 1) (k := 16) (f := id) (d := 16) (by omega) (by omega) (by omega) xs (count * 16)
          (b.put last [b8 (count <<< 3)]) (last + 4) (last + 1) (count * 16) 0 hx hx
          (by rw [hl, Nat.mul_comm, ← hrd]; exact rd_congr fun j h5 h6 => hw.rest j (by simp; omega))
          (by omega) (by omega) (by omega) (by omega)
        simp only [h10, hl]
        omega
      have hV' := hV
      simp only [List.length_singleton] at hV'
      rw [← e]
      exact hV'
  · rw [if_neg h32]
    have hw : Wrote b (b.put last (le32 ((count <<< 3) ||| 1))) last
        (b8 ((count <<< 3) ||| 1) :: (le32 ((count <<< 3) ||| 1)).tail) := Wrote.put b last _
    by_cases h4 : noneAbove 0xF0 mask = true
    · rw [if_pos h4]
      by_cases h2 : noneAbove 0xFC mask = true
      · rw [if_pos h2]
        exact close_with (hdr := (b8 ((count <<< 3) ||| 1) ||| 6) :: (le32 ((count <<< 3) ||| 1)).tail) packs2 hx hl hrd
          (fun x hx => (below_of_mask x).2.2 (hm _ h2 x hx)) hw.patch (Nat.le_refl _)
          (fun body hb => sec_large hc (.inr (.inr (.inr rfl))) hx hl hb)
      · rw [if_neg h2]
        by_cases h3 : noneAbove 0xF8 mask = true
        · rw [if_pos h3]
          exact close_with (hdr := (b8 ((count <<< 3) ||| 1) ||| 4) :: (le32 ((count <<< 3) ||| 1)).tail) packs3 hx hl hrd
            (fun x hx => (below_of_mask x).2.1 (hm _ h3 x hx)) hw.patch (Nat.le_refl _)
            (fun body hb => sec_large hc (.inr (.inr (.inl rfl))) hx hl hb)
        · rw [if_neg h3]
          exact close_with (hdr := (b8 ((count <<< 3) ||| 1) ||| 2) :: (le32 ((count <<< 3) ||| 1)).tail) packs4 hx hl hrd
            (fun x hx => (below_of_mask x).1 (hm _ h4 x hx)) hw.patch (Nat.le_refl _)
            (fun body hb => sec_large hc (.inr (.inl rfl)) hx hl hb)
    · rw [if_neg h4]
      have hw' : Wrote b (b.put last (le32 ((count <<< 3) ||| 1))) last
          ((b8 ((count <<< 3) ||| 1) ||| 0) :: (le32 ((count <<< 3) ||| 1)).tail) := by rw [UInt8.or_zero]; exact hw
      have hlen : ((b8 ((count <<< 3) ||| 1) ||| 0) :: (le32 ((count <<< 3) ||| 1)).tail).length = 4 := rfl
      refine ⟨((b8 ((count <<< 3) ||| 1) ||| 0) :: (le32 ((count <<< 3) ||| 1)).tail) ++ xs.flatten, ?_, ?_, ?_, ?_, ?_,
        sec_large hc (.inl rfl) hx hl (raw_body hfl)⟩
      · rw [List.length_append, hlen, hfl]; simp only; omega
      · rw [List.length_append, rd_cat, hw'.here, hlen, hfl, ← hrd]
        congr 1
        exact rd_congr fun j h5 h6 => hw'.rest j (by rw [hlen]; omega)
      · exact fun a ha => hw'.rest a (.inl ha)
      · have := hw'.hi
        rw [hlen] at this
        simp only
        omega
      · rw [List.length_append, hlen, hfl]; omega

theorem closeRle_spec {b : Buf} {last count : Nat} (s : Byte) (h0 : 0 < count) (hc : count < 2147483648) :
    ∃ V, SecClosed b (closeRle b last count s).1 last (closeRle b last count s).2 true V
      (List.replicate count (List.replicate 16 s)) (if count < 128 then 2 else 5) := by
  unfold closeRle
  have hs := sec_rle h0 hc s
  by_cases h : count < 128
  · rw [if_pos h] at hs
    rw [if_pos h, if_pos h]
    have hw := (Wrote.put b last [b8 (count <<< 1)]).append (Wrote.put _ (last + 1) [s])
    exact ⟨_, rfl, hw.here, fun a ha => hw.rest a (.inl ha), hw.hi, Nat.le_refl _, hs⟩
  · rw [if_neg h] at hs
    rw [if_neg h, if_neg h]
    have hw := (Wrote.put b last (le32 ((count <<< 1) ||| 1))).append (Wrote.put _ (last + 4) [s])
    exact ⟨_, rfl, hw.here, fun a ha => hw.rest a (.inl ha), hw.hi, Nat.le_refl _, hs⟩

end Hrk
