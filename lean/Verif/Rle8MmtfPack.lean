import Verif.Rle8Mmtf
import Verif.PropsBitpack

/-
Copy sections of rle8_mmtf128: what is packed inside the output buffer is what is unpacked.
-/

namespace Hrk

/-! ### Memory -/

theorem wrL_in {m : Mem} {a : Nat} {l : List Byte} {k : Nat} (h : k < l.length) : wrL m a l (a + k) = l.getD k 0 := by
  unfold wrL
  rw [if_pos (by omega), Nat.add_sub_cancel_left]

theorem wrL_out {m : Mem} {a : Nat} {l : List Byte} {k : Nat} (h : k < a ∨ a + l.length ≤ k) : wrL m a l k = m k := by
  unfold wrL
  rw [if_neg (by omega)]

theorem rd_wrL_same (m : Mem) (a : Nat) (l : List Byte) : rd (wrL m a l) a l.length = l := by
  apply List.ext_getElem (by simp)
  intro i h1 h2
  rw [rd_getElem, wrL_in h2, getD_of_lt _ _ h2]

theorem rd_wrL_out {m : Mem} {a : Nat} {l : List Byte} {p k : Nat} (h : p + k ≤ a ∨ a + l.length ≤ p) :
    rd (wrL m a l) p k = rd m p k :=
  rd_congr fun j h1 h2 => wrL_out (by omega)

theorem rd_cat (m : Mem) (a j k : Nat) : rd m a (j + k) = rd m a j ++ rd m (a + j) k := (rd_append m a j k).symm

theorem getD_append_l {x y : List Byte} {k : Nat} (h : k < x.length) : (x ++ y).getD k 0 = x.getD k 0 := by
  simp only [List.getD_eq_getElem?_getD, List.getElem?_append_left h]

theorem getD_append_r {x y : List Byte} {k : Nat} (h : x.length ≤ k) : (x ++ y).getD k 0 = y.getD (k - x.length) 0 := by
  simp only [List.getD_eq_getElem?_getD, List.getElem?_append_right h]

theorem wrL_append (m : Mem) (a : Nat) (x y : List Byte) : wrL (wrL m a x) (a + x.length) y = wrL m a (x ++ y) := by
  funext k
  unfold wrL
  rw [List.length_append]
  by_cases h1 : a + x.length ≤ k ∧ k < a + x.length + y.length
  · rw [if_pos h1, if_pos (by omega), getD_append_r (by omega), Nat.sub_add_eq]
  · rw [if_neg h1]
    by_cases h2 : a ≤ k ∧ k < a + x.length
    · rw [if_pos h2, if_pos (by omega), getD_append_l (by omega)]
    · rw [if_neg h2, if_neg (by omega)]

theorem wrL_nil (m : Mem) (a : Nat) : wrL m a [] = m := by
  funext k
  exact wrL_out (by simp; omega)

/-! ### Packing in place -/

/-- `b'` is `b` with `x` written at `wp`, as far as `x` is not empty. -/
structure Wrote (b b' : Buf) (wp : Nat) (x : List Byte) : Prop where
  here : rd b'.m wp x.length = x
  rest : ∀ a, a < wp ∨ wp + x.length ≤ a → b'.m a = b.m a
  hi : b'.hi ≤ max b.hi (wp + x.length)

theorem Wrote.put (b : Buf) (a : Nat) (l : List Byte) : Wrote b (b.put a l) a l :=
  ⟨rd_wrL_same _ _ _, fun _ h => wrL_out h, Nat.le_refl _⟩

theorem Wrote.nil (b : Buf) (a : Nat) : Wrote b b a [] := ⟨by simp, fun _ _ => rfl, by omega⟩

theorem Wrote.append {b b' b'' : Buf} {a : Nat} {x y : List Byte} (h1 : Wrote b b' a x)
    (h2 : Wrote b' b'' (a + x.length) y) : Wrote b b'' a (x ++ y) := by
  constructor
  · rw [List.length_append, rd_cat, h2.here,
      rd_congr (m₂ := b'.m) (fun j _ h => h2.rest j (by omega)), h1.here]
  · intro k hk
    rw [List.length_append] at hk
    rw [h2.rest k (by omega), h1.rest k (by omega)]
  · have := h1.hi
    have := h2.hi
    rw [List.length_append]
    omega

theorem ipWhile_run {lim k d : Nat} {f : List Byte → List Byte} (hk : 0 < k) (hlim : lim ≤ k) (hdk : d ≤ k) :
    ∀ (xs : List (List Byte)) (fuel : Nat) (b : Buf) (rp wp left rest : Nat), (∀ x ∈ xs, x.length = k) →
      (∀ x ∈ xs, (f x).length = d) → rd b.m rp (xs.length * k) = xs.flatten → wp ≤ rp →
      left = xs.length * k + rest → rest < lim → xs.length ≤ fuel →
      ∃ b', ipWhile lim k d f fuel (b, rp, wp, left) = (b', rp + xs.length * k, wp + xs.length * d, rest) ∧
        Wrote b b' wp (xs.map f).flatten
  | [], fuel, b, rp, wp, left, rest, _, _, _, _, hl, hr, _ => by
    refine ⟨b, ?_, Wrote.nil _ _⟩
    simp only [List.length_nil, Nat.zero_mul, Nat.zero_add, Nat.add_zero] at hl ⊢
    subst hl
    cases fuel with
    | zero => rfl
    | succ fuel => rw [ipWhile, if_neg (by omega)]
  | x :: xs, fuel, b, rp, wp, left, rest, hx, hf, hrd, hw, hl, hr, hfuel => by
    obtain ⟨fuel, rfl⟩ : ∃ g, fuel = g + 1 := ⟨fuel - 1, by simp at hfuel; omega⟩
    rw [List.length_cons, Nat.succ_mul] at hrd hl ⊢
    rw [List.length_cons] at hfuel
    have hxl := hx x (by simp)
    have hfl := hf x (by simp)
    rw [Nat.add_comm (xs.length * k) k, rd_cat, List.flatten_cons] at hrd
    obtain ⟨h1, h2⟩ := List.append_inj hrd (by rw [rd_length, hxl])
    have hW := Wrote.put b wp (f x)
    obtain ⟨b', hb, hW'⟩ := ipWhile_run hk hlim hdk xs fuel (b.put wp (f x)) (rp + k) (wp + d) (left - k) rest
      (fun y hy => hx y (by simp [hy])) (fun y hy => hf y (by simp [hy]))
      (by rw [← h2]; exact rd_congr fun j h3 h4 => hW.rest j (by omega)) (by omega) (by omega) hr (by omega)
    refine ⟨b', ?_, ?_⟩
    · rw [ipWhile, if_pos (by omega), h1, hb, Nat.succ_mul]
      simp only [Prod.mk.injEq, true_and, and_true]
      omega
    · rw [List.map_cons, List.flatten_cons]
      exact hW.append (by rw [hfl]; exact hW')

/-! ### Unpacking -/

theorem decBlocks_append : ∀ (xs ys : List (List Byte)) (h : Nat → Vec),
    decBlocks h (xs ++ ys) = match decBlocks h xs with
      | none => none
      | some (h', o) => match decBlocks h' ys with
        | none => none
        | some (h'', o') => some (h'', o ++ o')
  | [], ys, h => by
    simp only [List.nil_append, decBlocks]
    cases decBlocks h ys <;> rfl
  | x :: xs, ys, h => by
    simp only [List.cons_append, decBlocks]
    cases mtfBlock true 1 16 h x with
    | none => rfl
    | some p =>
      simp only [decBlocks_append xs ys p.1]
      cases decBlocks p.1 xs with
      | none => rfl
      | some q =>
        simp only
        cases decBlocks q.1 ys with
        | none => rfl
        | some _ => simp

theorem decBlocks_append_some {xs ys : List (List Byte)} {h h'' : Nat → Vec} {o : List Byte}
    (he : decBlocks h (xs ++ ys) = some (h'', o)) :
    ∃ h' o1 o2, decBlocks h xs = some (h', o1) ∧ decBlocks h' ys = some (h'', o2) ∧ o = o1 ++ o2 := by
  rw [decBlocks_append] at he
  cases h1 : decBlocks h xs with
  | none => rw [h1] at he; cases he
  | some p =>
    rw [h1] at he
    simp only at he
    cases h2 : decBlocks p.1 ys with
    | none => rw [h2] at he; cases he
    | some q =>
      rw [h2] at he
      simp only [Option.some.injEq, Prod.mk.injEq] at he
      exact ⟨p.1, p.2, q.2, rfl, by rw [h2, ← he.1], he.2.symm⟩

theorem blocks16_append {g g' : Nat} {x y : List Byte} (hx : x.length = 16 * g) :
    blocks16 (g + g') (x ++ y) = blocks16 g x ++ blocks16 g' y := by
  unfold blocks16
  rw [List.range_add, List.map_append, List.map_map]
  congr 1
  · apply List.map_congr_left
    intro i hi
    rw [List.mem_range] at hi
    rw [List.drop_append_of_le_length (by omega), List.take_append_of_le_length (by rw [List.length_drop]; omega)]
  · apply List.map_congr_left
    intro i _
    simp only [Function.comp]
    rw [Nat.mul_add, ← hx, List.drop_append, List.drop_eq_nil_of_le (by omega), Nat.add_sub_cancel_left, List.nil_append]

theorem blocks16_zero (l : List Byte) : blocks16 0 l = [] := rfl

/-- What decoding a piece of a copy section does. -/
def MDec.adv (s : MDec) (h : Nat → Vec) (r os : List Byte) : MDec :=
  { s with h := h, src := r, o := s.o + os.length, m := wrL s.m s.o os }

theorem dcGroup_run {cap g d : Nat} {unp : List Byte → List Byte} {s : MDec} {h : Nat → Vec} {x r os : List Byte}
    (hx : x.length = d) (hs : s.src = x ++ r) (hd : decBlocks s.h (blocks16 g (unp x)) = some (h, os))
    (hc : s.o + os.length ≤ cap) : dcGroup cap g d unp s = some (s.adv h r os) := by
  unfold dcGroup
  rw [hs, takeN_append _ _ hx]
  simp only [hd]
  unfold MDec.store
  rw [if_pos hc]
  rfl

theorem dcWhile_run {cap g d : Nat} {f unp : List Byte → List Byte} (hg : 0 < g) :
    ∀ (xs : List (List Byte)) (fuel left rest : Nat) (s : MDec) (h : Nat → Vec) (r os : List Byte),
      (∀ x ∈ xs, x.length = 16 * g) → (∀ x ∈ xs, (f x).length = d) → (∀ x ∈ xs, unp (f x) = x) →
      s.src = (xs.map f).flatten ++ r → decBlocks s.h (blocks16 (xs.length * g) xs.flatten) = some (h, os) →
      s.o + os.length ≤ cap → left = xs.length * g + rest → rest < g → xs.length ≤ fuel →
      dcWhile cap g d unp fuel left s = some (rest, s.adv h r os)
  | [], fuel, left, rest, s, h, r, os, _, _, _, hs, hd, _, hl, hr, _ => by
    simp only [List.length_nil, Nat.zero_mul, Nat.zero_add] at hl hd
    rw [blocks16_zero, decBlocks] at hd
    cases hd
    have e : s.adv s.h r [] = s := by
      unfold MDec.adv
      rw [wrL_nil]
      simp only [List.map_nil, List.flatten_nil, List.nil_append] at hs
      rw [← hs]
      rfl
    rw [e, hl]
    cases fuel with
    | zero => rfl
    | succ fuel => rw [dcWhile, if_neg (by omega)]
  | x :: xs, fuel, left, rest, s, h, r, os, hx, hf, hu, hs, hd, hc, hl, hr, hfuel => by
    obtain ⟨fuel, rfl⟩ : ∃ g, fuel = g + 1 := ⟨fuel - 1, by simp at hfuel; omega⟩
    rw [List.length_cons, Nat.succ_mul] at hd hl
    rw [List.length_cons] at hfuel
    rw [Nat.add_comm, List.flatten_cons, blocks16_append (hx x (by simp))] at hd
    obtain ⟨h1, o1, o2, hd1, hd2, rfl⟩ := decBlocks_append_some hd
    rw [List.length_append] at hc
    rw [dcWhile, if_pos (by omega)]
    rw [dcGroup_run (h := h1) (r := (xs.map f).flatten ++ r) (os := o1) (hf x (by simp)) (by rw [hs]; simp)
      (by rw [hu x (by simp)]; exact hd1) (by omega)]
    simp only
    rw [dcWhile_run hg xs fuel (left - g) rest _ h r o2 (fun y hy => hx y (by simp [hy])) (fun y hy => hf y (by simp [hy]))
      (fun y hy => hu y (by simp [hy])) rfl hd2 (by show s.o + o1.length + o2.length ≤ cap; omega) (by omega) hr (by omega)]
    unfold MDec.adv
    simp only [wrL_append, List.length_append, Nat.add_assoc]

/-! ### The four kinds of copy sections -/

/-- `body` stands for the blocks `idx` of a copy section with header byte `mode`. -/
def CopyBody (mode : Byte) (count : Nat) (idx body : List Byte) : Prop :=
  ∀ (cap : Nat) (s : MDec) (h : Nat → Vec) (r os : List Byte), s.src = body ++ r →
    decBlocks s.h (blocks16 count idx) = some (h, os) → s.o + os.length ≤ cap →
    dcCopy cap mode count s = some (s.adv h r os)

theorem adv_adv (s : MDec) (h1 h2 : Nat → Vec) (r1 r2 x y : List Byte) :
    (s.adv h1 r1 x).adv h2 r2 y = s.adv h2 r2 (x ++ y) := by
  unfold MDec.adv
  simp only [wrL_append, List.length_append, Nat.add_assoc]

/-- Two unpacking loops behind each other. -/
theorem two_run {cap g d d' : Nat} {f f' unp unp' : List Byte → List Byte} (hg : 0 < g) {count : Nat}
    {idx : List Byte} {xs ys : List (List Byte)}
    (hi : idx = xs.flatten ++ ys.flatten) (hcount : count = xs.length * g + ys.length) (hys : ys.length < g)
    (hx : ∀ x ∈ xs, x.length = 16 * g) (hf : ∀ x ∈ xs, (f x).length = d) (hu : ∀ x ∈ xs, unp (f x) = x)
    (hx' : ∀ x ∈ ys, x.length = 16) (hf' : ∀ x ∈ ys, (f' x).length = d') (hu' : ∀ x ∈ ys, unp' (f' x) = x)
    {s : MDec} {h : Nat → Vec} {r os : List Byte} (hs : s.src = (xs.map f).flatten ++ (ys.map f').flatten ++ r)
    (hd : decBlocks s.h (blocks16 count idx) = some (h, os)) (hc : s.o + os.length ≤ cap) :
    ∃ s', dcWhile cap g d unp count count s = some (ys.length, s') ∧
      dcWhile cap 1 d' unp' ys.length ys.length s' = some (0, s.adv h r os) := by
  subst hi
  rw [hcount, blocks16_append (by rw [flatten_len xs hx, Nat.mul_left_comm])] at hd
  obtain ⟨h1, o1, o2, hd1, hd2, rfl⟩ := decBlocks_append_some hd
  rw [List.length_append] at hc
  refine ⟨s.adv h1 ((ys.map f').flatten ++ r) o1, ?_, ?_⟩
  · refine dcWhile_run hg xs count count ys.length s h1 _ o1 hx hf hu (by rw [hs]; simp) hd1 (by omega) hcount hys ?_
    have := Nat.le_mul_of_pos_right xs.length hg
    omega
  · have h3 := dcWhile_run (cap := cap) (f := f') (d := d') (unp := unp') Nat.one_pos ys ys.length ys.length 0
      (s.adv h1 ((ys.map f').flatten ++ r) o1) h r o2 (fun x hx => hx' x hx) hf' hu' rfl
      (by rw [Nat.mul_one]; exact hd2) (by show s.o + o1.length + o2.length ≤ cap; omega) (by omega) (by omega) (by omega)
    rw [h3, adv_adv]

/-- Cut `count` blocks into groups of `g` and single blocks. -/
theorem cut_blocks {count : Nat} {idx : List Byte} (hl : idx.length = 16 * count) (g : Nat) (hg : 0 < g) :
    ∃ (xs ys : List (List Byte)), idx = xs.flatten ++ ys.flatten ∧ count = xs.length * g + ys.length ∧ ys.length < g ∧
      (∀ x ∈ xs, x.length = 16 * g) ∧ (∀ x ∈ ys, x.length = 16) := by
  have hdm := Nat.div_add_mod count g
  have h0 : count / g * (16 * g) = 16 * (g * (count / g)) := by
    rw [Nat.mul_left_comm, Nat.mul_comm (count / g) g]
  obtain ⟨xs, r, h1, h2, h3, h4⟩ := cut (16 * g) (count / g) idx (by omega)
  have hr : r.length = 16 * (count % g) := by omega
  obtain ⟨ys, r', h5, h6, h7, h8⟩ := cut 16 (count % g) r (by omega)
  have hr' : r' = [] := List.eq_nil_of_length_eq_zero (by omega)
  subst hr'
  rw [List.append_nil] at h5
  refine ⟨xs, ys, by rw [h1, h5], ?_, by rw [h6]; exact Nat.mod_lt _ hg, h4, h8⟩
  rw [h2, h6, Nat.mul_comm]
  omega

/-- What a packing routine in the output buffer leaves there. -/
def Packs (ip : Buf → Nat → Nat → Nat → Buf × Nat) (mode : Byte) (ok : List Byte → Prop) : Prop :=
  ∀ (b : Buf) (rp wp count : Nat) (idx : List Byte), idx.length = 16 * count → rd b.m rp (16 * count) = idx → ok idx →
    wp ≤ rp → ∃ b' body, ip b rp wp (count * 16) = (b', wp + body.length) ∧ Wrote b b' wp body ∧
      body.length ≤ 16 * count ∧ ∀ md : Byte, md &&& 6 = mode → CopyBody md count idx body

theorem Below.part {b : Nat} {xs ys : List (List Byte)} (h : Below b (xs.flatten ++ ys.flatten)) :
    (∀ x ∈ xs, Below b x) ∧ ∀ x ∈ ys, Below b x := by
  constructor <;> intro x hx z hz <;> apply h <;> simp only [List.mem_append, List.mem_flatten]
  · exact .inl ⟨x, hx, hz⟩
  · exact .inr ⟨x, hx, hz⟩

/-- Two packing loops behind each other. -/
theorem ip_two {lim k d d' : Nat} {f f' : List Byte → List Byte} {g : Nat} (hg : 0 < g) (hk : k = 16 * g) (hlim : lim = k)
    (hd : d ≤ k) (hd' : d' ≤ 16) {b : Buf} {rp wp count : Nat} {xs ys : List (List Byte)}
    (hrd : rd b.m rp (16 * count) = xs.flatten ++ ys.flatten) (hcount : count = xs.length * g + ys.length)
    (hys : ys.length < g) (hx : ∀ x ∈ xs, x.length = 16 * g) (hf : ∀ x ∈ xs, (f x).length = d)
    (hx' : ∀ x ∈ ys, x.length = 16) (hf' : ∀ x ∈ ys, (f' x).length = d') (hw : wp ≤ rp) :
    ∃ b' b'', ipFor lim k d f (b, rp, wp, count * 16) = (b', rp + xs.length * k, wp + xs.length * d, ys.length * 16) ∧
      ipFor 1 16 d' f' (b', rp + xs.length * k, wp + xs.length * d, ys.length * 16) =
        (b'', rp + xs.length * k + ys.length * 16, wp + xs.length * d + ys.length * d', 0) ∧
      Wrote b b'' wp ((xs.map f).flatten ++ (ys.map f').flatten) ∧
      ((xs.map f).flatten ++ (ys.map f').flatten).length = xs.length * d + ys.length * d' ∧
      xs.length * d + ys.length * d' ≤ 16 * count ∧ Wrote b b' wp (xs.map f).flatten ∧
      rd b'.m (rp + xs.length * k) (ys.length * 16) = ys.flatten := by
  subst hk
  have h0 : xs.length * (16 * g) = 16 * (xs.length * g) := Nat.mul_left_comm _ _ _
  have hsize : 16 * count = xs.length * (16 * g) + ys.length * 16 := by rw [h0, hcount]; omega
  rw [hsize, rd_cat] at hrd
  obtain ⟨e1, e2⟩ := List.append_inj hrd (by rw [rd_length, flatten_len xs hx])
  obtain ⟨b', h1, h2⟩ := ipWhile_run (lim := lim) (f := f) (d := d) (by omega) (by omega) hd xs (count * 16) b rp wp (count * 16)
    (ys.length * 16) hx hf e1 hw (by omega) (by omega) (by
      have := Nat.le_mul_of_pos_right xs.length hg
      omega)
  have hl1 : ((xs.map f).flatten).length = xs.length * d := by
    rw [flatten_len (k := d) _ (by simpa using hf), List.length_map]
  have hl2 : ((ys.map f').flatten).length = ys.length * d' := by
    rw [flatten_len (k := d') _ (by simpa using hf'), List.length_map]
  have hle : xs.length * d ≤ xs.length * (16 * g) := Nat.mul_le_mul_left _ hd
  have hle' : ys.length * d' ≤ ys.length * 16 := Nat.mul_le_mul_left _ hd'
  have e3 : rd b'.m (rp + xs.length * (16 * g)) (ys.length * 16) = ys.flatten := by
    rw [← e2]
    exact rd_congr fun j h3 h4 => h2.rest j (by omega)
  obtain ⟨b'', h3, h4⟩ := ipWhile_run (lim := 1) (k := 16) (f := f') (d := d') (by omega) (by omega) hd' ys (ys.length * 16) b'
    (rp + xs.length * (16 * g)) (wp + xs.length * d) (ys.length * 16) 0 hx' hf' e3
    (by omega) (by omega) (by omega) (by omega)
  refine ⟨b', b'', h1, h3, h2.append (by rw [hl1]; exact h4), by rw [List.length_append, hl1, hl2], by omega, h2, e3⟩

theorem packs2 : Packs ipEnc2 6 (Below 2) := by
  intro b rp wp count idx hl hrd hb hw
  obtain ⟨xs, ys, hi, hcount, hys, hx, hx'⟩ := cut_blocks hl 4 (by omega)
  have hbp := Below.part (hi ▸ hb)
  obtain ⟨b', b'', h1, h2, h3, h4, h5, -⟩ := ip_two (lim := 64) (k := 64) (d := 16) (d' := 4) (f := pack2x4) (f' := pack2Le 4)
    (g := 4) (by omega) rfl rfl (by omega) (by omega) (hrd.trans hi) hcount hys hx (fun x _ => pack2x4_length x) hx'
    (fun x _ => pack2Le_length 4 x) hw
  refine ⟨b'', _, ?_, h3, by omega, ?_⟩
  · unfold ipEnc2
    simp only [h1, h2]
    rw [h4, Nat.add_assoc]
  · intro md hmd cap s h r os hs hd hc
    obtain ⟨s', h6, h7⟩ := two_run (cap := cap) (d := 16) (d' := 4) (f := pack2x4) (f' := pack2Le 4) (unp := unpack2x4)
      (unp' := unpack2Le 4) (by omega) hi hcount hys hx
      (fun x _ => pack2x4_length x) (fun x h => unpack2x4_pack (hx x h) (hbp.1 x h)) hx' (fun x _ => pack2Le_length 4 x)
      (fun x h => unpack2Le_pack (hx' x h) (hbp.2 x h)) hs hd hc
    unfold dcCopy
    rw [hmd, if_neg (by decide), if_pos rfl, h6]
    simp only [h7, Option.map_some]

theorem packs3 : Packs ipEnc3 4 (Below 3) := by
  intro b rp wp count idx hl hrd hb hw
  obtain ⟨xs, ys, hi, hcount, hys, hx, hx'⟩ := cut_blocks hl 6 (by omega)
  have hbp := Below.part (hi ▸ hb)
  obtain ⟨b', b'', h1, h2, h3, h4, h5, -⟩ := ip_two (lim := 96) (k := 96) (d := 36) (d' := 6) (f := pack3x6) (f' := pack3x1)
    (g := 6) (by omega) rfl rfl (by omega) (by omega) (hrd.trans hi) hcount hys hx (fun x _ => pack3x6_length x) hx'
    (fun x _ => pack3x1_length x) hw
  refine ⟨b'', _, ?_, h3, by omega, ?_⟩
  · unfold ipEnc3
    simp only [h1, h2]
    rw [h4, Nat.add_assoc]
  · intro md hmd cap s h r os hs hd hc
    obtain ⟨s', h6, h7⟩ := two_run (cap := cap) (d := 36) (d' := 6) (f := pack3x6) (f' := pack3x1) (unp := unpack3x6)
      (unp' := unpack3x1) (by omega) hi hcount hys hx
      (fun x _ => pack3x6_length x) (fun x h => unpack3x6_pack (hx x h) (hbp.1 x h)) hx' (fun x _ => pack3x1_length x)
      (fun x h => unpack3x1_pack (hx' x h) (hbp.2 x h)) hs hd hc
    unfold dcCopy
    rw [hmd, if_neg (by decide), if_neg (by decide), if_pos rfl, h6]
    simp only [h7, Option.map_some]

theorem packs4 : Packs ipEnc4 2 (Below 4) := by
  intro b rp wp count idx hl hrd hb hw
  obtain ⟨xs, ys, hi, hcount, hys, hx, hx'⟩ := cut_blocks hl 2 (by omega)
  have hbp := Below.part (hi ▸ hb)
  obtain ⟨b', b'', h1, h2, h3, h4, h5, h8, h9⟩ := ip_two (lim := 32) (k := 32) (d := 16) (d' := 8) (f := pack4x2) (f' := pack4x1)
    (g := 2) (by omega) rfl rfl (by omega) (by omega) (hrd.trans hi) hcount hys hx (fun x _ => pack4x2_length x) hx'
    (fun x _ => pack4x1_length x) hw
  have hdec : ∀ md : Byte, md &&& 6 = 2 →
      CopyBody md count idx ((xs.map pack4x2).flatten ++ (ys.map pack4x1).flatten) := by
    intro md hmd cap s h r os hs hd hc
    obtain ⟨s', h6, h7⟩ := two_run (cap := cap) (d := 16) (d' := 8) (f := pack4x2) (f' := pack4x1) (unp := unpack4x2)
      (unp' := unpack4x1) (by omega) hi hcount hys hx
      (fun x _ => pack4x2_length x) (fun x h => unpack4x2_pack (hx x h) (hbp.1 x h)) hx' (fun x _ => pack4x1_length x)
      (fun x h => unpack4x1_pack (hx' x h) (hbp.2 x h)) hs hd hc
    unfold dcCopy
    rw [hmd, if_neg (by decide), if_neg (by decide), if_neg (by decide), h6]
    simp only
    by_cases hy : ys.length = 0
    · rw [if_pos hy]
      rw [hy] at h7
      simp only [dcWhile, Option.some.injEq, Prod.mk.injEq, true_and] at h7
      rw [h7]
    · rw [if_neg hy]
      have hy1 : ys.length = 1 := by omega
      rw [hy1] at h7
      simp only [dcWhile] at h7
      rw [if_pos (by omega)] at h7
      revert h7
      cases dcGroup cap 1 8 unpack4x1 s' with
      | none => intro h7; cases h7
      | some z => intro h7; simpa using h7
  cases ys with
  | nil =>
    refine ⟨b', _, ?_, ?_, by omega, hdec⟩
    · unfold ipEnc4
      simp only [h1, List.length_nil, Nat.zero_mul]
      rw [if_neg (by omega), h4]
      simp
    · simpa using h8
  | cons y ys =>
    obtain rfl : ys = [] := List.eq_nil_of_length_eq_zero (by simp at hys; omega)
    refine ⟨b'.put (wp + xs.length * 16) (pack4x1 y), _, ?_, ?_, by omega, hdec⟩
    · unfold ipEnc4
      simp only [h1, List.length_cons, List.length_nil, Nat.zero_add, Nat.one_mul]
      rw [if_pos (by omega)]
      simp only [List.length_cons, List.length_nil, Nat.zero_add, Nat.one_mul, List.flatten_cons, List.flatten_nil,
        List.append_nil] at h9
      rw [h9, h4]
      simp [Nat.add_assoc]
    · have e : ((xs.map pack4x2).flatten).length = xs.length * 16 := by
        rw [flatten_len (k := 16) _ (by simp [pack4x2_length]), List.length_map]
      have := h8.append (y := pack4x1 y) (b'' := b'.put (wp + xs.length * 16) (pack4x1 y)) (by rw [e]; exact Wrote.put _ _ _)
      simpa using this

theorem raw_body {count : Nat} {idx : List Byte} (hl : idx.length = 16 * count) (md : Byte) (hmd : md &&& 6 = 0) :
    CopyBody md count idx idx := by
  obtain ⟨xs, r', h5, h6, h7, h8⟩ := cut 16 count idx (by omega)
  obtain rfl : r' = [] := List.eq_nil_of_length_eq_zero (by omega)
  rw [List.append_nil] at h5
  intro cap s h r os hs hd hc
  have h3 := dcWhile_run (cap := cap) (f := id) (d := 16) (unp := id) Nat.one_pos xs count count 0
      s h r os (fun x hx => h8 x hx) h8 (by simp) (by rw [hs, List.map_id, h5])
      (by rw [Nat.mul_one, h6, ← h5]; exact hd) hc (by omega) (by omega) (by omega)
  unfold dcCopy
  rw [if_pos hmd, h3]
  rfl

theorem packs0 : Packs ipMove 0 (fun _ => True) := by
  intro b rp wp count idx hl hrd _ hw
  obtain ⟨xs, r', h5, h6, h7, h8⟩ := cut 16 count idx (by omega)
  obtain rfl : r' = [] := List.eq_nil_of_length_eq_zero (by omega)
  rw [List.append_nil] at h5
  obtain ⟨b', h1, h2⟩ := ipWhile_run (lim := 1) (k := 16) (f := id) (d := 16) (by omega) (by omega) (by omega) xs (count * 16) b rp wp
    (count * 16) 0 h8 h8 (by rw [h6, Nat.mul_comm, ← h5]; exact hrd) hw (by omega) (by omega) (by omega)
  rw [List.map_id, ← h5] at h2
  refine ⟨b', idx, ?_, h2, by omega, raw_body hl⟩
  unfold ipMove ipFor
  simp only [h1]
  rw [hl, h6, Nat.mul_comm]

end Hrk
