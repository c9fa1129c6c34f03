import Verif.BitpackStep

/-
C30: bit packing followed by unpacking gives the input back.
-/

namespace Hrk

/-! ### Loops -/

/-- Positions stay aligned where aligned instructions are used. -/
def BpAl.Good (al : BpAl) (c d pos out : Nat) : Prop :=
  (∀ a, al.aIn = some a → a % 16 = 0 ∧ c % 16 = 0 ∧ pos % 16 = 0) ∧
  (∀ a, al.aOut = some a → a % 16 = 0 ∧ d % 16 = 0 ∧ out % 16 = 0)

theorem BpAl.Good.none (c d pos out : Nat) : BpAl.Good {} c d pos out :=
  ⟨fun _ h => (nomatch h), fun _ h => (nomatch h)⟩

theorem BpAl.Good.step {al : BpAl} {c d pos out : Nat} (h : al.Good c d pos out) : al.Good c d (pos + c) (out + d) :=
  ⟨fun a ha => ⟨(h.1 a ha).1, (h.1 a ha).2.1, by have := h.1 a ha; omega⟩,
   fun a ha => ⟨(h.2 a ha).1, (h.2 a ha).2.1, by have := h.2 a ha; omega⟩⟩

theorem BpAl.Good.ok {al : BpAl} {c d : Nat} {s : BpSt} (h : al.Good c d s.pos s.out.length) : al.bad s = false := by
  unfold BpAl.bad
  cases hi : al.aIn with
  | none =>
    cases ho : al.aOut with
    | none => rfl
    | some a => have := h.2 a ho; simp; omega
  | some b =>
    have h1 := h.1 b hi
    cases ho : al.aOut with
    | none => simp; omega
    | some a => have := h.2 a ho; simp; omega

theorem bpChunk_run {al : BpAl} {k c d : Nat} {f : List Byte → List Byte} {x r out : List Byte} {pos left : Nat}
    (hx : x.length = c) (hal : al.Good c d pos out.length) :
    bpChunk al k c f ⟨x ++ r, pos, left, out⟩ = some ⟨r, pos + c, left - k, out ++ f x⟩ := by
  unfold bpChunk
  rw [if_neg]
  · subst hx
    simp
  · have := BpAl.Good.ok (s := ⟨x ++ r, pos, left, out⟩) hal
    rw [this]
    simp [← hx]

theorem bpWhile_run {al : BpAl} {lim k c d : Nat} {f : List Byte → List Byte} (hl : lim ≤ k) :
    ∀ (xs : List (List Byte)), (∀ x ∈ xs, x.length = c ∧ (f x).length = d) → ∀ (r out : List Byte) (pos rem fuel : Nat),
      al.Good c d pos out.length → rem < lim → xs.length ≤ fuel →
      bpWhile al lim k c f fuel ⟨xs.flatten ++ r, pos, xs.length * k + rem, out⟩ =
        some ⟨r, pos + xs.length * c, rem, out ++ (xs.map f).flatten⟩
  | [], _, r, out, pos, rem, fuel, _, hr, _ => by
    cases fuel with
    | zero => simp [bpWhile]
    | succ fuel =>
      rw [bpWhile]
      rw [if_neg (by simp; omega)]
      simp
  | x :: xs, hx, r, out, pos, rem, 0, _, _, hf => by simp at hf
  | x :: xs, hx, r, out, pos, rem, fuel + 1, hal, hr, hf => by
    have h1 := hx x (by simp)
    have hlen : (x :: xs).length * k + rem = k + (xs.length * k + rem) := by
      rw [List.length_cons, Nat.succ_mul]; omega
    rw [bpWhile, if_pos (by show lim ≤ (x :: xs).length * k + rem; omega), hlen, List.flatten_cons, List.append_assoc, bpChunk_run h1.1 hal]
    rw [Option.bind_some, Nat.add_sub_cancel_left]
    have := bpWhile_run (al := al) (f := f) hl xs (fun y hy => hx y (by simp [hy])) r (out ++ f x) (pos + c) rem fuel
      (by rw [List.length_append, h1.2]; exact hal.step) hr (by simpa using hf)
    rw [this, List.length_cons, Nat.succ_mul]
    simp only [List.map_cons, List.flatten_cons, List.append_assoc]
    congr 2
    omega

theorem bpFor_run {al : BpAl} {lim k c d : Nat} {f : List Byte → List Byte} (hl : lim ≤ k) (hl' : 1 ≤ lim)
    {xs : List (List Byte)} (hx : ∀ x ∈ xs, x.length = c ∧ (f x).length = d) {r out : List Byte} {pos rem : Nat}
    (hal : al.Good c d pos out.length) (hr : rem < lim) :
    bpFor al lim k c f ⟨xs.flatten ++ r, pos, xs.length * k + rem, out⟩ =
      some ⟨r, pos + xs.length * c, rem, out ++ (xs.map f).flatten⟩ := by
  apply bpWhile_run hl xs hx r out pos rem _ hal hr
  show xs.length ≤ xs.length * k + rem
  have : xs.length * 1 ≤ xs.length * k := Nat.mul_le_mul_left _ (by omega)
  omega

theorem bpIf_run {lim k c : Nat} {f : List Byte → List Byte} {x r out : List Byte} {pos left : Nat} (hl : lim ≤ left)
    (hx : x.length = c) : bpIf lim k c f ⟨x ++ r, pos, left, out⟩ = some ⟨r, pos + c, left - k, out ++ f x⟩ := by
  unfold bpIf
  rw [if_pos hl]
  exact bpChunk_run hx (d := 0) (BpAl.Good.none _ _ _ _)

theorem bpIf_skip {lim k c : Nat} {f : List Byte → List Byte} {s : BpSt} (hl : s.left < lim) :
    bpIf lim k c f s = some s := by
  unfold bpIf
  rw [if_neg (by omega)]

/-! ### Cutting the input into pieces -/

theorem cut (k : Nat) : ∀ (q : Nat) (l : List Byte), q * k ≤ l.length →
    ∃ (xs : List (List Byte)) (r : List Byte), l = xs.flatten ++ r ∧ xs.length = q ∧ r.length = l.length - q * k ∧
      ∀ x ∈ xs, x.length = k
  | 0, l, _ => ⟨[], l, by simp, rfl, by simp, by simp⟩
  | q + 1, l, h => by
    rw [Nat.succ_mul] at h
    obtain ⟨xs, r, h1, h2, h3, h4⟩ := cut k q (l.drop k) (by simp; omega)
    refine ⟨l.take k :: xs, r, ?_, by simp [h2], by rw [Nat.succ_mul, h3, List.length_drop]; omega, ?_⟩
    · rw [List.flatten_cons, List.append_assoc, ← h1, List.take_append_drop]
    · intro x hx
      rcases List.mem_cons.mp hx with rfl | hx
      · simp; omega
      · exact h4 x hx

theorem Below.left {b : Nat} {x y : List Byte} (h : Below b (x ++ y)) : Below b x :=
  fun z hz => h z (by simp [hz])
theorem Below.right {b : Nat} {x y : List Byte} (h : Below b (x ++ y)) : Below b y :=
  fun z hz => h z (by simp [hz])

theorem Below.mem {b : Nat} {xs : List (List Byte)} (h : Below b xs.flatten) {x : List Byte} (hx : x ∈ xs) : Below b x :=
  fun z hz => h z (List.mem_flatten.mpr ⟨x, hx, hz⟩)

theorem flatten_len {k : Nat} : ∀ (xs : List (List Byte)), (∀ x ∈ xs, x.length = k) → xs.flatten.length = xs.length * k
  | [], _ => by simp
  | x :: xs, h => by
    rw [List.flatten_cons, List.length_append, flatten_len xs (fun y hy => h y (by simp [hy])), h x (by simp),
      List.length_cons, Nat.succ_mul, Nat.add_comm]

theorem map_back {b k : Nat} {f g : List Byte → List Byte} (hfg : ∀ x, x.length = k → Below b x → g (f x) = x) :
    ∀ (xs : List (List Byte)), (∀ x ∈ xs, x.length = k) → Below b xs.flatten → ((xs.map f).map g) = xs
  | [], _, _ => rfl
  | x :: xs, h, hb => by
    rw [List.map_cons, List.map_cons, hfg x (h x (by simp)) (hb.mem (by simp)),
      map_back hfg xs (fun y hy => h y (by simp [hy])) (fun z hz => hb z (by simp at hz ⊢; exact .inr hz))]

/-- A loop and its counterpart. -/
theorem bpFor_pair {al al' : BpAl} {b lim k lim' k' d : Nat} {f g : List Byte → List Byte}
    (hl : lim ≤ k) (h1 : 1 ≤ lim) (hl' : lim' ≤ k') (h1' : 1 ≤ lim') (hd : ∀ x, x.length = k → (f x).length = d)
    (hfg : ∀ x, x.length = k → Below b x → g (f x) = x) {xs : List (List Byte)} (hx : ∀ x ∈ xs, x.length = k)
    (hb : Below b xs.flatten) {r out r' out' : List Byte} {pos rem pos' rem' : Nat}
    (hal : al.Good k d pos out.length) (hal' : al'.Good d k pos' out'.length) (hr : rem < lim) (hr' : rem' < lim') :
    bpFor al lim k k f ⟨xs.flatten ++ r, pos, xs.length * k + rem, out⟩ =
      some ⟨r, pos + xs.length * k, rem, out ++ (xs.map f).flatten⟩ ∧
    bpFor al' lim' k' d g ⟨(xs.map f).flatten ++ r', pos', xs.length * k' + rem', out'⟩ =
      some ⟨r', pos' + xs.length * d, rem', out' ++ xs.flatten⟩ ∧
    (xs.map f).flatten.length = xs.length * d := by
  have hlen : ∀ y ∈ xs.map f, y.length = d := by
    intro y hy
    obtain ⟨x, hx', rfl⟩ := List.mem_map.mp hy
    exact hd x (hx x hx')
  refine ⟨bpFor_run hl h1 (fun x hx' => ⟨hx x hx', hd x (hx x hx')⟩) hal hr, ?_, ?_⟩
  · have := bpFor_run (al := al') (lim := lim') (k := k') (c := d) (d := k) (f := g) hl' h1' (xs := xs.map f) (r := r')
      (out := out') (pos := pos') (rem := rem') (by
        intro y hy
        refine ⟨hlen y hy, ?_⟩
        obtain ⟨x, hx', rfl⟩ := List.mem_map.mp hy
        rw [hfg x (hx x hx') (hb.mem hx')]
        exact hx x hx') hal' hr'
    rw [map_back hfg xs hx hb, List.length_map] at this
    exact this
  · rw [flatten_len _ hlen, List.length_map]

/-! ### The property -/

/-- `bits` bits per byte: bytes needed for `n` bytes. -/
def packedSize (bits n : Nat) : Nat := (n * bits + 7) / 8

/-- Packing `inp` (wherever it lies in a larger buffer) writes `packedSize` bytes; unpacking those (again within a larger buffer) writes `inp` and leaves `pIn` behind
them. `len` are the accepted lengths; `byEncoded` tells whether the decoder is given the packed or
the original size. `none` would be an access outside the buffers. -/
def PackRoundTrip (bits : Nat) (len : Nat → Prop) (byEncoded : Bool)
    (enc : List Byte → Nat → Option (List Byte)) (dec : List Byte → Nat → Option (List Byte × Nat)) : Prop :=
  ∀ inp more more' : List Byte, len inp.length → (∀ x ∈ inp, x.toNat < 2 ^ bits) →
    ∃ out, enc (inp ++ more) inp.length = some out ∧ out.length = packedSize bits inp.length ∧
      dec (out ++ more') (if byEncoded then out.length else inp.length) = some (inp, out.length)

theorem multiple {k n : Nat} (h : k ∣ n) : ∃ q, n = q * k := by
  obtain ⟨q, hq⟩ := h
  exact ⟨q, by rw [hq, Nat.mul_comm]⟩

/-- One loop on either side. -/
theorem single_loop {bits k d : Nat} {al al' : BpAl} {f g : List Byte → List Byte} (hk : 1 ≤ k) (hd1 : 1 ≤ d)
    (hd : ∀ x, x.length = k → (f x).length = d) (hfg : ∀ x, x.length = k → Below bits x → g (f x) = x)
    (hal : al.Good k d 0 0) (hal' : al'.Good d k 0 0) (hs : k * bits = d * 8) :
    PackRoundTrip bits (fun n => k ∣ n) true (fun inp n => bpOut (bpFor al 1 k k f (bpStart inp n)))
      (fun inp n => bpRes (bpFor al' 1 d d g (bpStart inp n))) := by
  intro inp more more' hn hb
  obtain ⟨q, hq⟩ := multiple hn
  obtain ⟨xs, r, h1, h2, h3, h4⟩ := cut k q inp (by omega)
  have hr : r = [] := List.length_eq_zero_iff.mp (by rw [h3, hq]; omega)
  rw [hr, List.append_nil] at h1
  subst h1
  have := bpFor_pair (al := al) (al' := al') (b := bits) (lim := 1) (k := k) (lim' := 1) (k' := d) (d := d) (f := f) (g := g)
    hk (by omega) hd1 (by omega) hd hfg h4 hb (r := more) (out := []) (r' := more') (out' := []) (pos := 0) (rem := 0)
    (pos' := 0) (rem' := 0) hal hal' (by omega) (by omega)
  obtain ⟨t1, t2, t3⟩ := this
  refine ⟨(xs.map f).flatten, ?_, ?_, ?_⟩
  · show bpOut (bpFor al 1 k k f ⟨xs.flatten ++ more, 0, xs.flatten.length, []⟩) = _
    rw [hq, ← h2]
    rw [show xs.length * k = xs.length * k + 0 from rfl, t1]
    simp [bpOut]
  · rw [t3, hq, h2, packedSize]
    have : q * k * bits = q * d * 8 := by rw [Nat.mul_assoc, hs, ← Nat.mul_assoc]
    omega
  · rw [if_pos rfl]
    show bpRes (bpFor al' 1 d d g ⟨(xs.map f).flatten ++ more', 0, (xs.map f).flatten.length, []⟩) = _
    rw [t3, show xs.length * d = xs.length * d + 0 from rfl, t2]
    simp [bpRes]

theorem good_in {al : Bool} {a c d : Nat} (ha : al = true → a % 16 = 0) (hc : c % 16 = 0) :
    (alIn al a).Good c d 0 0 := by
  refine ⟨?_, fun _ h => (nomatch h)⟩
  intro b hb
  unfold alIn at hb
  cases al with
  | false => exact nomatch hb
  | true => exact ⟨by rw [← Option.some.inj hb]; exact ha rfl, hc, rfl⟩

theorem good_out {al : Bool} {a c d : Nat} (ha : al = true → a % 16 = 0) (hd : d % 16 = 0) :
    (alOut al a).Good c d 0 0 := by
  refine ⟨fun _ h => (nomatch h), ?_⟩
  intro b hb
  unfold alOut at hb
  cases al with
  | false => exact nomatch hb
  | true => exact ⟨by rw [← Option.some.inj hb]; exact ha rfl, hd, rfl⟩

theorem good_both {al : Bool} {a b c d : Nat} (ha : al = true → a % 16 = 0 ∧ b % 16 = 0) (hc : c % 16 = 0) (hd : d % 16 = 0) :
    (alBoth al a b).Good c d 0 0 := by
  unfold alBoth
  cases al with
  | false => exact ⟨fun _ h => (nomatch h), fun _ h => (nomatch h)⟩
  | true =>
    refine ⟨fun x hx => ⟨?_, hc, rfl⟩, fun x hx => ⟨?_, hd, rfl⟩⟩
    · rw [← Option.some.inj hx]; exact (ha rfl).1
    · rw [← Option.some.inj hx]; exact (ha rfl).2

/-- C30, 1 bit: `bitpack_encode1_sse2_{aligned,unaligned}` and `bitpack_decode1_…` for every
multiple of 16; the `_aligned` ones need their vector side aligned. -/
theorem C30_bitpack1 (al al' : Bool) (aIn aOut : Nat) (ha : al = true → aIn % 16 = 0) (ha' : al' = true → aOut % 16 = 0) :
    PackRoundTrip 1 (fun n => 16 ∣ n) true (bpEnc1 al aIn) (bpDec1 al' aOut) :=
  single_loop (by omega) (by omega) (fun x _ => pack1_length x) (fun _ => unpack1_pack) (good_in ha rfl) (good_out ha' rfl) rfl

/-- C30, 2 bits: `bitpack_encode2_sse2_{aligned,unaligned}` and `bitpack_decode2_…`. -/
theorem C30_bitpack2 (al al' : Bool) (aIn aOut aIn' aOut' : Nat) (ha : al = true → aIn % 16 = 0 ∧ aOut % 16 = 0)
    (ha' : al' = true → aIn' % 16 = 0 ∧ aOut' % 16 = 0) :
    PackRoundTrip 2 (fun n => 64 ∣ n) true (bpEnc2 al aIn aOut) (bpDec2 al' aIn' aOut') :=
  single_loop (by omega) (by omega) (fun x _ => pack2x4_length x) (fun _ => unpack2x4_pack) (good_both ha rfl rfl)
    (good_both ha' rfl rfl) rfl

/-- C30, 3 bits, three blocks at a time: `bitpack_encode3_3_sse2_…`, `bitpack_decode3_3_sse2_…`. -/
theorem C30_bitpack3_3 (al al' : Bool) (aIn aOut : Nat) (ha : al = true → aIn % 16 = 0) (ha' : al' = true → aOut % 16 = 0) :
    PackRoundTrip 3 (fun n => 48 ∣ n) true (bpEnc3x3 al aIn) (bpDec3x3 al' aOut) :=
  single_loop (by omega) (by omega) (fun x _ => pack3x3_length x) (fun _ => unpack3x3_pack) (good_in ha rfl) (good_out ha' rfl) rfl

/-- C30, 3 bits, six blocks at a time: `bitpack_encode3_6_sse2_…`, `bitpack_decode3_6_sse2_…`. -/
theorem C30_bitpack3_6 (al al' : Bool) (aIn aOut : Nat) (ha : al = true → aIn % 16 = 0) (ha' : al' = true → aOut % 16 = 0) :
    PackRoundTrip 3 (fun n => 96 ∣ n) true (bpEnc3x6 al aIn) (bpDec3x6 al' aOut) :=
  single_loop (by omega) (by omega) (fun x _ => pack3x6_length x) (fun _ => unpack3x6_pack) (good_in ha rfl) (good_out ha' rfl) rfl

/-! ### Functions with several stages -/

theorem len_of_flatten {k q : Nat} {xs : List (List Byte)} (h : ∀ x ∈ xs, x.length = k) (hq : xs.length = q) :
    xs.flatten.length = q * k := by rw [flatten_len xs h, hq]

/-- C30, 4 bits: `bitpack_encode4_sse2_{aligned,unaligned}` and `bitpack_decode4_…` for every
length. -/
theorem C30_bitpack4 (al al' : Bool) (aIn aOut aIn' aOut' : Nat) (ha : al = true → aIn % 16 = 0 ∧ aOut % 16 = 0)
    (ha' : al' = true → aIn' % 16 = 0 ∧ aOut' % 16 = 0) :
    PackRoundTrip 4 (fun _ => True) false (bpEnc4 al aIn aOut) (bpDec4 al' aIn' aOut') := by
  intro inp more more' _ hb
  obtain ⟨xs, r, e1, l1, lr, hx⟩ := cut 32 (inp.length / 32) inp (by omega)
  obtain ⟨ys, z, e2, l2, lz, hy⟩ := cut 2 (r.length / 2) r (by omega)
  generalize hq : inp.length / 32 = q at *
  generalize hp : r.length / 2 = p at *
  have lx : xs.flatten.length = q * 32 := len_of_flatten hx l1
  have ly : ys.flatten.length = p * 2 := len_of_flatten hy l2
  subst e2
  subst e1
  have hn : (xs.flatten ++ (ys.flatten ++ z)).length = xs.length * 32 + (ys.length * 2 + z.length) := by
    simp only [List.length_append, lx, ly, l1, l2]
  rw [hn] at hq
  have hbx : Below 4 xs.flatten := Below.left hb
  have hby : Below 4 ys.flatten := Below.left (Below.right hb)
  have hrl : ys.length * 2 + z.length < 32 := by omega
  have hzl : z.length < 2 := by simp only [List.length_append, ly] at hp; omega
  -- what follows the blocks in the packed stream
  obtain ⟨tail, htail⟩ : ∃ t, t = if z = [] then ([] : List Byte) else copy1 z := ⟨_, rfl⟩
  have P1 := bpFor_pair (al := alBoth al aIn aOut) (al' := alBoth al' aIn' aOut') (b := 4) (lim := 32) (k := 32) (lim' := 32)
    (k' := 32) (d := 16) (f := pack4x2) (g := unpack4x2) (by omega) (by omega) (by omega) (by omega)
    (fun x _ => pack4x2_length x) (fun _ => unpack4x2_pack) hx hbx (r := ys.flatten ++ z ++ more) (out := [])
    (r' := (ys.map pack4Pair).flatten ++ tail ++ more') (out' := []) (pos := 0) (rem := ys.length * 2 + z.length) (pos' := 0)
    (rem' := ys.length * 2 + z.length) (good_both ha rfl rfl) (good_both ha' rfl rfl) hrl hrl
  have P2 := bpFor_pair (al := {}) (al' := {}) (b := 4) (lim := 2) (k := 2) (lim' := 2)
    (k' := 2) (d := 1) (f := pack4Pair) (g := unpack4Pair) (by omega) (by omega) (by omega) (by omega)
    (fun x _ => rfl) (fun _ => unpack4Pair_pack) hy hby (r := z ++ more) (out := (xs.map pack4x2).flatten)
    (r' := tail ++ more') (out' := xs.flatten) (pos := xs.length * 32) (rem := z.length) (pos' := xs.length * 16)
    (rem' := z.length) (BpAl.Good.none _ _ _ _) (BpAl.Good.none _ _ _ _) hzl hzl
  obtain ⟨a1, b1, c1⟩ := P1
  obtain ⟨a2, b2, c2⟩ := P2
  rw [List.append_assoc] at a1 b1
  rw [List.nil_append, Nat.zero_add] at a1 b1
  refine ⟨(xs.map pack4x2).flatten ++ (ys.map pack4Pair).flatten ++ tail, ?_, ?_, ?_⟩
  · unfold bpEnc4 bpStart
    rw [hn, List.append_assoc, List.append_assoc, a1]
    simp only [Option.bind_eq_bind, Option.bind_some]
    rw [a2]
    simp only [Option.bind_some]
    match z, hzl with
    | [], _ =>
      rw [bpIf_skip (by simp), htail]
      simp [bpOut]
    | [c], _ =>
      rw [bpIf_run (x := [c]) (c := 1) (by simp) rfl, htail]
      simp [bpOut]
  · have ht : tail.length = z.length := by
      rw [htail]
      match z, hzl with
      | [], _ => rfl
      | [c], _ => rfl
    rw [hn]
    simp only [List.length_append, c1, c2, ht]
    unfold packedSize
    omega
  · unfold bpDec4 bpStart
    simp only [Bool.false_eq_true, if_false]
    rw [hn, List.append_assoc, List.append_assoc, b1]
    simp only [Option.bind_eq_bind, Option.bind_some]
    rw [b2]
    simp only [Option.bind_some]
    match z, hzl with
    | [], _ =>
      rw [bpIf_skip (by simp), htail]
      simp only [bpRes, Option.map_some, if_true, List.append_nil, List.length_append, c1, c2]
    | [c], _ =>
      rw [htail, if_neg (by simp), bpIf_run (x := copy1 [c]) (c := 1) (by simp) rfl]
      simp only [bpRes, Option.map_some, List.length_append, c1, c2, List.append_assoc]
      rw [copy1_copy rfl]
      rfl

/-- C30, 4 bits: `bitpack_encode4_sse2_unaligned_m128i` and `bitpack_decode4_…_m128i`. -/
theorem C30_bitpack4_m128i : PackRoundTrip 4 (fun n => 16 ∣ n) false bpEnc4m bpDec4m := by
  intro inp more more' hn0 hb
  obtain ⟨xs, z, e1, l1, lr, hx⟩ := cut 32 (inp.length / 32) inp (by omega)
  generalize hq : inp.length / 32 = q at *
  have lx : xs.flatten.length = q * 32 := len_of_flatten hx l1
  subst e1
  have hn : (xs.flatten ++ z).length = xs.length * 32 + z.length := by
    simp only [List.length_append, lx, l1]
  rw [hn] at hq hn0
  have hz : z.length = 0 ∨ z.length = 16 := by omega
  have hbz : Below 4 z := Below.right hb
  obtain ⟨tail, htail⟩ : ∃ t, t = if z.length = 0 then ([] : List Byte) else pack4x1 z := ⟨_, rfl⟩
  have P1 := bpFor_pair (al := {}) (al' := {}) (b := 4) (lim := 32) (k := 32) (lim' := 32)
    (k' := 32) (d := 16) (f := pack4x2) (g := unpack4x2) (by omega) (by omega) (by omega) (by omega)
    (fun x _ => pack4x2_length x) (fun _ => unpack4x2_pack) hx (Below.left hb) (r := z ++ more) (out := [])
    (r' := tail ++ more') (out' := []) (pos := 0) (rem := z.length) (pos' := 0)
    (rem' := z.length) (BpAl.Good.none _ _ _ _) (BpAl.Good.none _ _ _ _) (by omega) (by omega)
  obtain ⟨a1, b1, c1⟩ := P1
  rw [List.nil_append, Nat.zero_add] at a1 b1
  refine ⟨(xs.map pack4x2).flatten ++ tail, ?_, ?_, ?_⟩
  · unfold bpEnc4m bpStart
    rw [hn, List.append_assoc, a1]
    simp only [Option.bind_eq_bind, Option.bind_some]
    rcases hz with h0 | h1
    · have : z = [] := List.length_eq_zero_iff.mp h0
      subst this
      rw [bpIf_skip (by simp), htail]
      simp [bpOut]
    · rw [bpIf_run (by omega) h1, htail, if_neg (by omega), h1]
      simp [bpOut]
  · rw [hn]
    rcases hz with h0 | h1
    · rw [htail, if_pos h0]; simp only [List.length_append, c1, packedSize, List.length_nil]; omega
    · rw [htail, if_neg (by omega)]; simp only [List.length_append, c1, packedSize, pack4x1_length]; omega
  · unfold bpDec4m bpStart
    simp only [Bool.false_eq_true, if_false]
    rw [hn, List.append_assoc, b1]
    simp only [Option.bind_eq_bind, Option.bind_some]
    rcases hz with h0 | h1
    · have : z = [] := List.length_eq_zero_iff.mp h0
      subst this
      rw [bpIf_skip (by simp), htail]
      simp only [bpRes, Option.map_some, List.length_nil, if_true, List.append_nil, c1]
    · rw [htail, if_neg (by omega), bpIf_run (by omega) (pack4x1_length z), unpack4x1_pack h1 hbz]
      simp only [bpRes, Option.map_some, List.length_append, c1, pack4x1_length]

/-- C30, 2 bits: `bitpack_encode2_sse2_unaligned_m128i` and `bitpack_decode2_…_m128i`. -/
theorem C30_bitpack2_m128i : PackRoundTrip 2 (fun n => 16 ∣ n) false bpEnc2m bpDec2m := by
  intro inp more more' hn0 hb
  obtain ⟨xs, r, e1, l1, lr, hx⟩ := cut 64 (inp.length / 64) inp (by omega)
  generalize hq : inp.length / 64 = q at *
  have lx : xs.flatten.length = q * 64 := len_of_flatten hx l1
  subst e1
  have hn : (xs.flatten ++ r).length = xs.length * 64 + r.length := by
    simp only [List.length_append, lx, l1]
  rw [hn] at hq hn0
  have hbr : Below 2 r := Below.right hb
  -- `y` is the half block pair, `z` the single block
  obtain ⟨y, z, hyz, hy, hz⟩ : ∃ y z, r = y ++ z ∧ (y.length = 32 ∨ (y = [] ∧ z.length < 32)) ∧ (z.length = 0 ∨ z.length = 16) := by
    by_cases h : 32 ≤ r.length
    · exact ⟨r.take 32, r.drop 32, (List.take_append_drop _ _).symm, .inl (by simp; omega), by simp; omega⟩
    · exact ⟨[], r, rfl, .inr ⟨rfl, by omega⟩, by omega⟩
  subst hyz
  have hrl : (y ++ z).length < 64 := by omega
  obtain ⟨t1, ht1⟩ : ∃ t, t = if y.length = 32 then pack2Le 8 y else ([] : List Byte) := ⟨_, rfl⟩
  obtain ⟨t2, ht2⟩ : ∃ t, t = if z.length = 0 then ([] : List Byte) else pack2Le 4 z := ⟨_, rfl⟩
  have P1 := bpFor_pair (al := {}) (al' := {}) (b := 2) (lim := 64) (k := 64) (lim' := 64)
    (k' := 64) (d := 16) (f := pack2x4) (g := unpack2x4) (by omega) (by omega) (by omega) (by omega)
    (fun x _ => pack2x4_length x) (fun _ => unpack2x4_pack) hx (Below.left hb) (r := y ++ (z ++ more)) (out := [])
    (r' := t1 ++ (t2 ++ more')) (out' := []) (pos := 0) (rem := (y ++ z).length) (pos' := 0)
    (rem' := (y ++ z).length) (BpAl.Good.none _ _ _ _) (BpAl.Good.none _ _ _ _) hrl hrl
  obtain ⟨a1, b1, c1⟩ := P1
  rw [List.nil_append, Nat.zero_add] at a1 b1
  have lt2 : t2.length = z.length / 4 := by
    rw [ht2]; rcases hz with h0 | h1
    · rw [if_pos h0, h0]; rfl
    · rw [if_neg (by omega), pack2Le_length, h1]
  have lt1 : t1.length = y.length / 4 := by
    rw [ht1]; rcases hy with h0 | ⟨h1, _⟩
    · rw [if_pos h0, pack2Le_length, h0]
    · rw [h1]; rfl
  -- the second stage
  have s1 : ∀ out : List Byte, ∀ pos, bpIf 32 32 32 (pack2Le 8) ⟨y ++ (z ++ more), pos, (y ++ z).length, out⟩ =
      some ⟨z ++ more, pos + y.length, z.length, out ++ t1⟩ := by
    intro out pos
    rcases hy with h0 | ⟨h1, h2⟩
    · rw [bpIf_run (by rw [List.length_append]; omega) h0, ht1, if_pos h0, h0, List.length_append, h0, Nat.add_sub_cancel_left]
    · subst h1
      rw [bpIf_skip (by simpa using h2), ht1]
      simp
  have s1' : ∀ out : List Byte, ∀ pos, bpIf 32 32 8 (unpack2Le 8) ⟨t1 ++ (t2 ++ more'), pos, (y ++ z).length, out⟩ =
      some ⟨t2 ++ more', pos + t1.length, z.length, out ++ y⟩ := by
    intro out pos
    rcases hy with h0 | ⟨h1, h2⟩
    · rw [bpIf_run (by rw [List.length_append]; omega) (by rw [lt1, h0]), lt1, h0, List.length_append, h0, Nat.add_sub_cancel_left]
      rw [ht1, if_pos h0, unpack2Le_pack h0 hbr.left]
    · subst h1
      rw [bpIf_skip (by simpa using h2), ht1]
      simp
  have s2 : ∀ out : List Byte, ∀ pos, bpIf 1 16 16 (pack2Le 4) ⟨z ++ more, pos, z.length, out⟩ =
      some ⟨more, pos + z.length, 0, out ++ t2⟩ := by
    intro out pos
    rcases hz with h0 | h1
    · have : z = [] := List.length_eq_zero_iff.mp h0
      subst this
      rw [bpIf_skip (by simp), ht2]; simp
    · rw [bpIf_run (by omega) h1, ht2, if_neg (by omega), h1]
  have s2' : ∀ out : List Byte, ∀ pos, bpIf 1 16 4 (unpack2Le 4) ⟨t2 ++ more', pos, z.length, out⟩ =
      some ⟨more', pos + t2.length, 0, out ++ z⟩ := by
    intro out pos
    rcases hz with h0 | h1
    · have : z = [] := List.length_eq_zero_iff.mp h0
      subst this
      rw [bpIf_skip (by simp), ht2]; simp
    · rw [bpIf_run (by omega) (by rw [lt2, h1]), lt2, h1, ht2, if_neg (by omega), unpack2Le_pack h1 hbr.right]
  refine ⟨(xs.map pack2x4).flatten ++ t1 ++ t2, ?_, ?_, ?_⟩
  · unfold bpEnc2m bpStart
    rw [hn, List.append_assoc, List.append_assoc, a1]
    simp only [Option.bind_eq_bind, Option.bind_some]
    rw [s1]
    simp only [Option.bind_some]
    rw [s2]
    simp only [bpOut, Option.map_some]
  · rw [hn]
    simp only [List.length_append, c1, lt1, lt2, packedSize]
    rcases hy with h0 | ⟨h1, _⟩
    · omega
    · rw [h1]; simp only [List.length_nil]; omega
  · unfold bpDec2m bpStart
    simp only [Bool.false_eq_true, if_false]
    rw [hn, List.append_assoc, List.append_assoc, b1]
    simp only [Option.bind_eq_bind, Option.bind_some]
    rw [s1']
    simp only [Option.bind_some]
    rw [s2']
    simp only [bpRes, Option.map_some, List.length_append, c1, List.append_assoc]
    congr 2
    omega

/-- C30, 3 bits: `bitpack_encode3_sse2_unaligned_m128i` and `bitpack_decode3_…_m128i`, for block
counts that leave at most three blocks modulo six. -/
theorem C30_bitpack3_m128i_partial : PackRoundTrip 3 (fun n => 16 ∣ n ∧ n % 96 ≤ 48) false bpEnc3 bpDec3 := by
  intro inp more more' hn0 hb
  obtain ⟨xs, r, e1, l1, lr, hx⟩ := cut 96 (inp.length / 96) inp (by omega)
  generalize hq : inp.length / 96 = q at *
  have lx : xs.flatten.length = q * 96 := len_of_flatten hx l1
  subst e1
  have hn : (xs.flatten ++ r).length = xs.length * 96 + r.length := by
    simp only [List.length_append, lx, l1]
  rw [hn] at hq hn0
  obtain ⟨hn0, hn1⟩ := hn0
  have hbr : Below 3 r := Below.right hb
  have hrl : r.length < 96 := by omega
  have hr48 : r.length ≤ 48 := by omega
  -- what is written for the rest
  obtain ⟨ys, z, e2, l2, lz, hy⟩ := cut 16 (r.length / 16) r (by omega)
  have lz : z = [] := List.length_eq_zero_iff.mp (by omega)
  obtain ⟨t, ht⟩ : ∃ t, t = if r.length = 48 then pack3x3 r else (ys.map pack3x1).flatten := ⟨_, rfl⟩
  have P1 := bpFor_pair (al := {}) (al' := {}) (b := 3) (lim := 96) (k := 96) (lim' := 96)
    (k' := 96) (d := 36) (f := pack3x6) (g := unpack3x6) (by omega) (by omega) (by omega) (by omega)
    (fun x _ => pack3x6_length x) (fun _ => unpack3x6_pack) hx (Below.left hb) (r := r ++ more) (out := [])
    (r' := t ++ more') (out' := []) (pos := 0) (rem := r.length) (pos' := 0)
    (rem' := r.length) (BpAl.Good.none _ _ _ _) (BpAl.Good.none _ _ _ _) hrl hrl
  obtain ⟨a1, b1, c1⟩ := P1
  rw [List.nil_append, Nat.zero_add] at a1 b1
  have lt : t.length = r.length * 3 / 8 := by
    rw [ht]
    split
    · rename_i h; rw [pack3x3_length, h]
    · rw [flatten_len (k := 6) _ (by intro w hw; obtain ⟨x, _, rfl⟩ := List.mem_map.mp hw; rfl), List.length_map, l2]
      omega
  by_cases h48 : r.length = 48
  · rw [if_pos h48] at ht
    refine ⟨(xs.map pack3x6).flatten ++ t, ?_, ?_, ?_⟩
    · unfold bpEnc3 bpStart
      rw [hn, List.append_assoc, a1]
      simp only [Option.bind_eq_bind, Option.bind_some]
      rw [bpIf_run (by omega) h48]
      simp only [Option.bind_some]
      rw [h48]
      simp [bpFor, bpWhile, bpOut, ht]
    · rw [hn]
      simp only [List.length_append, c1, lt, packedSize]
      omega
    · unfold bpDec3 bpStart
      simp only [Bool.false_eq_true, if_false]
      rw [hn, List.append_assoc, b1]
      simp only [Option.bind_eq_bind, Option.bind_some]
      rw [bpIf_run (by omega) (by rw [lt, h48])]
      simp only [Option.bind_some]
      rw [h48, ht, unpack3x3_pack h48 hbr]
      simp [bpFor, bpWhile, bpRes, c1, pack3x3_length]
  · rw [if_neg h48] at ht
    have hrl' : r.length < 48 := by omega
    rw [lz, List.append_nil] at e2
    have lr' : r.length = ys.length * 16 + 0 := by rw [e2, flatten_len ys hy]; rfl
    have P2 := bpFor_pair (al := {}) (al' := {}) (b := 3) (lim := 1) (k := 16) (lim' := 1)
      (k' := 16) (d := 6) (f := pack3x1) (g := unpack3x1) (by omega) (by omega) (by omega) (by omega)
      (fun x _ => pack3x1_length x) (fun _ => unpack3x1_pack) hy (e2 ▸ hbr) (r := more)
      (out := (xs.map pack3x6).flatten)
      (r' := more') (out' := xs.flatten) (pos := xs.length * 96) (rem := 0) (pos' := xs.length * 36)
      (rem' := 0) (BpAl.Good.none _ _ _ _) (BpAl.Good.none _ _ _ _) (by omega) (by omega)
    obtain ⟨a2, b2, c2⟩ := P2
    rw [← lr', ← e2] at a2 b2
    rw [← ht] at a2 b2 c2
    refine ⟨(xs.map pack3x6).flatten ++ t, ?_, ?_, ?_⟩
    · unfold bpEnc3 bpStart
      rw [hn, List.append_assoc, a1]
      simp only [Option.bind_eq_bind, Option.bind_some]
      rw [bpIf_skip hrl']
      simp only [Option.bind_some]
      rw [a2]
      simp [bpOut]
    · rw [hn]
      simp only [List.length_append, c1, lt, packedSize]
      omega
    · unfold bpDec3 bpStart
      simp only [Bool.false_eq_true, if_false]
      rw [hn, List.append_assoc, b1]
      simp only [Option.bind_eq_bind, Option.bind_some]
      rw [bpIf_skip hrl']
      simp only [Option.bind_some]
      rw [b2]
      simp only [bpRes, Option.map_some, List.length_append, c1, c2]

/-- Four different blocks. -/
def fourBlocks : List Byte :=
  List.replicate 16 1 ++ List.replicate 16 2 ++ List.replicate 16 3 ++ List.replicate 16 4

/-- C30 fails for `bitpack_encode3_sse2_unaligned_m128i`: of four blocks it packs the first one
twice and never the fourth, because `pIn` is not moved behind the group of three. -/
theorem C30_bitpack3_m128i_violated : ¬ PackRoundTrip 3 (fun n => 16 ∣ n) false bpEnc3 bpDec3 := by
  intro h
  obtain ⟨out, h1, _, h3⟩ := h fourBlocks [] [] (by decide) (by decide +kernel)
  have e2 : ((bpEnc3 (fourBlocks ++ []) fourBlocks.length).bind fun out => bpDec3 (out ++ []) fourBlocks.length) ≠
      some (fourBlocks, 24) := by decide +kernel
  apply e2
  rw [h1]
  have e3 : (bpEnc3 (fourBlocks ++ []) fourBlocks.length).map List.length = some 24 := by decide +kernel
  rw [h1] at e3
  have e4 : out.length = 24 := Option.some.inj e3
  rw [← e4]
  exact h3

/-! ### The hypotheses can be met -/

def bitSample (bits n : Nat) : List Byte := (List.range n).map fun i => b8 (i * 5 % 2 ^ bits)

example : bpEnc1 true 32 (bitSample 1 32) 32 = some [170, 170, 170, 170] := by decide +kernel
example : (bpEnc2 true 32 16 (bitSample 2 128) 128).map List.length = some (packedSize 2 128) := by decide +kernel
example : (bpEnc3 (bitSample 3 144) 144).bind (fun o => bpDec3 o 144) = some (bitSample 3 144, 54) := by decide +kernel
example : (bpEnc4 false 1 3 (bitSample 4 37) 37).bind (fun o => bpDec4 true 32 64 o 37) = some (bitSample 4 37, 19) := by
  decide +kernel
/-- An unaligned address faults in the aligned functions. -/
example : bpEnc1 true 33 (bitSample 1 32) 32 = none := by decide +kernel
/-- So does a length that is not accepted. -/
example : bpEnc1 false 0 (bitSample 1 17) 17 = none := by decide +kernel

end Hrk
