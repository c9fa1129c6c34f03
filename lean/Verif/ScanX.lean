import Verif.Codec

/-
The run scanner of the multi-byte encoders (16, 24, 32, 48, 64 bit; plain,
packed, symbol-LUT and short codecs), as a goto machine.
-/

namespace Hrk

/-- Length of the prefix of the `k` bytes at `pIn + i + off` that agrees with the
repeated symbol (from phase `off`): the value of
`_mm_movemask_epi8(_mm_cmpeq_epi8(current, symbolSimd))` followed by
`__builtin_ctzl(~bitMask)`, of `next == symbol`, and of
`__builtin_ctz(symbol ^ next) / 8`
(src/rleX_extreme_cpu_encode.h:57-98, 106-163). -/
def matchLen (inp : Mem) (sym : List Byte) (i : Nat) : Nat → Nat → Nat
  | 0, _ => 0
  | k + 1, off =>
    if inp (i + off) = sym.getD (off % sym.length) 0 then 1 + matchLen inp sym i k (off + 1) else 0

/-- Do the `S` bytes at `pIn + p` equal the `S` bytes behind them
(src/rleX_extreme_cpu_encode.h:317-344, 371)? -/
def pairAt (inp : Mem) (S p : Nat) : Bool := rd inp p S == rd inp (p + S) S

/-- First `bit` in `[off, off + k)` with `pairAt (i + bit)`: the AND-folded compare
mask followed by `__builtin_ctzl(bitMask)` (src/rleX_extreme_cpu_encode.h:315-366).
The bits shifted in from above are zero, hence only positions
`0 .. W - S` can be set. -/
def findPair (inp : Mem) (S i : Nat) : Nat → Nat → Option Nat
  | 0, _ => none
  | k + 1, off => if pairAt inp S (i + off) then some off else findPair inp S i k (off + 1)

/-- Program points of the encoder main loop (src/rleX_extreme_cpu_encode.h:46-382). -/
inductive PC where
  /-- `while (i < inSize)` -/
  | top
  /-- `while (i < inSizeSimd)` extending the current run -/
  | ext
  /-- `if (count) { if (i + sizeof(symbol_t) <= inSize) ...` -/
  | scal
  /-- `continue_second_step:` emission -/
  | second
  /-- `while (i < inSizeSimd)` searching the next run -/
  | search
  /-- scalar search -/
  | sscan
  deriving DecidableEq, Repr

/-- Encoder variables. `out` is `pOut[headerSize .. index)` (src/rleX_extreme_cpu_encode.h:19-44). -/
structure ES (σ : Type) where
  pc : PC
  i : Nat
  count : Nat
  lastRLE : Nat
  sym : List Byte
  fs : σ
  out : List Byte

/-- An emission rule: state, symbol, count and number of literals in front of the run give the
record header and the new state, or nothing is emitted (src/rleX_extreme_cpu_encode.h:172-312). -/
abbrev Emit (σ : Type) := σ → List Byte → Nat → Nat → Option (List Byte × σ)

/-- Emission at `continue_second_step` (src/rleX_extreme_cpu_encode.h:172-312): header
bytes from `emit`, then `memcpy(pOut + index, pIn + lastRLE, i - count - lastRLE)`,
then `lastRLE = i`. -/
def doEmit {σ : Type} (emit : Emit σ) (inp : Mem) (s : ES σ) : ES σ :=
  match emit s.fs s.sym s.count (s.i - s.count - s.lastRLE) with
  | some (bytes, fs') =>
    { s with out := s.out ++ bytes ++ rd inp s.lastRLE (s.i - s.count - s.lastRLE),
             lastRLE := s.i, fs := fs' }
  | none => s

/-- One step of the encoder loop, src/rleX_extreme_cpu_encode.h:46-382 and the same
lines of rle24_/rle48_extreme_cpu_encode.h, rleX_Xsl_multibyte_encoder.h and
rleX_Xsl_short_multibyte_encoder.h. `W` is the vector width, 0 for `_compress_base`;
`i < inSizeSimd` is `i + W + S < n`. `goto continue_outer_loop` goes to `ext`. -/
def stepX {σ : Type} (emit : Emit σ) (S W : Nat) (unb : Bool) (inp : Mem) (n : Nat) (s : ES σ) :
    ES σ ⊕ ES σ :=
  match s.pc with
  | .top => if s.i < n then .inl { s with pc := .ext } else .inr s
  | .ext =>
    if W ≠ 0 ∧ s.i + W + S < n then
      if matchLen inp s.sym s.i W 0 = 0 then .inl { s with pc := .second }
      else if matchLen inp s.sym s.i W 0 = W then
        .inl { s with i := s.i + (W - W % S), count := s.count + (W - W % S) }
      else if unb then
        .inl { s with i := s.i + matchLen inp s.sym s.i W 0,
                      count := s.count + matchLen inp s.sym s.i W 0, pc := .second }
      else
        .inl { s with
          i := s.i + (matchLen inp s.sym s.i W 0 - matchLen inp s.sym s.i W 0 % S),
          count := s.count + (matchLen inp s.sym s.i W 0 - matchLen inp s.sym s.i W 0 % S),
          pc := .second }
    else .inl { s with pc := .scal }
  | .scal =>
    if s.count ≠ 0 ∧ s.i + S ≤ n then
      if matchLen inp s.sym s.i S 0 = S then
        .inl { s with i := s.i + S, count := s.count + S, pc := .top }
      else if unb then
        .inl { s with i := s.i + matchLen inp s.sym s.i S 0,
                      count := s.count + matchLen inp s.sym s.i S 0, pc := .second }
      else .inl { s with pc := .second }
    else .inl { s with pc := .second }
  | .second => .inl { doEmit emit inp s with pc := .search }
  | .search =>
    if W ≠ 0 ∧ s.i + W + S < n then
      match findPair inp S s.i (W - S + 1) 0 with
      | none => .inl { s with i := s.i + (W - S) }
      | some bit => .inl { s with sym := rd inp (s.i + bit) S, i := s.i + (bit + 2 * S),
                                  count := 2 * S, pc := .ext }
    else .inl { s with pc := .sscan }
  | .sscan =>
    if s.i + S ≤ n ∧ rd inp (s.i + S) S = rd inp s.i S then
      .inl { s with sym := rd inp s.i S, count := 2 * S, i := s.i + 2 * S, pc := .top }
    else .inl { s with sym := rd inp s.i S, count := 0, i := s.i + 1, pc := .top }

/-- The block after the loop (src/rleX_extreme_cpu_encode.h:384-603). -/
def finish {σ : Type} (emit : Emit σ) (endRun : List Byte) (endLit : Nat → List Byte) (inp : Mem)
    (s : ES σ) : List Byte :=
  match emit s.fs s.sym s.count (s.i - s.count - s.lastRLE) with
  | some (bytes, _) => s.out ++ bytes ++ rd inp s.lastRLE (s.i - s.count - s.lastRLE) ++ endRun
  | none => s.out ++ endLit (s.i - s.lastRLE) ++ rd inp s.lastRLE (s.i - s.lastRLE)

/-- Bytes the encoder appends after the stream header; `none` = not terminated
(excluded by `encX_scan`) (src/rleX_extreme_cpu_encode.h:26-603). -/
def encX {σ : Type} (F : Fmt σ) (S W : Nat) (unb : Bool) (inp : Mem) (n : Nat) : Option (List Byte) :=
  (loop (stepX F.emit S W unb inp n) (6 * n + 6)
    ⟨.top, 0, 0, 0, (rd inp 0 S).map (fun b => ~~~ b), F.init, []⟩).map
    (finish F.emit F.endRun F.endLit inp)

/-! ### What a scanner may be relied on -/

/-- `CP` survives the emission of a genuine run. -/
def Closed {σ : Type} (emit : Emit σ) (inp : Mem) (S : Nat) (unb : Bool) (B : Nat)
    (CP : σ → List Byte → Nat → Prop) : Prop :=
  ∀ fs out last sym cnt lits bytes fs', CP fs out last → sym.length = S →
    (unb = true ∨ S ∣ cnt) → last + lits + cnt ≤ B →
    rd inp (last + lits) cnt = runBytes sym cnt →
    emit fs sym cnt lits = some (bytes, fs') →
    CP fs' (out ++ bytes ++ rd inp last lits) (last + lits + cnt)

/-- The result of scanning `n` bytes: `CP` holds at the last emission, and the
stream is closed by one of the two terminators, at a position `T` that is at
most `S` bytes behind the end of the input. -/
def ScanOK {σ : Type} (endRun : List Byte) (endLit : Nat → List Byte) (inp : Mem) (n S : Nat)
    (CP : σ → List Byte → Nat → Prop) (res : List Byte) : Prop :=
  ∃ fs out last T, CP fs out last ∧ n ≤ T ∧ T ≤ n + S ∧ last ≤ T ∧
    ((last = T ∧ res = out ++ endRun) ∨
      res = out ++ endLit (T - last) ++ rd inp last (T - last))

/-- The bytes `[i - count, i)` are a run of `sym`. -/
def RunAt (inp : Mem) (sym : List Byte) (i count : Nat) : Prop :=
  ∀ k, k < count → inp (i - count + k) = sym.getD (k % sym.length) 0

theorem RunAt.toRun {inp : Mem} {sym : List Byte} {i count : Nat} (h : RunAt inp sym i count)
    {a : Nat} (ha : a = i - count) : rd inp a count = runBytes sym count :=
  rd_eq_runBytes (by subst ha; exact h)

theorem matchLen_le (inp : Mem) (sym : List Byte) (i : Nat) :
    ∀ k off, matchLen inp sym i k off ≤ k := by
  intro k
  induction k with
  | zero => intro off; simp [matchLen]
  | succ k ih =>
    intro off; unfold matchLen; split
    · have := ih (off + 1); omega
    · omega

theorem matchLen_spec (inp : Mem) (sym : List Byte) (i : Nat) :
    ∀ k off j, j < matchLen inp sym i k off → inp (i + (off + j)) = sym.getD ((off + j) % sym.length) 0 := by
  intro k
  induction k with
  | zero => intro off j h; simp [matchLen] at h
  | succ k ih =>
    intro off j h
    unfold matchLen at h
    split at h
    · next he =>
      cases j with
      | zero => simpa using he
      | succ j =>
        have := ih (off + 1) j (by omega)
        rw [show off + (j + 1) = off + 1 + j by omega]
        exact this
    · omega

theorem RunAt.extend {inp : Mem} {sym : List Byte} {i count k W : Nat} (h : RunAt inp sym i count)
    (hi : count ≤ i) (hd : sym.length ∣ count) (hk : k ≤ matchLen inp sym i W 0) :
    RunAt inp sym (i + k) (count + k) := by
  intro j hj
  rw [show i + k - (count + k) = i - count by omega]
  by_cases hlt : j < count
  · exact h j hlt
  · have := matchLen_spec inp sym i W 0 (j - count) (by omega)
    rw [show i - count + j = i + (0 + (j - count)) by omega, this]
    congr 1
    obtain ⟨c, rfl⟩ := hd
    rw [Nat.zero_add]
    conv => rhs; rw [show j = (j - sym.length * c) + sym.length * c by omega]
    rw [Nat.add_mul_mod_self_left]

theorem matchLen_stop (inp : Mem) (sym : List Byte) (i : Nat) :
    ∀ k off, matchLen inp sym i k off < k →
      inp (i + (off + matchLen inp sym i k off)) ≠ sym.getD ((off + matchLen inp sym i k off) % sym.length) 0 := by
  intro k
  induction k with
  | zero => intro off h; simp [matchLen] at h
  | succ k ih =>
    intro off h
    unfold matchLen at h ⊢
    by_cases he : inp (i + off) = sym.getD (off % sym.length) 0
    · rw [if_pos he] at h ⊢
      have := ih (off + 1) (by omega)
      rwa [show off + 1 + matchLen inp sym i k (off + 1) = off + (1 + matchLen inp sym i k (off + 1)) by omega] at this
    · rw [if_neg he] at h ⊢
      simpa using he

theorem findPair_spec (inp : Mem) (S i : Nat) :
    ∀ k off b, findPair inp S i k off = some b → off ≤ b ∧ b < off + k ∧ pairAt inp S (i + b) = true := by
  intro k
  induction k with
  | zero => intro off b h; simp [findPair] at h
  | succ k ih =>
    intro off b h
    unfold findPair at h
    split at h
    · next he => cases h; exact ⟨by omega, by omega, he⟩
    · have := ih (off + 1) b h
      exact ⟨by omega, by omega, this.2.2⟩

theorem RunAt.pair {inp : Mem} {S p : Nat} (hS : 0 < S) (h : rd inp (p + S) S = rd inp p S) :
    RunAt inp (rd inp p S) (p + 2 * S) (2 * S) := by
  intro k hk
  rw [show p + 2 * S - 2 * S = p by omega, rd_length, rd_getD _ _ _ _ _ (Nat.mod_lt _ hS)]
  by_cases hlt : k < S
  · rw [Nat.mod_eq_of_lt hlt]
  · have h1 := congrArg (fun l => l[k - S]?) h
    simp only [rd_getElem?, show k - S < S by omega, if_true, Option.some.injEq] at h1
    rw [show p + k = p + S + (k - S) by omega, h1]
    congr 2
    rw [Nat.mod_eq_sub_mod (by omega), Nat.mod_eq_of_lt (by omega)]

/-- Loop invariant of `stepX`. -/
structure XInv {σ : Type} (S : Nat) (unb : Bool) (inp : Mem) (n : Nat)
    (CP : σ → List Byte → Nat → Prop) (s : ES σ) : Prop where
  cp : CP s.fs s.out s.lastRLE
  len : s.sym.length = S
  last : s.lastRLE ≤ s.i
  top : s.pc = .top → s.i ≤ n + S
  ntop : s.pc ≠ .top → s.i < n
  cnt : s.pc = .top ∨ s.pc = .ext ∨ s.pc = .scal ∨ s.pc = .second →
    s.lastRLE + s.count ≤ s.i ∧ RunAt inp s.sym s.i s.count
  dvd : s.pc = .top ∨ s.pc = .ext ∨ s.pc = .scal → S ∣ s.count
  dvd2 : s.pc = .second → unb = true ∨ S ∣ s.count

def PC.rank : PC → Nat
  | .top => 5 | .ext => 4 | .scal => 3 | .second => 2 | .search => 1 | .sscan => 0

/-- Termination measure of `stepX`. -/
def muX {σ : Type} (n : Nat) (s : ES σ) : Nat := 6 * (n - s.i) + s.pc.rank

theorem dvd_add_sub_mod {S a k : Nat} (h : S ∣ a) : S ∣ a + (k - k % S) :=
  (Nat.dvd_add_right h).mpr (Nat.dvd_sub_mod k)

theorem stepX_inv {σ : Type} {emit : Emit σ} {S W : Nat} {unb : Bool} {inp : Mem} {n B : Nat}
    {CP : σ → List Byte → Nat → Prop} (hS : 0 < S) (hW : W = 0 ∨ S < W) (hB : n + S ≤ B)
    (hc : Closed emit inp S unb B CP) (s : ES σ) (h : XInv S unb inp n CP s) :
    Post (stepX emit S W unb inp n s) (fun s' => XInv S unb inp n CP s' ∧ muX n s' < muX n s)
      (fun s' => XInv S unb inp n CP s' ∧ n ≤ s'.i ∧ s'.pc = .top) := by
  obtain ⟨pc, i, count, lastRLE, sym, fs, out⟩ := s
  obtain ⟨hcp, hlen, hlast, htop, hntop, hcnt, hdvd, hdvd2⟩ := h
  simp only at *
  cases pc with
  | top =>
    obtain ⟨h1, h2⟩ := hcnt (by simp)
    have h3 := hdvd (by simp)
    simp only [stepX]
    split
    · next hi =>
      refine ⟨⟨hcp, hlen, hlast, by simp, fun _ => hi, fun _ => ⟨h1, h2⟩, fun _ => h3, by simp⟩, ?_⟩
      simp [muX, PC.rank]
    · next hi =>
      exact ⟨⟨hcp, hlen, hlast, htop, hntop, hcnt, hdvd, hdvd2⟩, by simp; omega, rfl⟩
  | ext =>
    obtain ⟨h1, h2⟩ := hcnt (by simp)
    have h3 := hdvd (by simp)
    have h4 := hntop (by simp)
    simp only [stepX]
    split
    · next hi =>
      have hm := matchLen_le inp sym i W 0
      split
      · refine ⟨⟨hcp, hlen, hlast, by simp, fun _ => h4, fun _ => ⟨h1, h2⟩, by simp, fun _ => Or.inr h3⟩, ?_⟩
        simp [muX, PC.rank]
      · next hz =>
        split
        · next hf =>
          have : W % S < S := Nat.mod_lt _ hS
          have hw : S < W := by omega
          refine ⟨⟨hcp, hlen, by simp; omega, by simp, fun _ => by simp; omega,
            fun _ => ⟨by simp; omega, ?_⟩, fun _ => dvd_add_sub_mod h3, by simp⟩, ?_⟩
          · exact h2.extend (by omega) (by rw [hlen]; exact h3) (W := W) (by simp only; omega)
          · simp [muX, PC.rank]; omega
        · next hf =>
          split
          · next hu =>
            refine ⟨⟨hcp, hlen, by simp; omega, by simp, fun _ => by simp; omega,
              fun _ => ⟨by simp; omega, ?_⟩, by simp, fun _ => Or.inl hu⟩, ?_⟩
            · exact h2.extend (by omega) (by rw [hlen]; exact h3) (W := W) (by simp only; omega)
            · simp [muX, PC.rank]; omega
          · next hu =>
            have := Nat.mod_le (matchLen inp sym i W 0) S
            refine ⟨⟨hcp, hlen, by simp; omega, by simp, fun _ => by simp; omega,
              fun _ => ⟨by simp; omega, ?_⟩, by simp, fun _ => Or.inr (dvd_add_sub_mod h3)⟩, ?_⟩
            · exact h2.extend (by omega) (by rw [hlen]; exact h3) (W := W) (by simp only; omega)
            · simp [muX, PC.rank]; omega
    · refine ⟨⟨hcp, hlen, hlast, by simp, fun _ => h4, fun _ => ⟨h1, h2⟩, fun _ => h3, by simp⟩, ?_⟩
      simp [muX, PC.rank]
  | scal =>
    obtain ⟨h1, h2⟩ := hcnt (by simp)
    have h3 := hdvd (by simp)
    have h4 := hntop (by simp)
    simp only [stepX]
    split
    · next hi =>
      have hm := matchLen_le inp sym i S 0
      split
      · next hf =>
        refine ⟨⟨hcp, hlen, by simp; omega, fun _ => by simp; omega, by simp,
            fun _ => ⟨by simp; omega, ?_⟩, fun _ => Nat.dvd_add h3 (Nat.dvd_refl _), by simp⟩, ?_⟩
        · exact h2.extend (by omega) (by rw [hlen]; exact h3) (W := S) (by simp only; omega)
        · simp [muX, PC.rank]; omega
      · next hf =>
        split
        · next hu =>
          refine ⟨⟨hcp, hlen, by simp; omega, by simp, fun _ => by simp; omega,
              fun _ => ⟨by simp; omega, ?_⟩, by simp, fun _ => Or.inl hu⟩, ?_⟩
          · exact h2.extend (by omega) (by rw [hlen]; exact h3) (W := S) (by simp only; omega)
          · simp [muX, PC.rank]; omega
        · refine ⟨⟨hcp, hlen, hlast, by simp, fun _ => h4, fun _ => ⟨h1, h2⟩, by simp, fun _ => Or.inr h3⟩, ?_⟩
          simp [muX, PC.rank]
    · refine ⟨⟨hcp, hlen, hlast, by simp, fun _ => h4, fun _ => ⟨h1, h2⟩, by simp, fun _ => Or.inr h3⟩, ?_⟩
      simp [muX, PC.rank]
  | second =>
    obtain ⟨h1, h2⟩ := hcnt (by simp)
    have h3 := hdvd2 rfl
    have h4 := hntop (by simp)
    simp only [stepX, doEmit]
    split
    · next bytes fs' he =>
      have := hc _ _ _ _ _ _ _ _ hcp hlen h3 (by omega) (h2.toRun (by omega)) he
      rw [show lastRLE + (i - count - lastRLE) + count = i by omega] at this
      refine ⟨⟨this, hlen, by simp, by simp, fun _ => h4, by simp, by simp, by simp⟩, ?_⟩
      simp [muX, PC.rank]
    · refine ⟨⟨hcp, hlen, hlast, by simp, fun _ => h4, by simp, by simp, by simp⟩, ?_⟩
      simp [muX, PC.rank]
  | search =>
    have h4 := hntop (by simp)
    simp only [stepX]
    split
    · next hi =>
      split
      · refine ⟨⟨hcp, hlen, by simp; omega, by simp, fun _ => by simp; omega, by simp, by simp, by simp⟩, ?_⟩
        simp [muX, PC.rank]; omega
      · next bit hb =>
        obtain ⟨_, hb2, hb3⟩ := findPair_spec _ _ _ _ _ _ hb
        refine ⟨⟨hcp, by simp, by simp; omega, by simp, fun _ => by simp; omega,
          fun _ => ⟨by simp; omega, ?_⟩, fun _ => ⟨2, by simp; omega⟩, by simp⟩, ?_⟩
        · have := RunAt.pair (inp := inp) (p := i + bit) hS (by
            simp only [pairAt, beq_iff_eq] at hb3; exact hb3.symm)
          simp only
          rw [show i + (bit + 2 * S) = i + bit + 2 * S by omega]
          exact this
        · simp [muX, PC.rank]; omega
    · refine ⟨⟨hcp, hlen, hlast, by simp, fun _ => h4, by simp, by simp, by simp⟩, ?_⟩
      simp [muX, PC.rank]
  | sscan =>
    have h4 := hntop (by simp)
    simp only [stepX]
    split
    · next hi =>
      refine ⟨⟨hcp, by simp, by simp; omega, fun _ => by simp; omega, by simp,
          fun _ => ⟨by simp; omega, RunAt.pair hS hi.2⟩, fun _ => ⟨2, by simp; omega⟩, by simp⟩, ?_⟩
      simp [muX, PC.rank]; omega
    · next hi =>
      refine ⟨⟨hcp, by simp, by simp; omega, fun _ => by simp; omega, by simp,
          fun _ => ⟨by simp; omega, by intro k hk; simp at hk⟩, fun _ => by simp, by simp⟩, ?_⟩
      simp [muX, PC.rank]; omega

/-- The scanner terminates, and its output is `ScanOK` for every predicate that
emission preserves. -/
theorem encX_scan {σ : Type} (F : Fmt σ) {S W : Nat} {unb : Bool} {inp : Mem} {n B : Nat}
    {CP : σ → List Byte → Nat → Prop} (hS : 0 < S) (hW : W = 0 ∨ S < W) (hB : n + S ≤ B)
    (hc : Closed F.emit inp S unb B CP) (h0 : CP F.init [] 0) :
    ∃ res, encX F S W unb inp n = some res ∧ ScanOK F.endRun F.endLit inp n S CP res := by
  obtain ⟨s, h1, h2, h3, h4⟩ := loop_rule (body := stepX F.emit S W unb inp n) (XInv S unb inp n CP)
    (fun s' => XInv S unb inp n CP s' ∧ n ≤ s'.i ∧ s'.pc = .top) (muX n)
    (fun s hs => stepX_inv hS hW hB hc s hs) (6 * n + 6)
    ⟨.top, 0, 0, 0, (rd inp 0 S).map (fun b => ~~~ b), F.init, []⟩
    ⟨h0, by simp, by simp, by simp, by simp, fun _ => ⟨by simp, by intro k hk; simp at hk⟩, by simp, by simp⟩
    (by simp [muX, PC.rank])
  refine ⟨finish F.emit F.endRun F.endLit inp s, by simp [encX, h1], ?_⟩
  obtain ⟨hcp, hlen, hlast, htop, hntop, hcnt, hdvd, hdvd2⟩ := h2
  have hT := htop h4
  obtain ⟨g1, g2⟩ := hcnt (Or.inl h4)
  have g3 := hdvd (Or.inl h4)
  unfold finish
  split
  · next bytes fs' he =>
    have := hc _ _ _ _ _ _ _ _ hcp hlen (Or.inr g3) (by omega) (g2.toRun (by omega)) he
    rw [show s.lastRLE + (s.i - s.count - s.lastRLE) + s.count = s.i by omega] at this
    exact ⟨fs', _, s.i, s.i, this, h3, hT, Nat.le_refl _, Or.inl ⟨rfl, rfl⟩⟩
  · exact ⟨_, _, _, s.i, hcp, h3, hT, hlast, Or.inr rfl⟩

end Hrk
