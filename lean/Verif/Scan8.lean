import Verif.Scan

/-
The scanners of the single byte symbol codecs that share `process_symbol`
(symbol-LUT and short codecs): the multi symbol scanner `step8` and the single
symbol scanner `stepS8`.
-/

namespace Hrk

/-- Is one of the `W` bytes at `pIn + i` the symbol (`mask != 0`; src/rleX_Xsl.h:360-369)? -/
def anyEq (inp : Mem) (sym : List Byte) (i W : Nat) : Bool :=
  (List.range W).any fun j => inp (i + j) == sym.getD 0 0

/-- How many of the `W` bytes at `pIn + i` are the symbol (`__builtin_popcount(mask)`;
src/rleX_Xsl_short.h:1100)? -/
def cntEq (inp : Mem) (sym : List Byte) (i W : Nat) : Nat :=
  (List.range W).countP fun j => inp (i + j) == sym.getD 0 0

/-- First position in `[off, off + k)` that holds the symbol (`__builtin_ctzl(mask)`;
src/rleX_Xsl_short.h:1110). -/
def findByte (inp : Mem) (sym : List Byte) (i : Nat) : Nat → Nat → Option Nat
  | 0, _ => none
  | k + 1, off => if inp (i + off) = sym.getD 0 0 then some off else findByte inp sym i k (off + 1)

/-- `rle8_Nsymlut[_short]_compress`, `rle8_short_compress`: the SIMD scanner of width `W`
(src/rleX_Xsl.h:352-485, src/rleX_Xsl_short.h:529-662) followed by the scalar loop
(src/rleX_Xsl.h:300-313, src/rleX_Xsl_short.h:439-456); and `rle8[_packed]_multi_compress`
(src/rle8_extreme_cpu.h:768-1099, 111-200).
* `top`: `while (i < endInSize)`, that is `i + W < n`.
* `ext`: compare `W` bytes with the symbol.
* `second`: `process_symbol`.
* `search`: the inner `while`; only the low `W - 1` bits of the compare mask are used.
* `sscan`: pick the next symbol.
* `scal`: the scalar loop, with the emission rule `emitT`. -/
def step8 {σ : Type} (emit emitT : Emit σ) (W : Nat) (inp : Mem) (n : Nat) (s : ES σ) : ES σ ⊕ ES σ :=
  match s.pc with
  | .top => if s.i + W < n then .inl { s with pc := .ext } else .inl { s with pc := .scal }
  | .ext =>
    if matchLen inp s.sym s.i W 0 = W then .inl { s with count := s.count + W, i := s.i + W, pc := .top }
    else if anyEq inp s.sym s.i W = true ∨ s.count > 1 then
      .inl { s with count := s.count + matchLen inp s.sym s.i W 0, i := s.i + matchLen inp s.sym s.i W 0,
                    pc := .second }
    else .inl { s with pc := .search }
  | .second => .inl { doEmit emit inp s with pc := .search }
  | .search =>
    if s.i + W < n then
      match findPair inp 1 s.i (W - 1) 0 with
      | none => .inl { s with i := s.i + (W - 1) }
      | some z => .inl { s with i := s.i + z, pc := .sscan }
    else .inl { s with pc := .sscan }
  | .sscan => .inl { s with sym := rd inp s.i 1, count := 1, i := s.i + 1, pc := .top }
  | .scal =>
    if s.i < n then
      if rd inp s.i 1 = s.sym then .inl { s with count := s.count + 1, i := s.i + 1 }
      else
        .inl { doEmit emitT inp s with sym := rd inp s.i 1, count := 1, i := s.i + 1 }
    else .inr s

/-- `rle8_single_short_compress`: `compress_single_sse2` (src/rleX_Xsl_short.h:1061-1122)
followed by the scalar loop (src/rleX_Xsl_short.h:439-456). `minR` is
`RLE8_XSYMLUT_SHORT_MIN_RANGE_SHORT`. The `i++` of the `for` loop is part of each way
back to `top`. -/
def stepS8 {σ : Type} (emit : Emit σ) (minR : Nat) (inp : Mem) (n : Nat) (s : ES σ) : ES σ ⊕ ES σ :=
  match s.pc with
  | .top => if s.i + 16 < n then .inl { s with pc := .ext } else .inl { s with pc := .scal }
  | .ext =>
    if matchLen inp s.sym s.i 16 0 = 16 then
      .inl { s with count := s.count + 16, i := s.i + 15 + 1, pc := .top }
    else if anyEq inp s.sym s.i 16 = true ∨ s.count > 1 then
      .inl { s with count := s.count + matchLen inp s.sym s.i 16 0, i := s.i + matchLen inp s.sym s.i 16 0,
                    pc := .second }
    else .inl { s with count := 0, pc := .search }
  | .second => .inl { doEmit emit inp s with count := 0, pc := .search }
  | .search =>
    if s.i + 16 < n then
      match findByte inp s.sym s.i 16 0 with
      | none => .inl { s with i := s.i + 16 }
      | some z =>
        if inp (s.i + 15) ≠ s.sym.getD 0 0 ∧ cntEq inp s.sym s.i 16 < minR then
          .inl { s with i := s.i + 16 }
        else .inl { s with i := s.i + z + 1, count := 1, pc := .top }
    else .inl { s with i := s.i + 1, pc := .top }
  | .sscan => .inr s
  | .scal =>
    if s.i < n then
      if rd inp s.i 1 = s.sym then .inl { s with count := s.count + 1, i := s.i + 1 }
      else .inl { doEmit emit inp s with count := 0, i := s.i + 1 }
    else .inr s

/-- Loop invariant of `step8` and `stepS8`. -/
structure Inv8 {σ : Type} (W : Nat) (inp : Mem) (n : Nat) (CP : σ → List Byte → Nat → Prop) (s : ES σ) : Prop where
  cp : CP s.fs s.out s.lastRLE
  len : s.sym.length = 1
  last : s.lastRLE ≤ s.i
  hi : s.i ≤ n
  ext : s.pc = .ext → s.i + W < n
  lt : s.pc ≠ .top → s.pc ≠ .scal → s.i < n
  cnt : s.pc ≠ .search → s.pc ≠ .sscan → s.lastRLE + s.count ≤ s.i ∧ RunAt inp s.sym s.i s.count

/-- Order of the program points of `step8`. -/
def PC.rank8 : PC → Nat
  | .top => 5 | .ext => 4 | .second => 3 | .search => 2 | .sscan => 1 | .scal => 0

/-- Termination measure. -/
def mu8 {σ : Type} (n : Nat) (s : ES σ) : Nat := 6 * (n - s.i) + s.pc.rank8

theorem RunAt.extend1 {inp : Mem} {sym : List Byte} {i count k W : Nat} (h : RunAt inp sym i count)
    (hl : sym.length = 1) (hi : count ≤ i) (hk : k ≤ matchLen inp sym i W 0) :
    RunAt inp sym (i + k) (count + k) :=
  h.extend hi (by rw [hl]; exact Nat.one_dvd _) hk

theorem RunAt.one (inp : Mem) (i : Nat) : RunAt inp (rd inp i 1) (i + 1) 1 := by
  intro k hk
  obtain rfl : k = 0 := by omega
  simp [rd]

theorem RunAt.byte {inp : Mem} {sym : List Byte} {i : Nat} (h : inp i = sym.getD 0 0) :
    RunAt inp sym (i + 1) 1 := by
  intro k hk
  obtain rfl : k = 0 := by omega
  simpa using h

theorem RunAt.nil (inp : Mem) (sym : List Byte) (i : Nat) : RunAt inp sym i 0 := by
  intro k hk; omega

theorem RunAt.snoc {inp : Mem} {sym : List Byte} {i count : Nat} (h : RunAt inp sym i count)
    (hl : sym.length = 1) (hi : count ≤ i) (he : rd inp i 1 = sym) : RunAt inp sym (i + 1) (count + 1) := by
  intro k hk
  rw [show i + 1 - (count + 1) = i - count by omega]
  by_cases hlt : k < count
  · exact h k hlt
  · obtain rfl : k = count := by omega
    rw [show i - k + k = i by omega, hl, Nat.mod_one, ← he]
    simp [rd]

theorem findByte_spec (inp : Mem) (sym : List Byte) (i : Nat) :
    ∀ k off b, findByte inp sym i k off = some b →
      off ≤ b ∧ b < off + k ∧ inp (i + b) = sym.getD 0 0 := by
  intro k
  induction k with
  | zero => intro off b h; simp [findByte] at h
  | succ k ih =>
    intro off b h
    unfold findByte at h
    split at h
    · next he => cases h; exact ⟨by omega, by omega, he⟩
    · have := ih (off + 1) b h
      exact ⟨by omega, by omega, this.2.2⟩

/-- What `process_symbol` does to the invariant. -/
theorem doEmit_inv {σ : Type} {emit : Emit σ} {S : Nat} {unb : Bool} {inp : Mem} {B : Nat}
    {CP : σ → List Byte → Nat → Prop} (hc : Closed emit inp S unb B CP) (s : ES σ)
    (hcp : CP s.fs s.out s.lastRLE) (hl : s.sym.length = S) (hd : unb = true ∨ S ∣ s.count)
    (hlast : s.lastRLE + s.count ≤ s.i) (hB : s.i ≤ B) (hr : RunAt inp s.sym s.i s.count) :
    CP (doEmit emit inp s).fs (doEmit emit inp s).out (doEmit emit inp s).lastRLE ∧
      (doEmit emit inp s).lastRLE ≤ s.i ∧ (doEmit emit inp s).i = s.i ∧ (doEmit emit inp s).sym = s.sym := by
  unfold doEmit
  split
  · next bytes fs' he =>
    have := hc _ _ _ _ _ _ _ _ hcp hl hd (by omega) (hr.toRun (by omega)) he
    rw [show s.lastRLE + (s.i - s.count - s.lastRLE) + s.count = s.i by omega] at this
    exact ⟨this, Nat.le_refl _, rfl, rfl⟩
  · exact ⟨hcp, by omega, rfl, rfl⟩

theorem step8_inv {σ : Type} {emit emitT : Emit σ} {W : Nat} {unb : Bool} {inp : Mem} {n B : Nat}
    {CP : σ → List Byte → Nat → Prop} (hW : 2 ≤ W) (hB : n ≤ B) (hc : Closed emit inp 1 unb B CP)
    (hcT : Closed emitT inp 1 unb B CP)
    (s : ES σ) (h : Inv8 W inp n CP s) :
    Post (step8 emit emitT W inp n s) (fun s' => Inv8 W inp n CP s' ∧ mu8 n s' < mu8 n s)
      (fun s' => Inv8 W inp n CP s' ∧ n ≤ s'.i ∧ s'.pc = .scal) := by
  have h' := h
  obtain ⟨hcp, hlen, hlast, hhi, hext, hlt, hcnt⟩ := h
  have hd : unb = true ∨ 1 ∣ s.count := Or.inr (Nat.one_dvd _)
  simp only [step8]
  cases hpc : s.pc with
  | top =>
    obtain ⟨h1, h2⟩ := hcnt (by simp [hpc]) (by simp [hpc])
    simp only
    by_cases hi : s.i + W < n
    · rw [if_pos hi]
      refine ⟨⟨hcp, hlen, hlast, hhi, fun _ => hi, fun _ _ => by simp only; omega, fun _ _ => ⟨h1, h2⟩⟩, ?_⟩
      simp [mu8, PC.rank8, hpc]
    · rw [if_neg hi]
      refine ⟨⟨hcp, hlen, hlast, hhi, by simp, by simp, fun _ _ => ⟨h1, h2⟩⟩, ?_⟩
      simp [mu8, PC.rank8, hpc]
  | ext =>
    obtain ⟨h1, h2⟩ := hcnt (by simp [hpc]) (by simp [hpc])
    have h3 := hext hpc
    have hm := matchLen_le inp s.sym s.i W 0
    simp only
    by_cases hf : matchLen inp s.sym s.i W 0 = W
    · rw [if_pos hf]
      refine ⟨⟨hcp, hlen, by simp only; omega, by simp only; omega, by simp, by simp, fun _ _ =>
        ⟨by simp only; omega, h2.extend1 hlen (by omega) (Nat.le_of_eq hf.symm)⟩⟩, ?_⟩
      simp only [mu8, PC.rank8, hpc]; omega
    · rw [if_neg hf]
      by_cases hg : anyEq inp s.sym s.i W = true ∨ s.count > 1
      · rw [if_pos hg]
        refine ⟨⟨hcp, hlen, by simp only; omega, by simp only; omega, by simp, fun _ _ => by simp only; omega,
          fun _ _ => ⟨by simp only; omega, h2.extend1 hlen (by omega) (Nat.le_refl _)⟩⟩, ?_⟩
        simp only [mu8, PC.rank8, hpc]; omega
      · rw [if_neg hg]
        refine ⟨⟨hcp, hlen, hlast, hhi, by simp, fun _ _ => by simp only; omega, by simp⟩, ?_⟩
        simp [mu8, PC.rank8, hpc]
  | second =>
    obtain ⟨h1, h2⟩ := hcnt (by simp [hpc]) (by simp [hpc])
    have h3 := hlt (by simp [hpc]) (by simp [hpc])
    obtain ⟨g1, g2, g3, g4⟩ := doEmit_inv hc s hcp hlen hd h1 (by omega) h2
    refine ⟨⟨g1, by simp only [g4, hlen], by simp only [g3]; exact g2, by simp only [g3]; omega, by simp,
      fun _ _ => by simp only [g3]; omega, by simp⟩, ?_⟩
    simp [mu8, PC.rank8, hpc, g3]
  | search =>
    have h3 := hlt (by simp [hpc]) (by simp [hpc])
    simp only
    by_cases hi : s.i + W < n
    · rw [if_pos hi]
      split
      · refine ⟨⟨hcp, hlen, by simp only; omega, by simp only; omega, by simp [hpc],
          fun _ _ => by simp only; omega, by simp [hpc]⟩, ?_⟩
        simp only [mu8, PC.rank8, hpc]; omega
      · next z hz =>
        obtain ⟨_, hz2, _⟩ := findPair_spec _ _ _ _ _ _ hz
        refine ⟨⟨hcp, hlen, by simp only; omega, by simp only; omega, by simp,
          fun _ _ => by simp only; omega, by simp⟩, ?_⟩
        simp only [mu8, PC.rank8, hpc]; omega
    · rw [if_neg hi]
      refine ⟨⟨hcp, hlen, hlast, hhi, by simp, fun _ _ => h3, by simp⟩, ?_⟩
      simp [mu8, PC.rank8, hpc]
  | sscan =>
    have h3 := hlt (by simp [hpc]) (by simp [hpc])
    simp only
    refine ⟨⟨hcp, by simp, by simp only; omega, by simp only; omega, by simp, by simp,
      fun _ _ => ⟨by simp only; omega, RunAt.one _ _⟩⟩, ?_⟩
    simp only [mu8, PC.rank8, hpc]; omega
  | scal =>
    obtain ⟨h1, h2⟩ := hcnt (by simp [hpc]) (by simp [hpc])
    simp only
    by_cases hi : s.i < n
    · rw [if_pos hi]
      by_cases he : rd inp s.i 1 = s.sym
      · rw [if_pos he]
        refine ⟨⟨hcp, hlen, by simp only; omega, by simp only; omega, by simp [hpc], by simp [hpc],
          fun _ _ => ⟨by simp only; omega, h2.snoc hlen (by omega) he⟩⟩, ?_⟩
        simp only [mu8, PC.rank8, hpc]; omega
      · rw [if_neg he]
        obtain ⟨g1, g2, g3, g4⟩ := doEmit_inv hcT s hcp hlen hd h1 (by omega) h2
        have g5 : (doEmit emitT inp s).pc = .scal := by unfold doEmit; split <;> exact hpc
        refine ⟨⟨g1, by simp, by simp only; omega, by simp only; omega, by simp [g5],
          by simp [g5], fun _ _ => ⟨by simp only; omega, RunAt.one _ _⟩⟩, ?_⟩
        simp only [mu8, PC.rank8, hpc, g5]; omega
    · rw [if_neg hi]
      exact ⟨h', by omega, hpc⟩

theorem stepS8_inv {σ : Type} {emit : Emit σ} {minR : Nat} {unb : Bool} {inp : Mem} {n B : Nat}
    {CP : σ → List Byte → Nat → Prop} (hB : n ≤ B) (hc : Closed emit inp 1 unb B CP)
    (s : ES σ) (h : Inv8 16 inp n CP s ∧ s.pc ≠ .sscan ∧ (s.pc = .search → s.count = 0)) :
    Post (stepS8 emit minR inp n s)
      (fun s' => (Inv8 16 inp n CP s' ∧ s'.pc ≠ .sscan ∧ (s'.pc = .search → s'.count = 0)) ∧ mu8 n s' < mu8 n s)
      (fun s' => Inv8 16 inp n CP s' ∧ n ≤ s'.i ∧ s'.pc = .scal) := by
  obtain ⟨h, hns, hz0⟩ := h
  have h' := h
  obtain ⟨hcp, hlen, hlast, hhi, hext, hlt, hcnt⟩ := h
  have hd : unb = true ∨ 1 ∣ s.count := Or.inr (Nat.one_dvd _)
  simp only [stepS8]
  cases hpc : s.pc with
  | top =>
    obtain ⟨h1, h2⟩ := hcnt (by simp [hpc]) (by simp [hpc])
    simp only
    by_cases hi : s.i + 16 < n
    · rw [if_pos hi]
      refine ⟨⟨⟨hcp, hlen, hlast, hhi, fun _ => hi, fun _ _ => by simp only; omega, fun _ _ => ⟨h1, h2⟩⟩,
        by simp, by simp⟩, ?_⟩
      simp [mu8, PC.rank8, hpc]
    · rw [if_neg hi]
      refine ⟨⟨⟨hcp, hlen, hlast, hhi, by simp, by simp, fun _ _ => ⟨h1, h2⟩⟩, by simp, by simp⟩, ?_⟩
      simp [mu8, PC.rank8, hpc]
  | ext =>
    obtain ⟨h1, h2⟩ := hcnt (by simp [hpc]) (by simp [hpc])
    have h3 := hext hpc
    have hm := matchLen_le inp s.sym s.i 16 0
    simp only
    by_cases hf : matchLen inp s.sym s.i 16 0 = 16
    · rw [if_pos hf]
      refine ⟨⟨⟨hcp, hlen, by simp only; omega, by simp only; omega, by simp, by simp, fun _ _ =>
        ⟨by simp only; omega, h2.extend1 hlen (by omega) (Nat.le_of_eq hf.symm)⟩⟩, by simp, by simp⟩, ?_⟩
      simp only [mu8, PC.rank8, hpc]; omega
    · rw [if_neg hf]
      by_cases hg : anyEq inp s.sym s.i 16 = true ∨ s.count > 1
      · rw [if_pos hg]
        refine ⟨⟨⟨hcp, hlen, by simp only; omega, by simp only; omega, by simp, fun _ _ => by simp only; omega,
          fun _ _ => ⟨by simp only; omega, h2.extend1 hlen (by omega) (Nat.le_refl _)⟩⟩, by simp, by simp⟩, ?_⟩
        simp only [mu8, PC.rank8, hpc]; omega
      · rw [if_neg hg]
        refine ⟨⟨⟨hcp, hlen, hlast, hhi, by simp, fun _ _ => by simp only; omega, by simp⟩, by simp, by simp⟩, ?_⟩
        simp [mu8, PC.rank8, hpc]
  | second =>
    obtain ⟨h1, h2⟩ := hcnt (by simp [hpc]) (by simp [hpc])
    have h3 := hlt (by simp [hpc]) (by simp [hpc])
    obtain ⟨g1, g2, g3, g4⟩ := doEmit_inv hc s hcp hlen hd h1 (by omega) h2
    refine ⟨⟨⟨g1, by simp only [g4, hlen], by simp only [g3]; exact g2, by simp only [g3]; omega, by simp,
      fun _ _ => by simp only [g3]; omega, by simp⟩, by simp, by simp⟩, ?_⟩
    simp [mu8, PC.rank8, hpc, g3]
  | search =>
    have h3 := hlt (by simp [hpc]) (by simp [hpc])
    simp only
    by_cases hi : s.i + 16 < n
    · rw [if_pos hi]
      split
      · refine ⟨⟨⟨hcp, hlen, by simp only; omega, by simp only; omega, by simp [hpc],
          fun _ _ => by simp only; omega, by simp [hpc]⟩, by simp [hpc], fun _ => hz0 hpc⟩, ?_⟩
        simp only [mu8, PC.rank8, hpc]; omega
      · next z hz =>
        obtain ⟨_, hz2, hz3⟩ := findByte_spec _ _ _ _ _ _ hz
        by_cases hg : inp (s.i + 15) ≠ s.sym.getD 0 0 ∧ cntEq inp s.sym s.i 16 < minR
        · rw [if_pos hg]
          refine ⟨⟨⟨hcp, hlen, by simp only; omega, by simp only; omega, by simp [hpc],
            fun _ _ => by simp only; omega, by simp [hpc]⟩, by simp [hpc], fun _ => hz0 hpc⟩, ?_⟩
          simp only [mu8, PC.rank8, hpc]; omega
        · rw [if_neg hg]
          refine ⟨⟨⟨hcp, hlen, by simp only; omega, by simp only; omega, by simp,
            by simp, fun _ _ => ⟨by simp only; omega, RunAt.byte hz3⟩⟩, by simp, by simp⟩, ?_⟩
          simp only [mu8, PC.rank8, hpc]; omega
    · rw [if_neg hi]
      have hz := hz0 hpc
      refine ⟨⟨⟨hcp, hlen, by simp only; omega, by simp only; omega, by simp, by simp,
        fun _ _ => ⟨by simp only; omega, by simp only [hz]; exact RunAt.nil _ _ _⟩⟩, by simp, by simp⟩, ?_⟩
      simp only [mu8, PC.rank8, hpc]; omega
  | sscan => exact absurd hpc hns
  | scal =>
    obtain ⟨h1, h2⟩ := hcnt (by simp [hpc]) (by simp [hpc])
    simp only
    by_cases hi : s.i < n
    · rw [if_pos hi]
      by_cases he : rd inp s.i 1 = s.sym
      · rw [if_pos he]
        refine ⟨⟨⟨hcp, hlen, by simp only; omega, by simp only; omega, by simp [hpc], by simp [hpc],
          fun _ _ => ⟨by simp only; omega, h2.snoc hlen (by omega) he⟩⟩, by simp [hpc], by simp [hpc]⟩, ?_⟩
        simp only [mu8, PC.rank8, hpc]; omega
      · rw [if_neg he]
        obtain ⟨g1, g2, g3, g4⟩ := doEmit_inv hc s hcp hlen hd h1 (by omega) h2
        have g5 : (doEmit emit inp s).pc = .scal := by unfold doEmit; split <;> exact hpc
        refine ⟨⟨⟨g1, by simp [g4, hlen], by simp only; omega, by simp only; omega, by simp [g5],
          by simp [g5], fun _ _ => ⟨by simp only; omega, RunAt.nil _ _ _⟩⟩, by simp [g5], by simp [g5]⟩, ?_⟩
        simp only [mu8, PC.rank8, hpc, g5]; omega
    · rw [if_neg hi]
      exact ⟨h', by omega, hpc⟩

/-! ### What the scanners read -/

theorem anyEq_congr {inp inp' : Mem} {sym : List Byte} {i W : Nat}
    (h : ∀ j, i ≤ j → j < i + W → inp j = inp' j) : anyEq inp sym i W = anyEq inp' sym i W := by
  unfold anyEq
  rw [Bool.eq_iff_iff]
  simp only [List.any_eq_true, List.mem_range]
  constructor
  · rintro ⟨j, h1, h2⟩; exact ⟨j, h1, by rw [← h (i + j) (by omega) (by omega)]; exact h2⟩
  · rintro ⟨j, h1, h2⟩; exact ⟨j, h1, by rw [h (i + j) (by omega) (by omega)]; exact h2⟩

theorem cntEq_congr {inp inp' : Mem} {sym : List Byte} {i W : Nat}
    (h : ∀ j, i ≤ j → j < i + W → inp j = inp' j) : cntEq inp sym i W = cntEq inp' sym i W := by
  unfold cntEq
  apply List.countP_congr
  intro j hj
  rw [List.mem_range] at hj
  rw [h (i + j) (by omega) (by omega)]

theorem findByte_congr {inp inp' : Mem} {sym : List Byte} {i : Nat} :
    ∀ k off, (∀ j, i + off ≤ j → j < i + off + k → inp j = inp' j) →
      findByte inp sym i k off = findByte inp' sym i k off := by
  intro k
  induction k with
  | zero => intro off _; rfl
  | succ k ih =>
    intro off h
    unfold findByte
    rw [h (i + off) (by omega) (by omega), ih (off + 1) (fun j h1 h2 => h j (by omega) (by omega))]

theorem doEmit_congr {σ : Type} {emit : Emit σ} {inp inp' : Mem} (s : ES σ)
    (h : ∀ j, j < s.i → inp j = inp' j) : doEmit emit inp s = doEmit emit inp' s := by
  unfold doEmit
  split
  · rw [rd_congr (m₁ := inp) (m₂ := inp') (fun j h1 h2 => h j (by omega))]
  · rfl

theorem step8_congr {σ : Type} {emit emitT : Emit σ} {W : Nat} {inp inp' : Mem} {n : Nat}
    {CP : σ → List Byte → Nat → Prop} (hW : 2 ≤ W) (hm : ∀ k, k < n → inp k = inp' k) (s : ES σ)
    (h : Inv8 W inp n CP s) : step8 emit emitT W inp n s = step8 emit emitT W inp' n s := by
  obtain ⟨hcp, hlen, hlast, hhi, hext, hlt, hcnt⟩ := h
  simp only [step8]
  cases hpc : s.pc with
  | top => rfl
  | ext =>
    have h3 := hext hpc
    simp only
    rw [matchLen_congr (inp := inp) (inp' := inp') W 0 (fun j h1 h2 => hm j (by omega)),
      anyEq_congr (inp := inp) (inp' := inp') (fun j h1 h2 => hm j (by omega))]
  | second =>
    simp only
    rw [doEmit_congr s (fun j hj => hm j (by omega))]
  | search =>
    simp only
    by_cases hi : s.i + W < n
    · rw [if_pos hi, if_pos hi,
        findPair_congr (inp := inp) (inp' := inp') (W - 1) 0 (fun j h1 h2 => hm j (by omega))]
    · rw [if_neg hi, if_neg hi]
  | sscan =>
    have h3 := hlt (by simp [hpc]) (by simp [hpc])
    simp only
    rw [rd_congr (m₁ := inp) (m₂ := inp') (fun j h1 h2 => hm j (by omega))]
  | scal =>
    simp only
    by_cases hi : s.i < n
    · rw [if_pos hi, if_pos hi, rd_congr (m₁ := inp) (m₂ := inp') (fun j h1 h2 => hm j (by omega)),
        doEmit_congr s (fun j hj => hm j (by omega))]
    · rw [if_neg hi, if_neg hi]

theorem stepS8_congr {σ : Type} {emit : Emit σ} {minR : Nat} {inp inp' : Mem} {n : Nat}
    {CP : σ → List Byte → Nat → Prop} (hm : ∀ k, k < n → inp k = inp' k) (s : ES σ)
    (h : Inv8 16 inp n CP s) : stepS8 emit minR inp n s = stepS8 emit minR inp' n s := by
  obtain ⟨hcp, hlen, hlast, hhi, hext, hlt, hcnt⟩ := h
  simp only [stepS8]
  cases hpc : s.pc with
  | top => rfl
  | ext =>
    have h3 := hext hpc
    simp only
    rw [matchLen_congr (inp := inp) (inp' := inp') 16 0 (fun j h1 h2 => hm j (by omega)),
      anyEq_congr (inp := inp) (inp' := inp') (fun j h1 h2 => hm j (by omega))]
  | second =>
    simp only
    rw [doEmit_congr s (fun j hj => hm j (by omega))]
  | search =>
    simp only
    by_cases hi : s.i + 16 < n
    · rw [if_pos hi, if_pos hi,
        findByte_congr (inp := inp) (inp' := inp') 16 0 (fun j h1 h2 => hm j (by omega)),
        cntEq_congr (inp := inp) (inp' := inp') (fun j h1 h2 => hm j (by omega)), hm (s.i + 15) (by omega)]
    · rw [if_neg hi, if_neg hi]
  | sscan => rfl
  | scal =>
    simp only
    by_cases hi : s.i < n
    · rw [if_pos hi, if_pos hi, rd_congr (m₁ := inp) (m₂ := inp') (fun j h1 h2 => hm j (by omega)),
        doEmit_congr s (fun j hj => hm j (by omega))]
    · rw [if_neg hi, if_neg hi]

/-! ### The scanners as a whole -/

/-- The multi symbol scanner; `state.symbol = ~(*pIn)` at the start
(src/rleX_Xsl.h:289, src/rleX_Xsl_short.h:411, src/rle8_extreme_cpu.h:102). -/
def run8T {σ : Type} (F : Fmt σ) (emitT : Emit σ) (W : Nat) (inp : Mem) (n : Nat) : Option (ES σ) :=
  loop (step8 F.emit emitT W inp n) (6 * n + 6) ⟨.top, 0, 0, 0, [~~~ inp 0], F.init, []⟩

/-- The scanner of the codecs with one emission rule (src/rleX_Xsl.h:289-313). -/
def run8 {σ : Type} (F : Fmt σ) (W : Nat) : Mem → Nat → Option (ES σ) := run8T F F.emit W

/-- The single symbol scanner for the symbol `sym inp n` (src/rleX_Xsl_short.h:418-456). -/
def runS8 {σ : Type} (F : Fmt σ) (fs0 : Mem → Nat → σ) (minR : Nat) (sym : Mem → Nat → Byte) (inp : Mem) (n : Nat) :
    Option (ES σ) :=
  loop (stepS8 F.emit minR inp n) (6 * n + 6) ⟨.top, 0, 0, 0, [sym inp n], fs0 inp n, []⟩

theorem inv8_start {σ : Type} {W : Nat} {inp : Mem} {n : Nat} {CP : σ → List Byte → Nat → Prop} {fs : σ} {b : Byte}
    (h : CP fs [] 0) : Inv8 W inp n CP (⟨.top, 0, 0, 0, [b], fs, []⟩ : ES σ) :=
  ⟨h, by simp, by simp, by simp, by simp, by simp, fun _ _ => ⟨by simp, RunAt.nil _ _ _⟩⟩

theorem Inv8.final {σ : Type} {W : Nat} {inp : Mem} {n : Nat} {CP : σ → List Byte → Nat → Prop} {s : ES σ} {unb : Bool}
    (h : Inv8 W inp n CP s) (hn : n ≤ s.i) (hp : s.pc = .scal) : FinalOK 1 unb inp n CP s := by
  obtain ⟨h1, h2⟩ := h.cnt (by simp [hp]) (by simp [hp])
  have := h.hi
  exact ⟨h.cp, h.len, h1, hn, by omega, h2, Or.inr (Nat.one_dvd _)⟩

theorem run8T_scan {σ : Type} (F : Fmt σ) (emitT : Emit σ) {E : List (Emit σ)} {W : Nat} {unb : Bool} (hW : 2 ≤ W)
    (h1 : F.emit ∈ E) (h2 : emitT ∈ E) : ScanRun E 1 unb (fun _ _ => F.init) (run8T F emitT W) := by
  intro inp n B CP hB hc h0
  obtain ⟨s, h1, h2, h3, h4⟩ := loop_rule (body := step8 F.emit emitT W inp n) (Inv8 W inp n CP)
    (fun s' => Inv8 W inp n CP s' ∧ n ≤ s'.i ∧ s'.pc = .scal) (mu8 n)
    (fun s hs => step8_inv hW (by omega) (hc _ h1) (hc _ h2) s hs) (6 * n + 6)
    ⟨.top, 0, 0, 0, [~~~ inp 0], F.init, []⟩ (inv8_start h0) (by simp [mu8, PC.rank8])
  exact ⟨s, h1, h2.final h3 h4⟩

theorem run8_scan {σ : Type} (F : Fmt σ) {W : Nat} {unb : Bool} (hW : 2 ≤ W) :
    ScanRun [F.emit] 1 unb (fun _ _ => F.init) (run8 F W) :=
  run8T_scan F F.emit hW (by simp) (by simp)

theorem run8T_congr {σ : Type} (F : Fmt σ) (emitT : Emit σ) {W : Nat} (hW : 2 ≤ W) : ScanCongr 1 (run8T F emitT W) := by
  intro inp inp' n hm
  have hc : ∀ e : Emit σ, Closed e inp 1 true n (fun _ _ _ => True) := fun _ => closed_true
  unfold run8T
  rw [hm 0 (by omega)]
  refine loop_congr (Inv8 W inp n (fun _ _ _ => True)) (b₁ := step8 F.emit emitT W inp n)
    (b₂ := step8 F.emit emitT W inp' n) ?_ _ _ (inv8_start trivial)
  intro s hs
  refine ⟨step8_congr hW (fun k hk => hm k (by omega)) s hs, ?_⟩
  intro s' hs'
  have := step8_inv hW (Nat.le_refl _) (hc F.emit) (hc emitT) s hs
  rw [hs'] at this
  exact this.1

theorem run8_congr {σ : Type} (F : Fmt σ) {W : Nat} (hW : 2 ≤ W) : ScanCongr 1 (run8 F W) :=
  run8T_congr F F.emit hW

theorem runS8_scan {σ : Type} (F : Fmt σ) (fs0 : Mem → Nat → σ) {minR : Nat} {sym : Mem → Nat → Byte} {unb : Bool} :
    ScanRun [F.emit] 1 unb fs0 (runS8 F fs0 minR sym) := by
  intro inp n B CP hB hc h0
  have hc := hc _ (List.mem_singleton.mpr rfl)
  obtain ⟨s, h1, h2, h3, h4⟩ := loop_rule (body := stepS8 F.emit minR inp n)
    (fun s => Inv8 16 inp n CP s ∧ s.pc ≠ .sscan ∧ (s.pc = .search → s.count = 0))
    (fun s' => Inv8 16 inp n CP s' ∧ n ≤ s'.i ∧ s'.pc = .scal) (mu8 n)
    (fun s hs => stepS8_inv (by omega) hc s hs) (6 * n + 6)
    ⟨.top, 0, 0, 0, [sym inp n], fs0 inp n, []⟩ ⟨inv8_start h0, by simp, by simp⟩ (by simp [mu8, PC.rank8])
  exact ⟨s, h1, h2.final h3 h4⟩

theorem runS8_congr {σ : Type} (F : Fmt σ) (fs0 : Mem → Nat → σ) {minR : Nat} {sym : Mem → Nat → Byte}
    (hs : ∀ inp inp' n, (∀ k, k < n + 1 → inp k = inp' k) → sym inp n = sym inp' n ∧ fs0 inp n = fs0 inp' n) :
    ScanCongr 1 (runS8 F fs0 minR sym) := by
  intro inp inp' n hm
  have hc : Closed F.emit inp 1 true n (fun _ _ _ => True) := closed_true
  unfold runS8
  rw [(hs inp inp' n hm).1, (hs inp inp' n hm).2]
  refine loop_congr (fun s => Inv8 16 inp n (fun _ _ _ => True) s ∧ s.pc ≠ .sscan ∧ (s.pc = .search → s.count = 0))
    (b₁ := stepS8 F.emit minR inp n)
    (b₂ := stepS8 F.emit minR inp' n) ?_ _ _ ⟨inv8_start trivial, by simp, by simp⟩
  intro s hs
  refine ⟨stepS8_congr (fun k hk => hm k (by omega)) s hs.1, ?_⟩
  intro s' hs'
  have := stepS8_inv (minR := minR) (Nat.le_refl _) hc s hs
  rw [hs'] at this
  exact this.1

end Hrk
