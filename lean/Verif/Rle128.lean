import Verif.Masks
import Verif.RleX

/-
The 128 bit codecs. The record format is the one of the other multi-byte codecs
(`XCfg` with `S = 16`), except for the terminator of `rle128_byte_packed`; the
scanner is different and has no non-SIMD variant.
-/

namespace Hrk

/-- One more than the highest `k < 16` with `pIn[i + k] ≠ pIn[i + 16 + k]`, 0 if there
is none: `31 - __builtin_clz(~bitMask << 16) - 15`
(src/rle128_extreme_cpu.h:255-264). -/
def highDiff (inp : Mem) (i : Nat) : Nat → Nat
  | 0 => 0
  | k + 1 => if inp (i + k) ≠ inp (i + 16 + k) then k + 1 else highDiff inp i k

/-- One step of the encoder loop (src/rle128_extreme_cpu.h:59-281). -/
def step128 {σ : Type} (emit : Emit σ) (unb : Bool) (inp : Mem) (n : Nat) (s : ES σ) : ES σ ⊕ ES σ :=
  match s.pc with
  | .top => if s.i < n then .inl { s with pc := .ext } else .inr s
  | .ext =>
    if s.i + 16 < n then
      if matchLen inp s.sym s.i 16 0 = 16 then
        .inl { s with i := s.i + 16, count := s.count + 16 }
      else if unb then
        .inl { s with i := s.i + matchLen inp s.sym s.i 16 0,
                      count := s.count + matchLen inp s.sym s.i 16 0, pc := .second }
      else .inl { s with pc := .second }
    else .inl { s with pc := .second }
  | .scal => .inl { s with pc := .second } -- not used
  | .second => .inl { doEmit emit inp s with pc := .search }
  | .search =>
    if s.i + 32 < n then
      if pairAt inp 16 s.i then
        .inl { s with sym := rd inp s.i 16, i := s.i + 32, count := 32, pc := .ext }
      else if inp (s.i + 15) ≠ inp (s.i + 31) then .inl { s with i := s.i + 16 }
      else .inl { s with i := s.i + highDiff inp s.i 16 }
    else .inl { s with pc := .sscan }
  | .sscan =>
    if s.i + 16 ≤ n ∧ rd inp (s.i + 16) 16 = rd inp s.i 16 then
      .inl { s with sym := rd inp s.i 16, count := 32, i := s.i + 32, pc := .top }
    else .inl { s with sym := rd inp s.i 16, count := 0, i := s.i + 1, pc := .top }

/-- The encoder main loop; the initial symbol is `0 ^ pIn[0 .. 16)`
(src/rle128_extreme_cpu.h:43-50). -/
def run128 {σ : Type} (F : Fmt σ) (unb : Bool) (inp : Mem) (n : Nat) : Option (ES σ) :=
  loop (step128 F.emit unb inp n) (6 * n + 6) ⟨.top, 0, 0, 0, rd inp 0 16, F.init, []⟩

/-- `__builtin_clz` of a 32 bit number; undefined (`none`) for 0 (src/rle128_extreme_cpu.h:261). -/
def clz32 (m : Nat) : Option Nat := if m = 0 then none else some (31 - m.log2)

/-- One step of the encoder loop with the vector instructions of src/rle128_extreme_cpu.h:59-281;
`.inr none` is undefined behaviour. -/
def step128I {σ : Type} (emit : Emit σ) (unb : Bool) (inp : Mem) (n : Nat) (s : ES σ) : ES σ ⊕ Option (ES σ) :=
  match s.pc with
  | .top => if s.i < n then .inl { s with pc := .ext } else .inr (some s)
  | .ext =>
    if s.i + 16 < n then
      let cmpMask := movemask 16 (veq (vload s.sym) (vmem inp s.i))
      if cmpMask = 0xFFFF then .inl { s with i := s.i + 16, count := s.count + 16 }
      else if unb then
        match ctz (not32 cmpMask) with
        | none => .inr none
        | some offset => .inl { s with i := s.i + offset, count := s.count + offset, pc := .second }
      else .inl { s with pc := .second }
    else .inl { s with pc := .second }
  | .scal => .inl { s with pc := .second } -- not used
  | .second => .inl { doEmit emit inp s with pc := .search }
  | .search =>
    if s.i + 32 < n then
      let bitMask := movemask 16 (veq (vmem inp s.i) (vmem inp (s.i + 16)))
      if bitMask = 0xFFFF then
        .inl { s with sym := rd inp s.i 16, i := s.i + 32, count := 32, pc := .ext }
      else if bitMask &&& 0x8000 = 0 then .inl { s with i := s.i + 16 }
      else
        let hiMask := (not32 bitMask <<< 16) % 4294967296
        match clz32 hiMask with
        | none => .inr none
        | some z => .inl { s with i := s.i + ((31 - z) - 15) }
    else .inl { s with pc := .sscan }
  | .sscan =>
    if s.i + 16 ≤ n ∧ movemask 16 (veq (vmem inp s.i) (vmem inp (s.i + 16))) = 0xFFFF then
      .inl { s with sym := rd inp s.i 16, count := 32, i := s.i + 32, pc := .top }
    else .inl { s with sym := rd inp s.i 16, count := 0, i := s.i + 1, pc := .top }

/-- The encoder main loop (src/rle128_extreme_cpu.h:43-281). -/
def run128I {σ : Type} (F : Fmt σ) (unb : Bool) (inp : Mem) (n : Nat) : Option (ES σ) :=
  (loop (step128I F.emit unb inp n) (6 * n + 6) ⟨.top, 0, 0, 0, rd inp 0 16, F.init, []⟩).join

theorem highDiff_le (inp : Mem) (i : Nat) : ∀ k, highDiff inp i k ≤ k := by
  intro k
  induction k with
  | zero => simp [highDiff]
  | succ k ih => unfold highDiff; split <;> omega

theorem highDiff_zero (inp : Mem) (i : Nat) :
    ∀ k, highDiff inp i k = 0 → ∀ j, j < k → inp (i + j) = inp (i + 16 + j) := by
  intro k
  induction k with
  | zero => intro _ j hj; omega
  | succ k ih =>
    intro h j hj
    unfold highDiff at h
    split at h
    · omega
    · next he =>
      by_cases hjk : j = k
      · subst hjk; simpa using he
      · exact ih h j (by omega)

theorem highDiff_pos {inp : Mem} {i : Nat} (h : pairAt inp 16 i = false) : 0 < highDiff inp i 16 := by
  apply Nat.pos_of_ne_zero
  intro h0
  have := highDiff_zero inp i 16 h0
  have : pairAt inp 16 i = true := by
    simp only [pairAt, beq_iff_eq, rd]
    apply List.map_congr_left
    intro j hj
    exact this j (List.mem_range.mp hj)
  simp [this] at h

/-! ### The vector instructions -/

theorem highDiff_spec (inp : Mem) (i : Nat) : ∀ k, 0 < highDiff inp i k →
    inp (i + (highDiff inp i k - 1)) ≠ inp (i + 16 + (highDiff inp i k - 1)) ∧
    ∀ j, highDiff inp i k ≤ j → j < k → inp (i + j) = inp (i + 16 + j) := by
  intro k
  induction k with
  | zero => intro h; simp [highDiff] at h
  | succ k ih =>
    intro h
    unfold highDiff at h ⊢
    by_cases he : inp (i + k) ≠ inp (i + 16 + k)
    · rw [if_pos he]
      exact ⟨he, fun j h1 h2 => absurd h2 (by omega)⟩
    · rw [if_neg he] at h ⊢
      obtain ⟨a, b⟩ := ih h
      refine ⟨a, fun j h1 h2 => ?_⟩
      by_cases e : j = k
      · subst e; exact Classical.not_not.mp he
      · exact b j h1 (by omega)

theorem pair_full (inp : Mem) (i : Nat) :
    movemask 16 (veq (vmem inp i) (vmem inp (i + 16))) = 0xFFFF ↔ pairAt inp 16 i = true := by
  rw [show (0xFFFF : Nat) = 2 ^ 16 - 1 by decide, movemask_full, pairAt_iff]
  exact forall_congr' fun j => forall_congr' fun _ => veq_ge _ _ _

theorem log2_at {m z : Nat} (h : m.testBit z = true) (h2 : ∀ j, z < j → m.testBit j = false) : m.log2 = z := by
  have h0 : m ≠ 0 := by intro e; rw [e, Nat.zero_testBit] at h; cases h
  have lo : 2 ^ z ≤ m := Nat.ge_two_pow_of_testBit h
  have hi : m < 2 ^ (z + 1) := Nat.lt_pow_two_of_testBit _ fun j hj => h2 j hj
  have a := (Nat.le_log2 h0).mpr lo
  have b := (Nat.log2_lt h0).mpr hi
  omega

theorem hiMask_clz {inp : Mem} {i : Nat} (h : pairAt inp 16 i = false) :
    clz32 ((not32 (movemask 16 (veq (vmem inp i) (vmem inp (i + 16)))) <<< 16) % 4294967296) =
      some (31 - (15 + highDiff inp i 16)) := by
  have hpos := highDiff_pos h
  have hle := highDiff_le inp i 16
  obtain ⟨h1, h2⟩ := highDiff_spec inp i 16 hpos
  have hm : movemask 16 (veq (vmem inp i) (vmem inp (i + 16))) < 4294967296 :=
    Nat.lt_trans (movemask_lt _ _) (by decide)
  have hbit : ∀ j, ((not32 (movemask 16 (veq (vmem inp i) (vmem inp (i + 16)))) <<< 16) % 4294967296).testBit j =
      (decide (j < 32) && (decide (16 ≤ j) && !(decide (j - 16 < 16) && decide (inp (i + (j - 16)) = inp (i + 16 + (j - 16)))))) := by
    intro j
    rw [show (4294967296 : Nat) = 2 ^ 32 by decide, Nat.testBit_mod_two_pow, Nat.testBit_shiftLeft, not32_testBit hm, mask_testBit]
    by_cases a : j < 32
    · rw [decide_eq_true (show j - 16 < 32 by omega), Bool.true_and]; rfl
    · rw [decide_eq_false a]; rfl
  have hlog := log2_at (m := (not32 (movemask 16 (veq (vmem inp i) (vmem inp (i + 16)))) <<< 16) % 4294967296)
    (z := 15 + highDiff inp i 16) (by
      rw [hbit, show 15 + highDiff inp i 16 - 16 = highDiff inp i 16 - 1 by omega, decide_eq_false h1,
        decide_eq_true (show 15 + highDiff inp i 16 < 32 by omega), decide_eq_true (show 16 ≤ 15 + highDiff inp i 16 by omega),
        Bool.and_false]
      rfl)
    (fun j hj => by
      rw [hbit]
      by_cases a : j < 32
      · rw [decide_eq_true (show j - 16 < 16 by omega), decide_eq_true (h2 (j - 16) (by omega) (by omega))]
        simp
      · rw [decide_eq_false a]; rfl)
  unfold clz32
  rw [if_neg, hlog]
  intro e
  rw [e] at hlog
  simp at hlog
  omega

theorem step128I_eq {σ : Type} (emit : Emit σ) (unb : Bool) (inp : Mem) (n : Nat) (s : ES σ) (hl : s.sym.length = 16) :
    step128I emit unb inp n s = (step128 emit unb inp n s).map id some := by
  have lane : ∀ j, j < 16 → vload s.sym j = s.sym.getD (j % s.sym.length) 0 := by
    intro j hj
    unfold vload
    rw [hl, Nat.mod_eq_of_lt hj]
  unfold step128I step128
  cases hpc : s.pc
  all_goals dsimp only
  · split <;> rfl
  · split
    · have hle := matchLen_le inp s.sym s.i 16 0
      have hfull : movemask 16 (veq (vload s.sym) (vmem inp s.i)) = 0xFFFF ↔ matchLen inp s.sym s.i 16 0 = 16 := by
        rw [show (0xFFFF : Nat) = 2 ^ 16 - 1 by decide, movemask_full]
        constructor
        · intro h
          by_cases hlt : matchLen inp s.sym s.i 16 0 < 16
          · have := matchLen_stop inp s.sym s.i 16 0 hlt
            have h2 := (veq_ge _ _ _).mp (h _ hlt)
            rw [lane _ hlt] at h2
            rw [Nat.zero_add] at this
            exact absurd h2.symm this
          · omega
        · intro h j hj
          have := matchLen_spec inp s.sym s.i 16 0 j (by omega)
          rw [Nat.zero_add] at this
          rw [veq_ge, lane _ hj]
          exact this.symm
      by_cases h1 : matchLen inp s.sym s.i 16 0 = 16
      · rw [if_pos h1, if_pos (hfull.mpr h1)]
        rfl
      · rw [if_neg h1, if_neg (fun e => h1 (hfull.mp e))]
        have hlt : matchLen inp s.sym s.i 16 0 < 16 := by omega
        have hm : movemask 16 (veq (vload s.sym) (vmem inp s.i)) < 4294967296 := Nat.lt_trans (movemask_lt _ _) (by decide)
        have hc : ctz (not32 (movemask 16 (veq (vload s.sym) (vmem inp s.i)))) = some (matchLen inp s.sym s.i 16 0) := by
          refine ctz_at (by omega) ?_ fun j hj => ?_
          · rw [not32_testBit hm, mask_testBit, lane _ hlt]
            have := matchLen_stop inp s.sym s.i 16 0 hlt
            rw [Nat.zero_add] at this
            rw [decide_eq_false (show ¬ s.sym.getD (matchLen inp s.sym s.i 16 0 % s.sym.length) 0 = vmem inp s.i (matchLen inp s.sym s.i 16 0) from fun e => this e.symm), decide_eq_true (show matchLen inp s.sym s.i 16 0 < 32 by omega)]
            simp
          · rw [not32_testBit hm, mask_testBit, lane _ (by omega)]
            have := matchLen_spec inp s.sym s.i 16 0 j hj
            rw [Nat.zero_add] at this
            rw [decide_eq_true (show _ = vmem inp s.i j from this.symm), decide_eq_true (show j < 16 by omega)]
            simp
        rw [hc]
        split <;> rfl
    · rfl
  · rfl
  · rfl
  · split
    · by_cases h1 : pairAt inp 16 s.i = true
      · rw [if_pos h1, if_pos ((pair_full inp s.i).mpr h1)]
        rfl
      · rw [if_neg h1, if_neg (fun e => h1 ((pair_full inp s.i).mp e)), hiMask_clz (by simpa using h1)]
        have ht : movemask 16 (veq (vmem inp s.i) (vmem inp (s.i + 16))) &&& 0x8000 = 0 ↔ inp (s.i + 15) ≠ inp (s.i + 31) := by
          rw [and_8000, mask_testBit]
          show (decide (15 < 16) && decide (inp (s.i + 15) = inp (s.i + 16 + 15))) = false ↔ _
          rw [show s.i + 16 + 15 = s.i + 31 by omega]
          simp
        by_cases h2 : inp (s.i + 15) ≠ inp (s.i + 31)
        · rw [if_pos h2, if_pos (ht.mpr h2)]
          rfl
        · rw [if_neg h2, if_neg (fun e => h2 (ht.mp e))]
          have hle := highDiff_le inp s.i 16
          have hpos := highDiff_pos (inp := inp) (i := s.i) (by simpa using h1)
          dsimp only
          rw [show 31 - (31 - (15 + highDiff inp s.i 16)) - 15 = highDiff inp s.i 16 by omega]
          rfl
    · rfl
  · have e : (rd inp (s.i + 16) 16 = rd inp s.i 16) ↔ movemask 16 (veq (vmem inp s.i) (vmem inp (s.i + 16))) = 0xFFFF := by
      rw [pair_full, pairAt, beq_iff_eq, eq_comm]
    by_cases h : s.i + 16 ≤ n ∧ rd inp (s.i + 16) 16 = rd inp s.i 16
    · rw [if_pos h, if_pos ⟨h.1, e.mp h.2⟩]
      rfl
    · rw [if_neg h, if_neg (fun x => h ⟨x.1, e.mpr x.2⟩)]
      rfl

theorem step128_symlen {σ : Type} {emit : Emit σ} {unb : Bool} {inp : Mem} {n : Nat}
    {s s' : ES σ} (hl : s.sym.length = 16) (h : step128 emit unb inp n s = .inl s') : s'.sym.length = 16 := by
  unfold step128 at h
  cases hpc : s.pc <;> rw [hpc] at h <;> dsimp only at h
  case second =>
    cases h
    unfold doEmit
    split <;> exact hl
  all_goals
    repeat' split at h
    all_goals cases h
    all_goals first | exact hl | simp

theorem run128I_eq {σ : Type} (F : Fmt σ) (unb : Bool) : run128I F unb = run128 F unb := by
  funext inp n
  unfold run128I run128
  exact loop_map (fun s => s.sym.length = 16) (fun s hs => ⟨step128I_eq F.emit unb inp n s hs, fun s' => step128_symlen hs⟩)
    _ _ (by simp)

/-! ### The scanner -/

theorem step128_inv {σ : Type} {emit : Emit σ} {unb : Bool} {inp : Mem} {n B : Nat}
    {CP : σ → List Byte → Nat → Prop} (hB : n + 16 ≤ B)
    (hc : Closed emit inp 16 unb B CP) (s : ES σ) (h : XInv 16 unb inp n CP s) :
    Post (step128 emit unb inp n s) (fun s' => XInv 16 unb inp n CP s' ∧ muX n s' < muX n s)
      (fun s' => XInv 16 unb inp n CP s' ∧ n ≤ s'.i ∧ s'.pc = .top) := by
  obtain ⟨pc, i, count, lastRLE, sym, fs, out⟩ := s
  obtain ⟨hcp, hlen, hlast, htop, hntop, hcnt, hdvd, hdvd2⟩ := h
  simp only at *
  cases pc with
  | top =>
    obtain ⟨h1, h2⟩ := hcnt (by simp)
    have h3 := hdvd (by simp)
    simp only [step128]
    split
    · next hi =>
      refine ⟨⟨hcp, hlen, hlast, by simp, fun _ => hi, fun _ => ⟨h1, h2⟩, fun _ => h3, by simp⟩, ?_⟩
      simp [muX, PC.rank]
    · next hi =>
      exact ⟨⟨hcp, hlen, hlast, htop, hntop, hcnt, hdvd, hdvd2⟩, by simp; omega, rfl⟩
  | ext =>
    obtain ⟨h1, h2⟩ := hcnt (by simp)
    have h3 := hdvd (by simp)
    have h4 := hntop (by simp)
    simp only [step128]
    split
    · next hi =>
      have hm := matchLen_le inp sym i 16 0
      split
      · next hf =>
        refine ⟨⟨hcp, hlen, by simp; omega, by simp, fun _ => by simp; omega,
          fun _ => ⟨by simp; omega, ?_⟩, fun _ => Nat.dvd_add h3 (Nat.dvd_refl _), by simp⟩, ?_⟩
        · exact h2.extend (by omega) (by rw [hlen]; exact h3) (W := 16) (by simp only; omega)
        · simp [muX, PC.rank]; omega
      · next hf =>
        split
        · next hu =>
          refine ⟨⟨hcp, hlen, by simp; omega, by simp, fun _ => by simp; omega,
            fun _ => ⟨by simp; omega, ?_⟩, by simp, fun _ => Or.inl hu⟩, ?_⟩
          · exact h2.extend (by omega) (by rw [hlen]; exact h3) (W := 16) (by simp only; omega)
          · simp [muX, PC.rank]; omega
        · refine ⟨⟨hcp, hlen, hlast, by simp, fun _ => h4, fun _ => ⟨h1, h2⟩, by simp, fun _ => Or.inr h3⟩, ?_⟩
          simp [muX, PC.rank]
    · refine ⟨⟨hcp, hlen, hlast, by simp, fun _ => h4, fun _ => ⟨h1, h2⟩, by simp, fun _ => Or.inr h3⟩, ?_⟩
      simp [muX, PC.rank]
  | scal =>
    obtain ⟨h1, h2⟩ := hcnt (by simp)
    have h3 := hdvd (by simp)
    have h4 := hntop (by simp)
    refine ⟨⟨hcp, hlen, hlast, by simp, fun _ => h4, fun _ => ⟨h1, h2⟩, by simp, fun _ => Or.inr h3⟩, ?_⟩
    simp [muX, PC.rank]
  | second =>
    obtain ⟨h1, h2⟩ := hcnt (by simp)
    have h3 := hdvd2 rfl
    have h4 := hntop (by simp)
    simp only [step128, doEmit]
    split
    · next bytes fs' he =>
      have := hc _ _ _ _ _ _ _ _ hcp hlen h3 (by omega) (h2.toRun (by omega)) he
      rw [show lastRLE + (i - count - lastRLE) + count = i by omega] at this
      refine ⟨⟨this, hlen, by simp, by simp, fun _ => h4, by simp, by simp, by simp⟩, ?_⟩
      simp [muX, PC.rank]
    · refine ⟨⟨hcp, hlen, hlast, by simp, fun _ => h4, by simp, by simp, by simp⟩, ?_⟩
      simp [muX, PC.rank]
  | search =>
    have h4 := hntop (by simp)
    simp only [step128]
    split
    · next hi =>
      split
      · next hp =>
        refine ⟨⟨hcp, by simp, by simp; omega, by simp, fun _ => by simp; omega,
          fun _ => ⟨by simp; omega, ?_⟩, fun _ => ⟨2, by simp⟩, by simp⟩, ?_⟩
        · exact RunAt.pair (inp := inp) (p := i) (by omega) (by
            simp only [pairAt, beq_iff_eq] at hp; exact hp.symm)
        · simp [muX, PC.rank]; omega
      · next hp =>
        split
        · refine ⟨⟨hcp, hlen, by simp; omega, by simp, fun _ => by simp; omega, by simp, by simp, by simp⟩, ?_⟩
          simp [muX, PC.rank]; omega
        · have := highDiff_pos (by simpa using hp)
          have := highDiff_le inp i 16
          refine ⟨⟨hcp, hlen, by simp; omega, by simp, fun _ => by simp; omega, by simp, by simp, by simp⟩, ?_⟩
          simp [muX, PC.rank]; omega
    · refine ⟨⟨hcp, hlen, hlast, by simp, fun _ => h4, by simp, by simp, by simp⟩, ?_⟩
      simp [muX, PC.rank]
  | sscan =>
    have h4 := hntop (by simp)
    simp only [step128]
    split
    · next hi =>
      refine ⟨⟨hcp, by simp, by simp; omega, fun _ => by simp; omega, by simp,
          fun _ => ⟨by simp; omega, RunAt.pair (by omega) hi.2⟩, fun _ => ⟨2, by simp⟩, by simp⟩, ?_⟩
      simp [muX, PC.rank]; omega
    · next hi =>
      refine ⟨⟨hcp, by simp, by simp; omega, fun _ => by simp; omega, by simp,
          fun _ => ⟨by simp; omega, by intro k hk; simp at hk⟩, fun _ => by simp, by simp⟩, ?_⟩
      simp [muX, PC.rank]; omega

theorem highDiff_congr {inp inp' : Mem} {i : Nat} :
    ∀ k, k ≤ 16 → (∀ j, i ≤ j → j < i + 32 → inp j = inp' j) → highDiff inp i k = highDiff inp' i k := by
  intro k
  induction k with
  | zero => intro _ _; rfl
  | succ k ih =>
    intro hk h
    unfold highDiff
    rw [h (i + k) (by omega) (by omega), h (i + 16 + k) (by omega) (by omega), ih (by omega) h]

theorem step128_congr {σ : Type} {emit : Emit σ} {unb : Bool} {inp inp' : Mem} {n : Nat}
    {CP : σ → List Byte → Nat → Prop}
    (hm : ∀ k, k < n + 16 → inp k = inp' k) (s : ES σ) (h : XInv 16 unb inp n CP s) :
    step128 emit unb inp n s = step128 emit unb inp' n s := by
  obtain ⟨pc, i, count, lastRLE, sym, fs, out⟩ := s
  obtain ⟨hcp, hlen, hlast, htop, hntop, hcnt, hdvd, hdvd2⟩ := h
  simp only at *
  cases pc with
  | top => rfl
  | scal => rfl
  | ext =>
    simp only [step128]
    by_cases hc : i + 16 < n
    · rw [if_pos hc, if_pos hc]
      rw [matchLen_congr 16 0 (fun j h1 h2 => hm j (by omega))]
    · rw [if_neg hc, if_neg hc]
  | second =>
    have := hntop (by simp)
    simp only [step128, doEmit]
    split
    · rw [rd_congr (m₁ := inp) (m₂ := inp') (fun j h1 h2 => hm j (by omega))]
    · rfl
  | search =>
    simp only [step128]
    by_cases hc : i + 32 < n
    · rw [if_pos hc, if_pos hc]
      have hpa : pairAt inp 16 i = pairAt inp' 16 i := by
        unfold pairAt
        rw [rd_congr (m₁ := inp) (m₂ := inp') (a := i) (fun j h1 h2 => hm j (by omega)),
          rd_congr (m₁ := inp) (m₂ := inp') (a := i + 16) (fun j h1 h2 => hm j (by omega))]
      rw [rd_congr (m₁ := inp) (m₂ := inp') (a := i) (fun j h1 h2 => hm j (by omega)), hpa,
        highDiff_congr (inp := inp) (inp' := inp') 16 (by omega) (fun j h1 h2 => hm j (by omega)),
        hm (i + 15) (by omega), hm (i + 31) (by omega)]
    · rw [if_neg hc, if_neg hc]
  | sscan =>
    have := hntop (by simp)
    simp only [step128]
    rw [rd_congr (m₁ := inp) (m₂ := inp') (a := i) (fun j h1 h2 => hm j (by omega))]
    by_cases hc : i + 16 ≤ n
    · rw [rd_congr (m₁ := inp) (m₂ := inp') (a := i + 16) (fun j h1 h2 => hm j (by omega))]
    · simp [hc]

theorem run128_scan {σ : Type} (F : Fmt σ) (unb : Bool) : ScanRun [F.emit] 16 unb (fun _ _ => F.init) (run128 F unb) := by
  intro inp n B CP hB hc h0
  have hc := hc _ (List.mem_singleton.mpr rfl)
  obtain ⟨s, h1, h2, h3, h4⟩ := loop_rule (body := step128 F.emit unb inp n) (XInv 16 unb inp n CP)
    (fun s' => XInv 16 unb inp n CP s' ∧ n ≤ s'.i ∧ s'.pc = .top) (muX n)
    (fun s hs => step128_inv hB hc s hs) (6 * n + 6)
    ⟨.top, 0, 0, 0, rd inp 0 16, F.init, []⟩
    ⟨h0, by simp, by simp, by simp, by simp, fun _ => ⟨by simp, by intro k hk; simp at hk⟩, by simp, by simp⟩
    (by simp [muX, PC.rank])
  obtain ⟨hcp, hlen, hlast, htop, hntop, hcnt, hdvd, hdvd2⟩ := h2
  obtain ⟨g1, g2⟩ := hcnt (Or.inl h4)
  exact ⟨s, h1, hcp, hlen, g1, h3, htop h4, g2, Or.inr (hdvd (Or.inl h4))⟩

theorem run128_congr {σ : Type} (F : Fmt σ) (unb : Bool) : ScanCongr 16 (run128 F unb) := by
  intro inp inp' n hm
  have hc : Closed F.emit inp 16 unb (n + 16) (fun _ _ _ => True) := closed_true
  have h0 : XInv 16 unb inp n (fun _ _ _ => True) (⟨.top, 0, 0, 0, rd inp 0 16, F.init, []⟩ : ES σ) :=
    ⟨trivial, by simp, by simp, by simp, by simp, fun _ => ⟨by simp, by intro k hk; simp at hk⟩, by simp, by simp⟩
  unfold run128
  rw [rd_congr (m₁ := inp') (m₂ := inp) (fun j h1 h2 => (hm j (by omega)).symm)]
  refine loop_congr (XInv 16 unb inp n (fun _ _ _ => True)) (b₁ := step128 F.emit unb inp n)
    (b₂ := step128 F.emit unb inp' n) ?_ _ _ h0
  intro s hs
  refine ⟨step128_congr hm s hs, ?_⟩
  intro s' hs'
  have := step128_inv (Nat.le_refl _) hc s hs
  rw [hs'] at this
  exact this.1

/-! ### The codecs -/

/-- Constants and record layout of rle128_{sym,byte}[_packed]
(src/rle128_extreme_cpu.h:1-30, src/rle128_extreme_cpu.c): the macros of the other
multi-byte codecs with symbol size 16. -/
def x128 (unb packed : Bool) : XCfg := ⟨16, unb, packed⟩

/-- The format. A final run is always closed with `0, (uint32_t)0`
(src/rle128_extreme_cpu.h:353-370, 439-456), also when the decoder expects the 7 bit
form of the offset. -/
def fmt128 (unb packed : Bool) : Fmt (List Byte) :=
  { (x128 unb packed).fmt with endRun := (x128 unb packed).endSym ++ 0 :: le32 0 }

/-- Decoder dispatch (src/rle128_extreme_cpu.h:795-800; the AVX-512 decoder copies
with 32 byte vectors, src/rleX_extreme_common.h:312). -/
def decV128 (cpu : Cpu) : DecV :=
  if cpu.avx512f then ⟨32, oneK 64⟩ else if cpu.avx then ⟨32, oneK 32⟩ else ⟨16, oneK 16⟩

/-- rle128_{sym,byte}[_packed] (src/rle128_extreme_cpu.h:32-497, 778-803). -/
def cdc128 (unb packed : Bool) : Cdc (List Byte) where
  F := fmt128 unb packed
  emitEnd := (x128 unb packed).emit
  S := 16
  unb := unb
  run := fun _ => run128I (fmt128 unb packed) unb
  decV := decV128

theorem fmt128_okB (unb packed : Bool) :
    FmtOK (fmt128 unb packed) (fun l => l.length = 16) 16 unb (x128 unb packed).lim where
  init := (x128 unb packed).fmtOKB.init
  emit := (x128 unb packed).fmtOKB.emit
  ends := by
    refine ⟨?_, (x128 unb packed).fmtOKB.ends.endLit⟩
    intro last tail hl
    obtain ⟨sym, h⟩ := (x128 unb packed).hdr_endSym last ((0 :: le32 0) ++ tail)
    simp only [fmt128, XCfg.fmt, List.append_assoc]
    rw [h]
    unfold XCfg.hdrTail
    cases (x128 unb packed).b7
    · left
      simp only [Bool.false_eq_true, if_false, List.cons_append, rdU8_cons, Option.bind_some]
      rw [if_pos (by decide)]
      simp [XCfg.offLong]
    · right; left
      simp only [if_true, List.cons_append, rdU8_cons, Option.bind_some]
      rw [if_neg (by decide), if_pos (by decide)]
      exact ⟨_, rfl, by simp⟩

theorem fmt128_ok (unb packed : Bool) :
    FmtOK (fmt128 unb packed) (fun l => l.length = 16) 16 unb (1073741824 + 16) :=
  (fmt128_okB unb packed).mono (x128 unb packed).le_lim

theorem cdc128_ok (unb packed : Bool) : (cdc128 unb packed).OK (fun l => l.length = 16) where
  pos := by simp [cdc128]
  le := by simp [cdc128]
  fmt := fmt128_ok unb packed
  emitEnd := (x128 unb packed).fmtOK.emit
  hdr := (x128 unb packed).hdrOK
  loc := (x128 unb packed).hdrLocal
  decV := by
    intro cpu
    simp only [cdc128, decV128]
    split
    · simp [oneK_ok, oneK_width]
    · split <;> simp [oneK_ok, oneK_width]
  scan := fun _ => by
    simp only [cdc128]
    rw [run128I_eq]
    exact run128_scan _ _
  congr := fun _ => by
    simp only [cdc128]
    rw [run128I_eq]
    exact run128_congr _ _
  first := fun _ _ => (fmt128_ok unb packed).init
  firstCongr := fun _ _ _ _ => rfl
  start := fun _ _ _ => rfl
  startLoc := Cdc.startId (fmt128_ok unb packed).init
  rel := fun _ => HdrRel.refl _
  locV := fun _ => (x128 unb packed).hdrLocal

theorem cdc128_size (unb packed : Bool) (cpu : Cpu) (inp : Mem) (n : Nat) :
    ∃ b, (cdc128 unb packed).body cpu inp n = some b ∧ b.length ≤ n + 42 := by
  have hE := (x128 unb packed).emitSize (by simp [x128])
  have hl := (x128 unb packed).end_length
  obtain ⟨b, h1, h2⟩ := (cdc128_ok unb packed).size cpu 0 26
    (List.forall_mem_cons.mpr ⟨hE, fun _ h => nomatch h⟩) hE
    (by simp only [cdc128, fmt128, XCfg.endSym, x128]; cases packed <;> simp)
    (fun k => by have := hl.2 k; simpa [x128, cdc128, fmt128, XCfg.fmt] using this)
    (by simp [cdc128]) inp n
  exact ⟨b, h1, by simpa [cdc128, Nat.add_assoc] using h2⟩

end Hrk
