import Verif.Changes
import Verif.Rle128
import Verif.Greedy

/-
How much the 128 bit scanner and the greedy scanner write, in terms of how often the input changes.
-/

namespace Hrk

section
variable (S : Nat) (inp : Mem) (n A B D : Nat)

/-- What may have been spent up to `a`, with a larger share for the end of the input. -/
def potG (a : Nat) : Nat := A * cn (chg S inp n) a + B * cn (lone S inp n) a + D * (a - (n - 2 * S))

end

section
variable {S : Nat} {inp : Mem} {n A B D : Nat}

theorem potG_mono {a b : Nat} (h : a ≤ b) : potG S inp n A B D a ≤ potG S inp n A B D b := by
  unfold potG
  have h1 := Nat.mul_le_mul_left A (cn_mono (chg S inp n) h)
  have h2 := Nat.mul_le_mul_left B (cn_mono (lone S inp n) h)
  have h3 := Nat.mul_le_mul_left D (show a - (n - 2 * S) ≤ b - (n - 2 * S) by omega)
  omega

theorem potG_chg {a b j : Nat} (h1 : a ≤ j) (h2 : j < b) (h : chg S inp n j = true) :
    potG S inp n A B D a + A ≤ potG S inp n A B D b := by
  unfold potG
  have g1 := Nat.mul_le_mul_left A (cn_lt (chg S inp n) h1 h2 h)
  have g2 := Nat.mul_le_mul_left B (cn_mono (lone S inp n) (show a ≤ b by omega))
  have g3 := Nat.mul_le_mul_left D (show a - (n - 2 * S) ≤ b - (n - 2 * S) by omega)
  rw [Nat.mul_succ] at g1
  omega

theorem potG_end {a b : Nat} (h1 : a < b) (h2 : n < b + 2 * S) : potG S inp n A B D a + D ≤ potG S inp n A B D b := by
  unfold potG
  have g1 := Nat.mul_le_mul_left A (cn_mono (chg S inp n) (show a ≤ b by omega))
  have g2 := Nat.mul_le_mul_left B (cn_mono (lone S inp n) (show a ≤ b by omega))
  have g3 := Nat.mul_le_mul_left D (show a - (n - 2 * S) + 1 ≤ b - (n - 2 * S) by omega)
  rw [Nat.mul_succ] at g3
  omega

theorem potG_lone {a b : Nat} (h1 : a < b) (h : ¬ (a + S ≤ n ∧ rd inp (a + S) S = rd inp a S)) (hB : D ≤ B) :
    potG S inp n A B D a + D ≤ potG S inp n A B D b := by
  by_cases hi : a + 2 * S ≤ n
  · have : lone S inp n a = true := by
      simp only [lone, Bool.and_eq_true, decide_eq_true_eq, Bool.not_eq_true']
      refine ⟨hi, ?_⟩
      cases hp : pairAt inp S a with
      | false => rfl
      | true =>
        simp only [pairAt, beq_iff_eq] at hp
        exact absurd ⟨by omega, hp.symm⟩ h
    unfold potG
    have g1 := Nat.mul_le_mul_left A (cn_mono (chg S inp n) (show a ≤ b by omega))
    have g2 := Nat.mul_le_mul_left B (cn_lt (lone S inp n) (Nat.le_refl a) h1 this)
    have g3 := Nat.mul_le_mul_left D (show a - (n - 2 * S) ≤ b - (n - 2 * S) by omega)
    rw [Nat.mul_succ] at g2
    omega
  · exact potG_end h1 (by omega)

/-- The potential of a position that is at most `S` behind the end. -/
theorem potG_total {a : Nat} (h : a ≤ n + S) : potG S inp n A B D a ≤ (A + B * S) * changes S inp n + D * (3 * S) := by
  unfold potG
  have hN := Nat.mul_le_mul_left A (cn_none (chg S inp n) (n := n) (fun k hk => by
      cases h : chg S inp n k with
      | false => rfl
      | true => have := (chg_iff.mp h).1; omega) a)
  rw [chg_total] at hN
  have hM := Nat.mul_le_mul_left B (lone_total (S := S) (inp := inp) (n := n) a)
  have g3 := Nat.mul_le_mul_left D (show a - (n - 2 * S) ≤ 3 * S by omega)
  rw [Nat.add_mul, Nat.mul_assoc]
  omega

/-- The end of a run of whole symbols is a change. -/
theorem chg_matchStop {sym : List Byte} {i count : Nat} (hlen : sym.length = S) (hr : RunAt inp sym i count) (hd : S ∣ count)
    (hc : count ≠ 0) (hi : count ≤ i) (hS : 0 < S) (hn : i + S ≤ n) (hf : matchLen inp sym i S 0 < S) :
    chg S inp n (i + matchLen inp sym i S 0 - S) = true := by
  have hst := matchLen_stop inp sym i S 0 hf
  generalize matchLen inp sym i S 0 = off at *
  have hcS : S ≤ count := Nat.le_of_dvd (by omega) hd
  refine chg_iff.mpr ⟨by omega, ?_⟩
  rw [Nat.zero_add, hlen, Nat.mod_eq_of_lt (by omega)] at hst
  have := hr (count - S + off) (by omega)
  rw [hlen] at this
  have hmod : (count - S + off) % S = off := by
    obtain ⟨c, rfl⟩ := hd
    obtain ⟨c', rfl⟩ : ∃ c', c = c' + 1 := ⟨c - 1, by cases c <;> simp at hc ⊢⟩
    rw [show S * (c' + 1) - S + off = off + S * c' by rw [Nat.mul_succ]; omega, Nat.add_mul_mod_self_left,
      Nat.mod_eq_of_lt (by omega)]
  rw [hmod] at this
  rw [show i + off - S = i - count + (count - S + off) by omega, this,
    show i - count + (count - S + off) + S = i + off by omega]
  exact fun he => hst he.symm

/-- What the closing block adds. -/
theorem finish_changes {σ : Type} {emitEnd : Emit σ} {endRun : List Byte} {endLit : Nat → List Byte} {P : σ → Prop} {E M : Nat}
    (he' : EmitCost emitEnd P S D) (h1 : endRun.length ≤ E) (h2 : ∀ k, (endLit k).length ≤ E) (s : ES σ) (hP : P s.fs)
    (hlen : s.sym.length = S) (hlast : s.lastRLE + s.count ≤ s.i) (h : s.out.length + (s.i - s.count - s.lastRLE) ≤ M) :
    (finish emitEnd endRun endLit inp s).length ≤ M + D + E := by
  unfold finish
  split
  · next bytes fs' hs =>
    have := (he'.some _ _ _ _ _ _ hP hlen hs).1
    simp only [List.length_append, rd_length]
    omega
  · next hs =>
    have := he'.none _ _ _ _ hP hs
    have := h2 (s.i - s.lastRLE)
    simp only [List.length_append, rd_length]
    omega

/-- What an emission adds. -/
theorem doEmit_cost {σ : Type} {emit : Emit σ} {P : σ → Prop} (he : EmitCost emit P S D) (s : ES σ) (hP : P s.fs)
    (hlen : s.sym.length = S) (hlast : s.lastRLE + s.count ≤ s.i) {M : Nat}
    (h : s.out.length + (s.i - s.count - s.lastRLE) + (if s.count = 0 then 0 else D) ≤ M) :
    (doEmit emit inp s).out.length + (s.i - (doEmit emit inp s).lastRLE) ≤ M := by
  unfold doEmit
  split
  · next bytes fs' hs =>
    have hc : s.count ≠ 0 := by
      intro hc
      rw [hc, he.zero] at hs
      cases hs
    rw [if_neg hc] at h
    have := (he.some _ _ _ _ _ _ hP hlen hs).1
    simp only [List.length_append, rd_length, Nat.sub_self]
    omega
  · next hs =>
    have := he.none _ _ _ _ hP hs
    split at h <;> omega

/-! ### The 128 bit scanner -/

/-- What the 128 bit scanner has spent. -/
structure CInv128 {σ : Type} (inp : Mem) (n D : Nat) (s : ES σ) : Prop where
  run : s.pc = .top ∨ s.pc = .ext →
    s.out.length + (s.i - s.count - s.lastRLE) ≤ potG 16 inp n (D + 16) 0 D (s.i - s.count) ∧
      (s.count = 0 → n ≤ s.i + 32 ∨ (s.i = 0 ∧ s.sym = rd inp 0 16))
  second : s.pc = .second →
    s.out.length + (s.i - s.count - s.lastRLE) + (if s.count = 0 then 0 else D) ≤ potG 16 inp n (D + 16) 0 D s.i
  free : s.pc = .search ∨ s.pc = .sscan → s.out.length + (s.i - s.lastRLE) ≤ potG 16 inp n (D + 16) 0 D s.i
  tail : s.pc = .sscan → n ≤ s.i + 32
  pcs : s.pc ≠ .scal

theorem highDiff_chg (i : Nat) (hn : i + 32 < n) : ∀ k, k ≤ 16 → highDiff inp i k ≠ 0 → chg 16 inp n (i + highDiff inp i k - 1) = true := by
  intro k
  induction k with
  | zero => intro _ h; simp [highDiff] at h
  | succ k ih =>
    intro hk h
    unfold highDiff at h ⊢
    by_cases hd : inp (i + k) ≠ inp (i + 16 + k)
    · rw [if_pos hd]
      refine chg_iff.mpr ⟨by omega, ?_⟩
      rw [show i + (k + 1) - 1 = i + k by omega, show i + k + 16 = i + 16 + k by omega]
      exact hd
    · rw [if_neg hd] at h ⊢
      exact ih (by omega) h

theorem highDiff_of_ne (i : Nat) (h : pairAt inp 16 i = false) : highDiff inp i 16 ≠ 0 := by
  intro hz
  have := highDiff_zero inp i 16 hz
  have hp : pairAt inp 16 i = true := by
    simp only [pairAt, beq_iff_eq]
    refine List.ext_getElem (by simp) fun k hk hk' => ?_
    have hk'' : k < 16 := by simpa using hk
    simp only [rd, List.getElem_map, List.getElem_range]
    exact this k hk''
  rw [hp] at h
  cases h

theorem step128_changes {σ : Type} {emit : Emit σ} {unb : Bool} (hD : 1 ≤ D) {P : σ → Prop} (he : EmitCost emit P 16 D)
    (s : ES σ) (hx : XInv 16 unb inp n (fun fs _ _ => P fs) s) (h : CInv128 inp n D s) :
    Post (step128 emit unb inp n s) (fun s' => CInv128 inp n D s') (fun s' => CInv128 inp n D s') := by
  obtain ⟨pc, i, count, lastRLE, sym, fs, out⟩ := s
  obtain ⟨hP, hlen, hlast, htop, hntop, hcnt, hdvd, hdvd2⟩ := hx
  obtain ⟨hrun, hsec, hfree, htail, hpcs⟩ := h
  simp only at *
  cases pc with
  | scal => exact absurd rfl hpcs
  | top =>
    simp only [step128]
    split
    · exact ⟨fun _ => hrun (.inl rfl), by simp, by simp, by simp, by simp⟩
    · exact ⟨fun _ => hrun (.inl rfl), by simp, by simp, by simp, by simp⟩
  | ext =>
    obtain ⟨h1, h2⟩ := hcnt (by simp)
    have h3 := hdvd (by simp)
    have h4 := hntop (by simp)
    obtain ⟨g1, g2⟩ := hrun (by simp)
    have hm := matchLen_le inp sym i 16 0
    simp only [step128]
    by_cases hi : i + 16 < n
    · rw [if_pos hi]
      split
      · next hf =>
        refine ⟨fun _ => ?_, by simp, by simp, by simp, by simp⟩
        simp only
        rw [show i + 16 - (count + 16) = i - count by omega]
        exact ⟨g1, fun h => by omega⟩
      · next hf =>
        by_cases hc : count = 0
        · have htl : n ≤ i + 32 := by
            rcases g2 hc with h | ⟨hz, hs⟩
            · exact h
            · exfalso
              subst hz
              apply hf
              rw [hs]
              exact matchLen_all 16 0 fun j hj => by
                rw [rd_length, Nat.zero_add, Nat.zero_add, Nat.mod_eq_of_lt hj, rd_getD _ _ _ _ _ hj, Nat.zero_add]
          subst hc
          split
          · refine ⟨by simp, fun _ => ?_, by simp, by simp, by simp⟩
            simp only [Nat.zero_add]
            split
            · next hz => rw [hz]; simpa using g1
            · next hz =>
              have := potG_end (S := 16) (inp := inp) (n := n) (A := D + 16) (B := 0) (D := D) (a := i)
                (b := i + matchLen inp sym i 16 0) (by omega) (by omega)
              rw [Nat.sub_zero] at g1
              rw [show i + matchLen inp sym i 16 0 - matchLen inp sym i 16 0 = i by omega]
              omega
          · exact ⟨by simp, fun _ => by simpa using g1, by simp, by simp, by simp⟩
        · have hch := chg_matchStop (n := n) hlen h2 h3 hc (by omega) (by omega) (by omega) (by omega)
          have hcS : 16 ≤ count := Nat.le_of_dvd (by omega) h3
          generalize matchLen inp sym i 16 0 = off at *
          split
          · refine ⟨by simp, fun _ => ?_, by simp, by simp, by simp⟩
            simp only
            rw [show i + off - (count + off) = i - count by omega, if_neg (by omega)]
            have := potG_chg (A := D + 16) (B := 0) (D := D) (a := i - count) (b := i + off) (by omega) (by omega) hch
            omega
          · refine ⟨by simp, fun _ => ?_, by simp, by simp, by simp⟩
            simp only
            rw [if_neg hc]
            have := potG_chg (A := D + 16) (B := 0) (D := D) (a := i - count) (b := i) (by omega) (by omega) hch
            omega
    · rw [if_neg hi]
      refine ⟨by simp, fun _ => ?_, by simp, by simp, by simp⟩
      simp only
      split
      · next hc => rw [hc] at g1 ⊢; simpa using g1
      · next hc =>
        have := potG_end (S := 16) (inp := inp) (n := n) (A := D + 16) (B := 0) (D := D) (a := i - count) (b := i)
          (by omega) (by omega)
        omega
  | second =>
    obtain ⟨h1, h2⟩ := hcnt (by simp)
    have := doEmit_cost (inp := inp) he ⟨.second, i, count, lastRLE, sym, fs, out⟩ hP hlen h1 (hsec rfl)
    simp only [step128]
    refine ⟨by simp, by simp, fun _ => ?_, by simp, by simp⟩
    have hi := doEmit_i (emit := emit) (inp := inp) (⟨.second, i, count, lastRLE, sym, fs, out⟩ : ES σ)
    simp only at hi this ⊢
    rw [hi]
    exact this
  | search =>
    have g := hfree (by simp)
    simp only [step128]
    split
    · next hi =>
      split
      · refine ⟨fun _ => ?_, by simp, by simp, by simp, by simp⟩
        simp only
        rw [show i + 32 - 32 = i by omega]
        exact ⟨g, by simp⟩
      · next hp =>
        split
        · next hd =>
          refine ⟨by simp, by simp, fun _ => ?_, by simp, by simp⟩
          have hch : chg 16 inp n (i + 15) = true := chg_iff.mpr ⟨by omega, by
            rw [show i + 15 + 16 = i + 31 by omega]; exact hd⟩
          have := potG_chg (A := D + 16) (B := 0) (D := D) (a := i) (b := i + 16) (by omega) (by omega) hch
          simp only
          omega
        · refine ⟨by simp, by simp, fun _ => ?_, by simp, by simp⟩
          have hz := highDiff_of_ne (inp := inp) i (by simpa using hp)
          have hch := highDiff_chg (inp := inp) (n := n) i hi 16 (by omega) hz
          have hle := highDiff_le inp i 16
          have := potG_chg (A := D + 16) (B := 0) (D := D) (a := i) (b := i + highDiff inp i 16) (by omega) (by omega) hch
          simp only
          omega
    · next hi => exact ⟨by simp, by simp, fun _ => g, fun _ => by simp; omega, by simp⟩
  | sscan =>
    have g := hfree (by simp)
    have ht := htail rfl
    simp only [step128]
    split
    · refine ⟨fun _ => ?_, by simp, by simp, by simp, by simp⟩
      simp only
      rw [show i + 32 - 32 = i by omega]
      exact ⟨g, by simp⟩
    · refine ⟨fun _ => ?_, by simp, by simp, by simp, by simp⟩
      have := potG_end (S := 16) (inp := inp) (n := n) (A := D + 16) (B := 0) (D := D) (a := i) (b := i + 1) (by omega) (by omega)
      simp only [Nat.sub_zero]
      exact ⟨by omega, fun _ => .inl (by omega)⟩

/-- The 128 bit encoders write at most `D + 16` bytes for every change and a constant. -/
theorem finish128_changes {σ : Type} (F : Fmt σ) (emitEnd : Emit σ) {E : Nat} {unb : Bool} (hD : 1 ≤ D)
    {P : σ → Prop} (hI : P F.init) (he : EmitCost F.emit P 16 D) (he' : EmitCost emitEnd P 16 D)
    (h1 : F.endRun.length ≤ E) (h2 : ∀ k, (F.endLit k).length ≤ E) (s : ES σ) (hs : run128 F unb inp n = some s) :
    (finish emitEnd F.endRun F.endLit inp s).length ≤ (D + 16) * changes 16 inp n + D * 49 + E := by
  unfold run128 at hs
  have key : (XInv 16 unb inp n (fun fs _ _ => P fs) s ∧ CInv128 inp n D s) ∧ s.pc = .top := by
    refine loop_rule_partial (body := step128 F.emit unb inp n)
      (fun s => XInv 16 unb inp n (fun fs _ _ => P fs) s ∧ CInv128 inp n D s)
      (fun s => (XInv 16 unb inp n (fun fs _ _ => P fs) s ∧ CInv128 inp n D s) ∧ s.pc = .top) ?_ _ _ _ ?_ hs
    · rintro s ⟨hx, hc⟩
      have g1 := step128_inv (Nat.le_refl (n + 16)) he.closed s hx
      have g2 := step128_changes hD he s hx hc
      cases hb : step128 F.emit unb inp n s with
      | inl s' => rw [hb] at g1 g2; exact ⟨g1.1, g2⟩
      | inr s' => rw [hb] at g1 g2; exact ⟨⟨g1.1, g2⟩, g1.2.2⟩
    · refine ⟨⟨hI, by simp, by simp, by simp, by simp, fun _ => ⟨by simp, by intro k hk; simp at hk⟩, by simp, by simp⟩,
        fun _ => ⟨by simp, fun _ => .inr ⟨rfl, rfl⟩⟩, by simp, by simp, by simp, by simp⟩
  obtain ⟨⟨hx, hc⟩, hp⟩ := key
  obtain ⟨g1, g2⟩ := hc.run (.inl hp)
  obtain ⟨g3, g4⟩ := hx.cnt (.inl hp)
  have g5 := hx.top hp
  have hT := potG_total (S := 16) (inp := inp) (n := n) (A := D + 16) (B := 0) (D := D) (a := s.i - s.count) (by omega)
  have := finish_changes (inp := inp) he' h1 h2 s hx.cp hx.len g3 (Nat.le_trans g1 hT)
  simp only [Nat.zero_mul, Nat.add_zero] at this
  omega

/-! ### The greedy scanner -/

/-- What the greedy scanner has spent. -/
structure CInvG (S : Nat) (inp : Mem) (n D : Nat) (s : ES Lut) : Prop where
  run : s.pc = .top →
    s.out.length + (s.i - s.count - s.lastRLE) ≤ potG S inp n D D D (s.i - s.count) ∧
      (s.count ≠ 0 → 2 * S ≤ s.count ∨ potG S inp n D D D (s.i - s.count) + D ≤ potG S inp n D D D s.i)
  second : s.pc = .second →
    s.out.length + (s.i - s.count - s.lastRLE) + (if s.count = 0 then 0 else D) ≤ potG S inp n D D D s.i
  free : s.pc = .sscan → s.out.length + (s.i - s.lastRLE) ≤ potG S inp n D D D s.i

theorem stepG_changes {emit : Emit Lut} {N : Nat} (hS : 2 ≤ S) (hD : 1 ≤ D) {P : Lut → Prop} (he : EmitCost emit P S D)
    (s : ES Lut) (hx : GInv N S inp n (fun fs _ _ => P fs) s) (h : CInvG S inp n D s) :
    Post (stepG emit S inp n s) (fun s' => CInvG S inp n D s') (fun s' => CInvG S inp n D s') := by
  obtain ⟨pc, i, count, lastRLE, sym, fs, out⟩ := s
  obtain ⟨hP, hlut, hlen, hlast, hpcs, htop, hntop, hcnt, hdvd⟩ := hx
  obtain ⟨hrun, hsec, hfree⟩ := h
  simp only at *
  rcases hpcs with rfl | rfl | rfl
  · obtain ⟨h1, h2⟩ := hcnt (by simp)
    have h3 := hdvd rfl
    obtain ⟨g1, g2⟩ := hrun rfl
    simp only [stepG]
    by_cases hi : i < n
    · rw [if_pos hi]
      by_cases hc2 : count ≠ 0 ∧ i + S ≤ n
      · rw [if_pos hc2]
        have hm := matchLen_le inp sym i S 0
        have hcS : S ≤ count := Nat.le_of_dvd (by omega) h3
        by_cases hq : rd inp i S = sym
        · rw [if_pos hq]
          refine ⟨fun _ => ?_, by simp, by simp⟩
          simp only
          rw [show i + S - (count + S) = i - count by omega]
          exact ⟨g1, fun _ => .inl (by omega)⟩
        · rw [if_neg hq]
          refine ⟨by simp, fun _ => ?_, by simp⟩
          simp only
          rw [if_neg (by omega)]
          have hf : matchLen inp sym i S 0 < S := by
            refine Classical.byContradiction fun hf => hq ?_
            refine List.ext_getElem (by simp [hlen]) fun k hk hk' => ?_
            have hk'' : k < S := by simpa using hk
            have := matchLen_spec inp sym i S 0 k (by omega)
            rw [Nat.zero_add, hlen, Nat.mod_eq_of_lt hk''] at this
            simp only [rd, List.getElem_map, List.getElem_range]
            rw [this]
            simp [List.getD, hk']
          have hch := chg_matchStop (n := n) hlen h2 h3 hc2.1 (by omega) (by omega) hc2.2 hf
          generalize matchLen inp sym i S 0 = off at *
          rw [show i + off - (count + off) = i - count by omega]
          have := potG_chg (A := D) (B := D) (D := D) (a := i - count) (b := i + off) (by omega) (by omega) hch
          omega
      · rw [if_neg hc2]
        refine ⟨by simp, fun _ => ?_, by simp⟩
        simp only
        split
        · next hc => rw [hc] at g1 ⊢; simpa using g1
        · next hc =>
          have := potG_end (S := S) (inp := inp) (n := n) (A := D) (B := D) (D := D) (a := i - count) (b := i)
            (by omega) (by omega)
          omega
    · rw [if_neg hi]
      exact ⟨hrun, by simp, by simp⟩
  · obtain ⟨h1, h2⟩ := hcnt (by simp)
    have := doEmit_cost (inp := inp) he ⟨.second, i, count, lastRLE, sym, fs, out⟩ hP hlen h1 (hsec rfl)
    simp only [stepG]
    refine ⟨by simp, by simp, fun _ => ?_⟩
    have hi := doEmit_i (emit := emit) (inp := inp) (⟨.second, i, count, lastRLE, sym, fs, out⟩ : ES Lut)
    simp only at hi this ⊢
    rw [hi]
    exact this
  · have g := hfree rfl
    simp only [stepG]
    by_cases hp : i + S ≤ n ∧ rd inp (i + S) S = rd inp i S
    · rw [if_pos hp]
      refine ⟨fun _ => ?_, by simp, by simp⟩
      simp only
      rw [show i + 2 * S - 2 * S = i by omega]
      exact ⟨g, fun _ => .inl (Nat.le_refl _)⟩
    · rw [if_neg hp]
      by_cases hb : i + S ≤ n ∧ 2 ≤ (bestMatch S (rd inp i S) fs 0 (0, 0)).2
      · rw [if_pos hb]
        generalize bestMatch S (rd inp i S) fs 0 (0, 0) = jk at *
        obtain ⟨j, k⟩ := jk
        simp only at *
        have hl := potG_lone (A := D) (D := D) (B := D) (a := i) (b := i + k) (by omega) hp (Nat.le_refl _)
        by_cases hk : k < S
        · rw [if_pos hk]
          refine ⟨by simp, fun _ => ?_, by simp⟩
          simp only
          rw [if_neg (by omega), show i + k - k = i by omega]
          omega
        · rw [if_neg hk]
          refine ⟨fun _ => ?_, by simp, by simp⟩
          simp only
          rw [show i + k - k = i by omega]
          exact ⟨g, fun _ => .inr hl⟩
      · rw [if_neg hb]
        refine ⟨fun _ => ?_, by simp, by simp⟩
        have hl := potG_lone (A := D) (D := D) (B := D) (a := i) (b := i + 1) (by omega) hp (Nat.le_refl _)
        simp only [Nat.sub_zero]
        exact ⟨by omega, fun h => absurd rfl h⟩

/-- The greedy encoders write at most `D * (S + 1)` bytes for every change and a constant. -/
theorem finishG_changes (F : Fmt Lut) (emitEnd : Emit Lut) {N E : Nat} (hS : 2 ≤ S) (hD : 1 ≤ D)
    (hI : Lut.ok N S F.init) (he : EmitCost F.emit (Lut.ok N S) S D) (he' : EmitCost emitEnd (Lut.ok N S) S D)
    (h1 : F.endRun.length ≤ E) (h2 : ∀ k, (F.endLit k).length ≤ E) (s : ES Lut) (f : Nat)
    (hs : loop (stepG F.emit S inp n) f ⟨.top, 0, 0, 0, (rd inp 0 S).map (fun b => ~~~ b), F.init, []⟩ = some s) :
    (finish emitEnd F.endRun F.endLit inp s).length ≤ (D + D * S) * changes S inp n + D * (3 * S + 1) + E := by
  have key : (GInv N S inp n (fun fs _ _ => Lut.ok N S fs) s ∧ CInvG S inp n D s) ∧ s.pc = .top := by
    refine loop_rule_partial (body := stepG F.emit S inp n)
      (fun s => GInv N S inp n (fun fs _ _ => Lut.ok N S fs) s ∧ CInvG S inp n D s)
      (fun s => (GInv N S inp n (fun fs _ _ => Lut.ok N S fs) s ∧ CInvG S inp n D s) ∧ s.pc = .top) ?_ _ _ _ ?_ hs
    · rintro s ⟨hx, hc⟩
      have g1 := stepG_inv hS rfl (Nat.le_refl (n + S)) (he.closed (unb := true))
        (fun lut sym cnt lits bytes lut' hl hs hE => (he.some _ _ _ _ _ _ hl hs hE).2) s hx
      have g2 := stepG_changes hS hD he s hx hc
      cases hb : stepG F.emit S inp n s with
      | inl s' => rw [hb] at g1 g2; exact ⟨g1.1, g2⟩
      | inr s' => rw [hb] at g1 g2; exact ⟨⟨g1.1, g2⟩, g1.2.2⟩
    · exact ⟨gInv_start hI hI, fun _ => ⟨by simp, fun h => absurd rfl h⟩, by simp, by simp⟩
  obtain ⟨⟨hx, hc⟩, hp⟩ := key
  obtain ⟨g1, g2⟩ := hc.run hp
  obtain ⟨g3, g4⟩ := hx.cnt (.inl hp)
  have g5 := hx.top
  have hT := potG_total (S := S) (inp := inp) (n := n) (A := D) (B := D) (D := D) (a := s.i - s.count) (by omega)
  have := finish_changes (inp := inp) he' h1 h2 s hx.cp hx.len g3 (Nat.le_trans g1 hT)
  rw [Nat.mul_succ]
  omega

end

end Hrk
