import Verif.PropsChanges
import Verif.PropsSingleFits

/-
How much the single symbol scanners write, in terms of the number of bytes that are not the symbol.
-/

namespace Hrk

section
variable (b : Byte) (inp : Mem) (n : Nat)

/-- Is the byte at `j` another one than `b`? -/
def dif (j : Nat) : Bool := decide (j < n ∧ inp j ≠ b)

/-- The number of bytes of the input that are not `b`. -/
def others : Nat := (List.range n).countP fun j => inp j != b

/-- What may have been spent up to `a`: 2 for each other byte in front of it, `D` for each up to it. -/
def potS (D a : Nat) : Nat := 2 * cn (dif b inp n) a + D * cn (dif b inp n) (a + 1)

end

section
variable {b : Byte} {inp : Mem} {n D : Nat}

theorem dif_iff {j : Nat} : dif b inp n j = true ↔ j < n ∧ inp j ≠ b := by simp [dif]

theorem dif_total : cn (dif b inp n) n = others b inp n := by
  unfold others cn
  apply List.countP_congr
  intro j hj
  have := List.mem_range.mp hj
  simp only [dif, decide_eq_true_eq, bne_iff_ne]
  exact ⟨fun h => h.2, fun h => ⟨this, h⟩⟩

theorem dif_le (x : Nat) : cn (dif b inp n) x ≤ others b inp n := by
  rw [← dif_total]
  refine cn_none _ (fun k hk => ?_) x
  cases h : dif b inp n k with
  | false => rfl
  | true => have := (dif_iff.mp h).1; omega

theorem others_le : others b inp n ≤ n := by
  unfold others
  have := List.countP_le_length (p := fun j => inp j != b) (l := List.range n)
  simpa using this

theorem potS_mono {a c : Nat} (h : a ≤ c) : potS b inp n D a ≤ potS b inp n D c := by
  unfold potS
  have h1 := cn_mono (dif b inp n) h
  have h2 := Nat.mul_le_mul_left D (cn_mono (dif b inp n) (show a + 1 ≤ c + 1 by omega))
  omega

theorem potS_le (x : Nat) : potS b inp n D x ≤ (D + 2) * others b inp n := by
  unfold potS
  have h1 := dif_le (b := b) (inp := inp) (n := n) x
  have h2 := Nat.mul_le_mul_left D (dif_le (b := b) (inp := inp) (n := n) (x + 1))
  rw [Nat.add_mul]
  omega

/-- Literals are paid for if every second of them is another byte. -/
theorem potS_lits {a c : Nat} (h : a ≤ c) (h2 : c - a ≤ 2 * (cn (dif b inp n) c - cn (dif b inp n) a)) :
    potS b inp n D a + (c - a) ≤ potS b inp n D c := by
  unfold potS
  have h1 := cn_mono (dif b inp n) h
  have h3 := Nat.mul_le_mul_left D (cn_mono (dif b inp n) (show a + 1 ≤ c + 1 by omega))
  omega

/-- A run is paid for by the byte that ends it. -/
theorem potS_run {a i : Nat} (h : a < i) (hi : dif b inp n i = true) : potS b inp n D a + D ≤ potS b inp n D i := by
  unfold potS
  have h1 := cn_mono (dif b inp n) (show a ≤ i by omega)
  have h2 := Nat.mul_le_mul_left D (cn_lt (dif b inp n) (show a + 1 ≤ i by omega) (Nat.lt_succ_self i) hi)
  rw [Nat.mul_add] at h2
  simp only [Nat.succ_eq_add_one] at h2
  omega

theorem cn_dif_all {i : Nat} : ∀ k, i + k ≤ n → (∀ j, j < k → inp (i + j) ≠ b) →
    cn (dif b inp n) (i + k) = cn (dif b inp n) i + k := by
  intro k
  induction k with
  | zero => intro _ _; rfl
  | succ k ih =>
    intro hn hj
    rw [← Nat.add_assoc, cn_succ, ih (by omega) fun j h => hj j (by omega),
      if_pos (dif_iff.mpr ⟨by omega, hj k (by omega)⟩)]
    omega

theorem cn_dif_cntEq {sym : List Byte} (hs : sym = [b]) {i : Nat} : ∀ k, i + k ≤ n →
    cn (dif b inp n) (i + k) + cntEq inp sym i k = cn (dif b inp n) i + k := by
  intro k
  induction k with
  | zero => intro _; simp [cntEq]
  | succ k ih =>
    intro hn
    have := ih (by omega)
    rw [← Nat.add_assoc, cn_succ]
    unfold cntEq at *
    rw [List.range_succ, List.countP_append, List.countP_singleton]
    subst hs
    by_cases he : inp (i + k) = b
    · rw [if_neg (by rw [dif_iff]; exact fun h => h.2 he), if_pos (by simpa using he)]; omega
    · rw [if_pos (dif_iff.mpr ⟨by omega, he⟩), if_neg (by simpa using he)]; omega

/-- What an emission rule may cost when there is only the symbol `b`. -/
structure EmitCost1 {σ : Type} (emit : Emit σ) (fs0 : σ) (b : Byte) (D : Nat) : Prop where
  zero : ∀ lits, emit fs0 [b] 0 lits = none
  none : ∀ cnt lits, emit fs0 [b] cnt lits = none → cnt ≤ D
  some : ∀ cnt lits bytes fs', emit fs0 [b] cnt lits = some (bytes, fs') → bytes.length ≤ D ∧ fs' = fs0

/-- What the single symbol scanner has spent. -/
structure SInv {σ : Type} (fs0 : σ) (b : Byte) (inp : Mem) (n D : Nat) (s : ES σ) : Prop where
  fs : s.fs = fs0
  sym : s.sym = [b]
  run : s.pc = .top ∨ s.pc = .ext ∨ s.pc = .scal →
    s.out.length + (s.i - s.count - s.lastRLE) ≤ potS b inp n D (s.i - s.count) + if s.i + 16 < n then 0 else 1
  second : s.pc = .second → inp s.i ≠ b ∧ s.out.length + (s.i - s.count - s.lastRLE) ≤ potS b inp n D (s.i - s.count)
  search : s.pc = .search → s.out.length + (s.i - s.lastRLE) ≤ potS b inp n D s.i

theorem doEmit_single {σ : Type} {emit : Emit σ} {fs0 : σ} (he : EmitCost1 emit fs0 b D) (s : ES σ) (hfs : s.fs = fs0)
    (hsym : s.sym = [b]) (hlast : s.lastRLE + s.count ≤ s.i) {M : Nat}
    (h : s.out.length + (s.i - s.count - s.lastRLE) + (if s.count = 0 then 0 else D) ≤ M) :
    (doEmit emit inp s).out.length + (s.i - (doEmit emit inp s).lastRLE) ≤ M ∧ (doEmit emit inp s).fs = fs0 ∧
      (doEmit emit inp s).sym = [b] := by
  unfold doEmit
  rw [hfs, hsym]
  split
  · next bytes fs' hs =>
    have hc : s.count ≠ 0 := by
      intro hc
      rw [hc, he.zero] at hs
      cases hs
    rw [if_neg hc] at h
    obtain ⟨h1, h2⟩ := he.some _ _ _ _ hs
    refine ⟨?_, h2, rfl⟩
    simp only [List.length_append, rd_length, Nat.sub_self]
    omega
  · next hs =>
    have := he.none _ _ hs
    refine ⟨?_, hfs, hsym⟩
    split at h <;> omega

/-- All steps but the end of a run in the vector loop. -/
theorem stepS8_single {σ : Type} {emit : Emit σ} {minR : Nat} (hm : minR ≤ 9) (hD : 1 ≤ D) {fs0 : σ} (he : EmitCost1 emit fs0 b D)
    {CP : σ → List Byte → Nat → Prop}
    (s : ES σ) (hx : Inv8 16 inp n CP s ∧ s.pc ≠ .sscan ∧ (s.pc = .search → s.count = 0)) (h : SInv fs0 b inp n D s) :
    Post (stepS8 emit minR inp n s) (fun s' => SInv fs0 b inp n D s') (fun s' => SInv fs0 b inp n D s') := by
  obtain ⟨pc, i, count, lastRLE, sym, fs, out⟩ := s
  obtain ⟨⟨_, hlen, hlast, hhi, hext, hlt, hcnt⟩, hns, hz0⟩ := hx
  obtain ⟨hfs, hsym, hrun, hsec, hfree⟩ := h
  simp only at *
  cases pc with
  | top =>
    have g := hrun (.inl rfl)
    simp only [stepS8]
    split
    · exact ⟨hfs, hsym, fun _ => g, by simp, by simp⟩
    · exact ⟨hfs, hsym, fun _ => g, by simp, by simp⟩
  | ext =>
    obtain ⟨h1, h2⟩ := hcnt (by simp) (by simp)
    have hi := hext rfl
    have g := hrun (by simp)
    rw [if_pos hi] at g
    have hml := matchLen_le inp sym i 16 0
    simp only [stepS8]
    split
    · refine ⟨hfs, hsym, fun _ => ?_, by simp, by simp⟩
      simp only
      rw [show i + 15 + 1 - (count + 16) = i - count by omega]
      split <;> omega
    · next hf =>
      have hst := matchLen_stop inp sym i 16 0 (by omega)
      rw [hlen, Nat.mod_one, Nat.zero_add, hsym] at hst
      rw [hsym] at *
      split
      · refine ⟨hfs, rfl, by simp, fun _ => ?_, by simp⟩
        simp only
        refine ⟨by simpa using hst, ?_⟩
        rw [show i + matchLen inp [b] i 16 0 - (count + matchLen inp [b] i 16 0) = i - count by omega]
        omega
      · next ha =>
        have hz : inp i ≠ b := by
          intro hz
          refine ha (.inl (List.any_eq_true.mpr ⟨0, List.mem_range.mpr (by omega), ?_⟩))
          simpa using hz
        refine ⟨hfs, rfl, by simp, by simp, fun _ => ?_⟩
        simp only
        by_cases hc : count = 0
        · subst hc; simpa using g
        · have hd : dif b inp n i = true := dif_iff.mpr ⟨by omega, hz⟩
          have hp := potS_run (D := D) (a := i - count) (i := i) (by omega) hd
          have : count = 1 := by omega
          omega
  | second =>
    obtain ⟨h1, h2⟩ := hcnt (by simp) (by simp)
    have hi := hlt (by simp) (by simp)
    obtain ⟨g1, g2⟩ := hsec rfl
    obtain ⟨k1, k2, k3⟩ := doEmit_single (inp := inp) he (⟨.second, i, count, lastRLE, sym, fs, out⟩ : ES σ) hfs hsym h1
      (M := potS b inp n D i) (by
        simp only
        split
        · next hc => subst hc; simpa using g2
        · next hc =>
          have := potS_run (D := D) (a := i - count) (i := i) (by omega) (dif_iff.mpr ⟨hi, g1⟩)
          omega)
    have e := doEmit_i (emit := emit) (inp := inp) (⟨.second, i, count, lastRLE, sym, fs, out⟩ : ES σ)
    simp only [stepS8]
    refine ⟨k2, k3, by simp, by simp, fun _ => ?_⟩
    simp only at e k1 ⊢
    rw [e]
    exact k1
  | search =>
    have hi := hlt (by simp) (by simp)
    have g := hfree rfl
    have hc0 := hz0 rfl
    subst hc0
    simp only [stepS8]
    split
    · next hi2 =>
      split
      · next hf =>
        have := cn_dif_all (b := b) (inp := inp) (n := n) (i := i) 16 (by omega) fun j hj => by
          have := findByte_all _ _ hf j (by omega) (by omega)
          rw [hsym] at this
          exact this
        have := potS_lits (b := b) (inp := inp) (n := n) (D := D) (a := i) (c := i + 16) (by omega) (by omega)
        refine ⟨hfs, hsym, by simp, by simp, fun _ => ?_⟩
        simp only
        omega
      · next z hf =>
        obtain ⟨_, hz2, _⟩ := findByte_spec _ _ _ _ _ _ hf
        split
        · next hg =>
          have := cn_dif_cntEq (b := b) (inp := inp) (n := n) hsym (i := i) 16 (by omega)
          have := potS_lits (b := b) (inp := inp) (n := n) (D := D) (a := i) (c := i + 16) (by omega) (by omega)
          refine ⟨hfs, hsym, by simp, by simp, fun _ => ?_⟩
          simp only
          omega
        · have := cn_dif_all (b := b) (inp := inp) (n := n) (i := i) z (by omega) fun j hj he' => by
            have := findByte_le _ _ _ j hf (by omega) (by rw [hsym]; exact he')
            omega
          have := potS_lits (b := b) (inp := inp) (n := n) (D := D) (a := i) (c := i + z) (by omega) (by omega)
          refine ⟨hfs, hsym, fun _ => ?_, by simp, by simp⟩
          simp only
          rw [show i + z + 1 - 1 = i + z by omega]
          split <;> omega
    · have := potS_mono (b := b) (inp := inp) (n := n) (D := D) (Nat.le_succ i)
      refine ⟨hfs, hsym, fun _ => ?_, by simp, by simp⟩
      simp only [Nat.succ_eq_add_one, Nat.sub_zero] at this ⊢
      rw [if_neg (by omega)]
      omega
  | sscan => exact absurd rfl hns
  | scal =>
    obtain ⟨h1, h2⟩ := hcnt (by simp) (by simp)
    have g := hrun (by simp)
    simp only [stepS8]
    split
    · next hi =>
      split
      · refine ⟨hfs, hsym, fun _ => ?_, by simp, by simp⟩
        simp only
        rw [show i + 1 - (count + 1) = i - count by omega]
        split at g <;> split <;> omega
      · next hne =>
        have hd : dif b inp n i = true := by
          refine dif_iff.mpr ⟨hi, fun he' => hne ?_⟩
          rw [hsym]
          simpa [rd] using he'
        obtain ⟨k1, k2, k3⟩ := doEmit_single (inp := inp) he (⟨.scal, i, count, lastRLE, sym, fs, out⟩ : ES σ) hfs hsym h1
          (M := potS b inp n D i + if i + 16 < n then 0 else 1) (by
            simp only
            split
            · next hc => subst hc; simpa using g
            · next hc =>
              have := potS_run (D := D) (a := i - count) (i := i) (by omega) hd
              omega)
        have hs := cn_succ (dif b inp n) i
        rw [if_pos hd] at hs
        have := potS_lits (b := b) (inp := inp) (n := n) (D := D) (a := i) (c := i + 1) (by omega) (by omega)
        refine ⟨k2, k3, fun _ => ?_, ?_, ?_⟩
        · simp only [Nat.sub_zero] at k1 ⊢
          split at k1 <;> split <;> omega
        · simp [doEmit_pc]
        · simp [doEmit_pc]
    · exact ⟨hfs, hsym, fun _ => g, by simp, by simp⟩

/-- What is written at the end. -/
theorem finish_single {σ : Type} {emitEnd : Emit σ} {endRun : List Byte} {endLit : Nat → List Byte} {fs0 : σ} {E : Nat}
    (he : EmitCost1 emitEnd fs0 b D) (h1 : endRun.length ≤ E) (h2 : ∀ k, (endLit k).length ≤ E) {CP : σ → List Byte → Nat → Prop} (s : ES σ)
    (hx : Inv8 16 inp n CP s) (h : SInv fs0 b inp n D s) (hp : s.pc = .scal) :
    (finish emitEnd endRun endLit inp s).length ≤ (D + 2) * others b inp n + D + E + 1 := by
  have g := h.run (.inr (.inr hp))
  obtain ⟨g1, g2⟩ := hx.cnt (by simp [hp]) (by simp [hp])
  have hP := potS_le (b := b) (inp := inp) (n := n) (D := D) (s.i - s.count)
  obtain ⟨k1, _, _⟩ := doEmit_single (inp := inp) he s h.fs h.sym g1 (M := (D + 2) * others b inp n + D + 1)
    (by split at g <;> split <;> omega)
  unfold doEmit at k1
  unfold finish
  split
  · next bytes fs' hs =>
    rw [hs] at k1
    simp only [List.length_append, rd_length, Nat.sub_self] at k1 ⊢
    omega
  · next hs =>
    rw [hs] at k1
    have := h2 (s.i - s.lastRLE)
    simp only [List.length_append, rd_length] at *
    omega

/-! ### The short codec -/

theorem finishS8_single {σ : Type} (F : Fmt σ) (fs0 : Mem → Nat → σ) (sym : Mem → Nat → Byte) {minR E : Nat} (hm : minR ≤ 9) (hD : 1 ≤ D)
    (he : EmitCost1 F.emit (fs0 inp n) (sym inp n) D) (h1 : F.endRun.length ≤ E) (h2 : ∀ k, (F.endLit k).length ≤ E) (s : ES σ)
    (hs : runS8 F fs0 minR sym inp n = some s) :
    (finish F.emit F.endRun F.endLit inp s).length ≤ (D + 2) * others (sym inp n) inp n + D + E + 1 := by
  unfold runS8 at hs
  have key : (Inv8 16 inp n (fun _ _ _ => True) s ∧ SInv (fs0 inp n) (sym inp n) inp n D s) ∧ s.pc = .scal := by
    refine loop_rule_partial (body := stepS8 F.emit minR inp n)
      (fun s => (Inv8 16 inp n (fun _ _ _ => True) s ∧ s.pc ≠ .sscan ∧ (s.pc = .search → s.count = 0)) ∧
        SInv (fs0 inp n) (sym inp n) inp n D s)
      (fun s => (Inv8 16 inp n (fun _ _ _ => True) s ∧ SInv (fs0 inp n) (sym inp n) inp n D s) ∧ s.pc = .scal) ?_ _ _ _ ?_ hs
    · rintro s ⟨hx, hc⟩
      have g1 := stepS8_inv (emit := F.emit) (minR := minR) (unb := true) (Nat.le_refl n)
        (fun _ _ _ _ _ _ _ _ _ _ _ _ _ _ => trivial) s hx
      have g2 := stepS8_single hm hD he s hx hc
      cases hb : stepS8 F.emit minR inp n s with
      | inl s' => rw [hb] at g1 g2; exact ⟨g1.1, g2⟩
      | inr s' => rw [hb] at g1 g2; exact ⟨⟨g1.1, g2⟩, g1.2.2⟩
    · exact ⟨⟨inv8_start trivial, by simp, by simp⟩, rfl, rfl, fun _ => by simp, by simp, by simp⟩
  obtain ⟨⟨hx, hc⟩, hp⟩ := key
  exact finish_single he h1 h2 s hx hc hp

/-! ### The 8 bit single codecs -/

/-- What the run to go back to would cost. -/
structure SWInv {σ : Type} (fs0 : σ) (b : Byte) (inp : Mem) (n D : Nat) (w : WS σ) : Prop where
  es : SInv fs0 b inp n D w.es
  back : w.es.pc ≠ .scal → w.wc ≠ 0 → w.es.out.length + (w.fw - w.es.lastRLE) ≤ potS b inp n D w.fw

theorem second_single {σ : Type} {emit emitT emitF : Emit σ} {force : Nat → Nat → List Byte} {short long far : Nat}
    {fs0 : σ} (hR : WRules emit emitT emitF force short long far fs0 b) (he : EmitCost1 emit fs0 b D)
    (hf : ∀ cnt lits, (force cnt lits).length ≤ D) (hl : long ≤ D) (hsD : short ≤ D)
    {CP : σ → List Byte → Nat → Prop} (w : WS σ) (hw : WInv short long far fs0 b inp n CP w)
    (h : SWInv fs0 b inp n D w) (hpc : w.es.pc = .second) : SWInv fs0 b inp n D (second emit force short inp n w) := by
  obtain ⟨⟨pc, i, count, lastRLE, sym, fs, out⟩, wc, fw⟩ := w
  obtain ⟨⟨hinv, _, _⟩, _, _, hstop, hch⟩ := hw
  obtain ⟨⟨hfs, hsym, _, hsec, _⟩, hback⟩ := h
  obtain ⟨_, hlen, hlast, hhi, _, hlt, hcnt⟩ := hinv
  simp only at *
  subst hpc hfs hsym
  obtain ⟨h1, h2⟩ := hcnt (by simp) (by simp)
  have hi := hlt (by simp) (by simp)
  obtain ⟨g1, g2⟩ := hsec rfl
  have hd : dif b inp n i = true := dif_iff.mpr ⟨hi, g1⟩
  have hback := hback (by simp)
  have hch := hch (by simp)
  have hpos := hR.pos
  -- the run stays in the literals
  have plain : ∀ wc' fw', count ≤ D → (wc' ≠ 0 → out.length + (fw' - lastRLE) ≤ potS b inp n D fw') →
      SWInv fs b inp n D ⟨⟨.search, i, 0, lastRLE, [b], fs, out⟩, wc', fw'⟩ := by
    intro wc' fw' hc hw
    clear hch hback hstop hsec
    refine ⟨⟨rfl, rfl, by simp, by simp, fun _ => ?_⟩, fun _ => hw⟩
    simp only
    by_cases hc0 : count = 0
    · subst hc0; simpa using g2
    · have := potS_run (D := D) (a := i - count) (i := i) (by omega) hd
      omega
  unfold second
  simp only
  by_cases hs : count ≥ short
  · rw [if_pos hs]
    have hrun := potS_run (D := D) (a := i - count) (i := i) (by omega) hd
    cases hem : emit fs [b] count (i - count - lastRLE) with
    | some x =>
      obtain ⟨bytes, fs'⟩ := x
      simp only
      obtain ⟨k1, k2, k3⟩ := doEmit_single (inp := inp) he (⟨.second, i, count, lastRLE, [b], fs, out⟩ : ES σ) rfl rfl h1
        (M := potS b inp n D i) (by simp only; split <;> omega)
      have e := doEmit_i (emit := emit) (inp := inp) (⟨.second, i, count, lastRLE, [b], fs, out⟩ : ES σ)
      refine ⟨⟨k2, k3, by simp, by simp, fun _ => ?_⟩, by simp⟩
      simp only at e k1 ⊢
      rw [e]
      exact k1
    | none =>
      have hsk := hR.skip _ _ hs hem
      simp only
      unfold wasted
      simp only
      by_cases hw1 : wc = 0 ∨ i - fw > 255
      · rw [if_pos hw1]
        exact plain 1 (i - count) (by omega) fun _ => g2
      · rw [if_neg hw1]
        by_cases hw2 : wc + 1 > 2
        · rw [if_pos hw2]
          obtain ⟨c, c1, c2, c3, c4, c5, c6, c7⟩ := hch (by omega)
          have c5 := c5 rfl
          have hm : matchLen inp [b] fw (n - 16 - fw) 0 = c := matchLen_exact (by omega) c6 c7
          unfold replay
          simp only
          rw [hm]
          have := potS_run (b := b) (inp := inp) (n := n) (D := D) (a := fw) (i := fw + c) (by omega) (dif_iff.mpr ⟨by omega, c7⟩)
          have := hback (by omega)
          have := hf c (fw - lastRLE)
          refine ⟨⟨rfl, rfl, by simp, by simp, fun _ => ?_⟩, by simp⟩
          simp only [List.length_append, rd_length, Nat.sub_self]
          omega
        · rw [if_neg hw2]
          exact plain _ _ (by omega) fun _ => hback (by omega)
  · rw [if_neg hs]
    exact plain _ _ (by omega) hback

theorem stepW_single {σ : Type} {emit emitT emitF : Emit σ} {force : Nat → Nat → List Byte} {short long far : Nat}
    {fs0 : σ} (hR : WRules emit emitT emitF force short long far fs0 b) (he : EmitCost1 emit fs0 b D) (heT : EmitCost1 emitT fs0 b D)
    (hf : ∀ cnt lits, (force cnt lits).length ≤ D) (hl : long ≤ D) (hsD : short ≤ D) (hs9 : short ≤ 9) (hD : 1 ≤ D)
    {CP : σ → List Byte → Nat → Prop} (w : WS σ) (hw : WInv short long far fs0 b inp n CP w) (h : SWInv fs0 b inp n D w) :
    Post (stepW emit emitT force short inp n w) (fun w' => SWInv fs0 b inp n D w') (fun w' => SWInv fs0 b inp n D w') := by
  unfold stepW
  by_cases hpc : w.es.pc = .second
  · rw [if_pos hpc]
    exact second_single hR he hf hl hsD w hw h hpc
  · rw [if_neg hpc]
    have g := stepS8_single hs9 hD heT w.es hw.inv h.es
    by_cases hsc : w.es.pc = .scal
    · have hframe : Post (stepS8 emitT short inp n w.es) (fun s' => s'.pc = .scal) (fun s' => s'.pc = .scal) := by
        simp only [stepS8, hsc]
        split
        · split
          · rfl
          · simp only [Post]
            rw [doEmit_pc]
            exact hsc
        · exact hsc
      cases hb : stepS8 emitT short inp n w.es with
      | inl e => rw [hb] at g hframe; exact ⟨g, fun h1 => absurd hframe h1⟩
      | inr e => rw [hb] at g hframe; exact ⟨g, fun h1 => absurd hframe h1⟩
    · have hframe : Post (stepS8 emitT short inp n w.es) (fun s' => s'.out = w.es.out ∧ s'.lastRLE = w.es.lastRLE)
          (fun s' => s'.out = w.es.out ∧ s'.lastRLE = w.es.lastRLE) := by
        simp only [stepS8]
        cases hp : w.es.pc with
        | second => exact absurd hp hpc
        | scal => exact absurd hp hsc
        | top => simp only; split <;> exact ⟨rfl, rfl⟩
        | ext => simp only; repeat' split
                 all_goals exact ⟨rfl, rfl⟩
        | search => simp only; repeat' split
                    all_goals exact ⟨rfl, rfl⟩
        | sscan => exact ⟨rfl, rfl⟩
      have hb := h.back hsc
      cases hx : stepS8 emitT short inp n w.es with
      | inl e =>
        rw [hx] at g hframe
        exact ⟨g, fun _ h1 => by simp only; rw [hframe.1, hframe.2]; exact hb h1⟩
      | inr e =>
        rw [hx] at g hframe
        exact ⟨g, fun _ h1 => by simp only; rw [hframe.1, hframe.2]; exact hb h1⟩

theorem finishW_single {σ : Type} {emit emitT emitF : Emit σ} {force : Nat → Nat → List Byte} {short long far : Nat}
    {fs0 : Mem → Nat → σ} {sym : Mem → Nat → Byte} {endRun : List Byte} {endLit : Nat → List Byte} {E : Nat}
    (hR : WRules emit emitT emitF force short long far (fs0 inp n) (sym inp n)) (he : EmitCost1 emit (fs0 inp n) (sym inp n) D)
    (heT : EmitCost1 emitT (fs0 inp n) (sym inp n) D)
    (hf : ∀ cnt lits, (force cnt lits).length ≤ D) (hl : long ≤ D) (hsD : short ≤ D) (hs9 : short ≤ 9) (hD : 1 ≤ D)
    (h1 : endRun.length ≤ E) (h2 : ∀ k, (endLit k).length ≤ E) (s : ES σ)
    (hs : runW emit emitT force short fs0 sym inp n = some s) :
    (finish emitT endRun endLit inp s).length ≤ (D + 2) * others (sym inp n) inp n + D + E + 1 := by
  unfold runW at hs
  cases hw : loop (stepW emit emitT force short inp n) (12 * n + 12) ⟨⟨.top, 0, 0, 0, [sym inp n], fs0 inp n, []⟩, 0, 0⟩ with
  | none => rw [hw] at hs; cases hs
  | some w =>
    rw [hw] at hs
    simp only [Option.map_some, Option.some.injEq] at hs
    subst hs
    have key : (Inv8 16 inp n (fun _ _ _ => True) w.es ∧ SInv (fs0 inp n) (sym inp n) inp n D w.es) ∧ w.es.pc = .scal := by
      refine loop_rule_partial (body := stepW emit emitT force short inp n)
        (fun w => WInv short long far (fs0 inp n) (sym inp n) inp n (fun _ _ _ => True) w ∧ SWInv (fs0 inp n) (sym inp n) inp n D w)
        (fun w => (Inv8 16 inp n (fun _ _ _ => True) w.es ∧ SInv (fs0 inp n) (sym inp n) inp n D w.es) ∧ w.es.pc = .scal) ?_ _ _ _ ?_ hw
      · rintro w ⟨hx, hc⟩
        have g1 := stepW_inv (unb := true) (Nat.le_refl n) hR (fun _ _ _ _ _ _ _ _ _ _ _ _ _ _ => trivial)
          (fun _ _ _ _ _ _ _ _ _ _ _ _ _ _ => trivial) (fun _ _ _ _ _ _ _ _ _ _ _ _ _ _ => trivial) w hx
        have g2 := stepW_single hR he heT hf hl hsD hs9 hD w hx hc
        cases hb : stepW emit emitT force short inp n w with
        | inl s' => rw [hb] at g1 g2; exact ⟨g1.1, g2⟩
        | inr s' => rw [hb] at g1 g2; exact ⟨⟨g1.1, g2.es⟩, g1.2.2⟩
      · exact ⟨wInv_start trivial, ⟨rfl, rfl, fun _ => by simp, by simp, by simp⟩, by simp⟩
    obtain ⟨⟨hx, hc⟩, hp⟩ := key
    exact finish_single heT h1 h2 w.es hx hc hp

end

end Hrk
