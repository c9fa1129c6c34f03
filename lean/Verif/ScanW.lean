import Verif.Scan8

/-
The scanner of `rle8[_packed]_single_compress`. It is the single symbol scanner
of the short codecs plus a memory for runs it did not encode because they were
too far from the previous one: after three of them it goes back to the first.
-/

namespace Hrk

/-- Encoder variables: `wc` is `wastedChances`, `fw` is `firstWastedChanceIndex`
(src/rle8_extreme_cpu.h:1105-1110). -/
structure WS (σ : Type) where
  es : ES σ
  wc : Nat
  fw : Nat

/-- Going back: count the run at `fw` again and write it with a 32 bit offset
(src/rle8_extreme_cpu.h:1256-1282). `force` makes the header bytes. -/
def replay {σ : Type} (force : Nat → Nat → List Byte) (inp : Mem) (n : Nat) (w : WS σ) : WS σ :=
  ⟨{ w.es with
      i := w.fw + matchLen inp w.es.sym w.fw (n - 16 - w.fw) 0,
      lastRLE := w.fw + matchLen inp w.es.sym w.fw (n - 16 - w.fw) 0,
      count := 0, pc := .search,
      out := w.es.out ++ force (matchLen inp w.es.sym w.fw (n - 16 - w.fw) 0) (w.fw - w.es.lastRLE) ++
        rd inp w.es.lastRLE (w.fw - w.es.lastRLE) }, 0, w.fw⟩

/-- The end of a run of at least `short` symbols that was not encoded
(src/rle8_extreme_cpu.h:1245-1284). -/
def wasted {σ : Type} (force : Nat → Nat → List Byte) (inp : Mem) (n : Nat) (w : WS σ) : WS σ :=
  if w.wc = 0 ∨ w.es.i - w.fw > 255 then ⟨{ w.es with count := 0, pc := .search }, 1, w.es.i - w.es.count⟩
  else if w.wc + 1 > 2 then replay force inp n w
  else ⟨{ w.es with count := 0, pc := .search }, w.wc + 1, w.fw⟩

/-- The end of a run (src/rle8_extreme_cpu.h:1138-1289). -/
def second {σ : Type} (emit : Emit σ) (force : Nat → Nat → List Byte) (short : Nat) (inp : Mem) (n : Nat)
    (w : WS σ) : WS σ :=
  if w.es.count ≥ short then
    match emit w.es.fs w.es.sym w.es.count (w.es.i - w.es.count - w.es.lastRLE) with
    | some _ => ⟨{ doEmit emit inp w.es with count := 0, pc := .search }, 0, w.fw⟩
    | none => wasted force inp n w
  else ⟨{ w.es with count := 0, pc := .search }, w.wc, w.fw⟩

/-- `rle8[_packed]_compress_single_sse2` (src/rle8_extreme_cpu.h:1103-1321) followed by the
scalar loop of `single_compress` (src/rle8_extreme_cpu.h:383-510), which uses the emission
rule `emitT`. All other program points are those of `stepS8`. -/
def stepW {σ : Type} (emit emitT : Emit σ) (force : Nat → Nat → List Byte) (short : Nat) (inp : Mem) (n : Nat)
    (w : WS σ) : WS σ ⊕ WS σ :=
  if w.es.pc = .second then .inl (second emit force short inp n w)
  else
    match stepS8 emitT short inp n w.es with
    | .inl e => .inl ⟨e, w.wc, w.fw⟩
    | .inr e => .inr ⟨e, w.wc, w.fw⟩

/-- A run of `c` bytes, then something else. -/
theorem matchLen_exact {inp : Mem} {b : Byte} {fw c W : Nat} (hc : c ≤ W) (hr : RunAt inp [b] (fw + c) c)
    (hs : inp (fw + c) ≠ b) : matchLen inp [b] fw W 0 = c := by
  have hlo : c ≤ matchLen inp [b] fw W 0 := by
    apply Nat.le_of_not_lt
    intro hlt
    have := matchLen_stop inp [b] fw W 0 (by omega)
    apply this
    have h2 := hr (matchLen inp [b] fw W 0) hlt
    rw [show fw + c - c = fw by omega] at h2
    simpa [Nat.mod_one] using h2
  have hhi : ¬ c < matchLen inp [b] fw W 0 := by
    intro hlt
    have := matchLen_spec inp [b] fw W 0 c hlt
    apply hs
    simpa [Nat.mod_one] using this
  omega

/-- What steps other than the end of a run leave alone. -/
theorem stepS8_frame {σ : Type} {emit : Emit σ} {minR : Nat} {inp : Mem} {n : Nat} (s : ES σ) (b : Byte)
    (hb : s.sym = [b]) (h1 : s.pc ≠ .second) (h2 : s.pc ≠ .scal) :
    Post (stepS8 emit minR inp n s)
      (fun s' => s'.fs = s.fs ∧ s'.sym = s.sym ∧ s'.lastRLE = s.lastRLE ∧ s.i ≤ s'.i ∧
        (s'.pc = .second → s.pc = .ext ∧ inp s'.i ≠ b)) (fun s' => s' = s) := by
  simp only [stepS8]
  cases hpc : s.pc with
  | top => simp only; split <;> exact ⟨rfl, rfl, rfl, Nat.le_refl _, by simp⟩
  | ext =>
    simp only
    split
    · exact ⟨rfl, rfl, rfl, by simp only; omega, by simp⟩
    · next hf =>
      split
      · refine ⟨rfl, rfl, rfl, by simp only; omega, fun _ => ⟨trivial, ?_⟩⟩
        have := matchLen_le inp s.sym s.i 16 0
        have := matchLen_stop inp s.sym s.i 16 0 (by omega)
        rw [hb] at this
        simpa [hb, Nat.mod_one] using this
      · exact ⟨rfl, rfl, rfl, Nat.le_refl _, by simp⟩
  | second => exact absurd hpc h1
  | search =>
    simp only
    split
    · split
      · exact ⟨rfl, rfl, rfl, by simp only; omega, by simp⟩
      · split
        · exact ⟨rfl, rfl, rfl, by simp only; omega, by simp⟩
        · exact ⟨rfl, rfl, rfl, by simp only; omega, by simp⟩
    · exact ⟨rfl, rfl, rfl, by simp only; omega, by simp⟩
  | sscan => rfl
  | scal => exact absurd hpc h2

/-- What the scanner needs to know about the emission rules: none of them changes the state,
a run that is not encoded is shorter than `long` and at least `far` behind the previous one,
and for such runs the bytes `force` writes are those of the rule `emitF`. -/
structure WRules {σ : Type} (emit emitT emitF : Emit σ) (force : Nat → Nat → List Byte) (short long far : Nat)
    (fs0 : σ) (b : Byte) : Prop where
  pos : 0 < short
  wide : 255 ≤ far
  keep : ∀ cnt lits bytes fs', emit fs0 [b] cnt lits = some (bytes, fs') → fs' = fs0
  keepT : ∀ cnt lits bytes fs', emitT fs0 [b] cnt lits = some (bytes, fs') → fs' = fs0
  skip : ∀ cnt lits, short ≤ cnt → emit fs0 [b] cnt lits = none → cnt < long ∧ far ≤ lits
  back : ∀ cnt lits, short ≤ cnt → cnt < long → far ≤ lits → emitF fs0 [b] cnt lits = some (force cnt lits, fs0)

/-- Loop invariant of `stepW`. -/
structure WInv {σ : Type} (short long far : Nat) (fs0 : σ) (b : Byte) (inp : Mem) (n : Nat)
    (CP : σ → List Byte → Nat → Prop) (w : WS σ) : Prop where
  inv : Inv8 16 inp n CP w.es ∧ w.es.pc ≠ .sscan ∧ (w.es.pc = .search → w.es.count = 0)
  fs : w.es.fs = fs0
  sym : w.es.sym = [b]
  stop : w.es.pc = .second → inp w.es.i ≠ b
  chance : w.es.pc ≠ .scal → w.wc ≠ 0 → ∃ c, short ≤ c ∧ c < long ∧ w.es.lastRLE + far ≤ w.fw ∧ w.fw + c ≤ w.es.i ∧
    (w.es.pc = .second → w.fw + c + 16 ≤ n) ∧ RunAt inp [b] (w.fw + c) c ∧ inp (w.fw + c) ≠ b

/-- Termination measure: going back by at most 255 bytes moves `lastRLE` forward by more than that. -/
def muW {σ : Type} (n : Nat) (w : WS σ) : Nat := 6 * (n - w.es.lastRLE) + mu8 n w.es

theorem muW_lt {σ : Type} {n : Nat} {w w' : WS σ} (h1 : w.es.lastRLE ≤ w'.es.lastRLE)
    (h2 : mu8 n w'.es < mu8 n w.es) : muW n w' < muW n w := by
  unfold muW
  omega

theorem second_inv {σ : Type} {emit emitT emitF : Emit σ} {force : Nat → Nat → List Byte} {short long far : Nat}
    {fs0 : σ} {b : Byte} {unb : Bool} {inp : Mem} {n B : Nat} {CP : σ → List Byte → Nat → Prop}
    (hB : n ≤ B) (hR : WRules emit emitT emitF force short long far fs0 b)
    (hc : Closed emit inp 1 unb B CP) (hcF : Closed emitF inp 1 unb B CP)
    (w : WS σ) (h : WInv short long far fs0 b inp n CP w) (hpc : w.es.pc = .second) :
    WInv short long far fs0 b inp n CP (second emit force short inp n w) ∧
      muW n (second emit force short inp n w) < muW n w := by
  obtain ⟨⟨hinv, hns, hz0⟩, hfs, hsym, hstop, hch⟩ := h
  obtain ⟨hcp, hlen, hlast, hhi, hext, hlt, hcnt⟩ := hinv
  obtain ⟨h1, h2⟩ := hcnt (by simp [hpc]) (by simp [hpc])
  have h3 := hlt (by simp [hpc]) (by simp [hpc])
  have hstop := hstop hpc
  have hch := hch (by simp [hpc])
  have hmu : ∀ e : ES σ, e.i = w.es.i → e.pc = .search → mu8 n e < mu8 n w.es := by
    intro e he hp; simp [mu8, he, hp, hpc, PC.rank8]
  -- the three ways to leave the run alone
  have plain : ∀ wc fw, (wc ≠ 0 → ∃ c, short ≤ c ∧ c < long ∧ w.es.lastRLE + far ≤ fw ∧ fw + c ≤ w.es.i ∧
      RunAt inp [b] (fw + c) c ∧ inp (fw + c) ≠ b) →
      WInv short long far fs0 b inp n CP ⟨{ w.es with count := 0, pc := .search }, wc, fw⟩ ∧
      muW n (⟨{ w.es with count := 0, pc := .search }, wc, fw⟩ : WS σ) < muW n w := by
    intro wc fw hw
    refine ⟨⟨⟨⟨hcp, hlen, hlast, hhi, by simp, fun _ _ => h3, by simp⟩, by simp, by simp⟩, hfs, hsym, by simp, ?_⟩,
      muW_lt (Nat.le_refl _) (hmu _ rfl rfl)⟩
    intro _ hwc
    obtain ⟨c, g1, g2, g3, g4, g5, g6⟩ := hw hwc
    exact ⟨c, g1, g2, g3, g4, by simp, g5, g6⟩
  have keep : w.wc ≠ 0 → ∃ c, short ≤ c ∧ c < long ∧ w.es.lastRLE + far ≤ w.fw ∧ w.fw + c ≤ w.es.i ∧
      RunAt inp [b] (w.fw + c) c ∧ inp (w.fw + c) ≠ b := by
    intro hwc
    obtain ⟨c, g1, g2, g3, g4, _, g5, g6⟩ := hch hwc
    exact ⟨c, g1, g2, g3, g4, g5, g6⟩
  unfold second
  by_cases hs : w.es.count ≥ short
  · rw [if_pos hs]
    cases he : emit w.es.fs w.es.sym w.es.count (w.es.i - w.es.count - w.es.lastRLE) with
    | some x =>
      obtain ⟨bytes, fs'⟩ := x
      simp only
      obtain ⟨g1, g2, g3, g4⟩ := doEmit_inv hc w.es hcp hlen (Or.inr (Nat.one_dvd _)) h1 (by omega) h2
      have g5 : (doEmit emit inp w.es).fs = fs0 ∧ (doEmit emit inp w.es).lastRLE = w.es.i := by
        unfold doEmit
        rw [he]
        refine ⟨?_, rfl⟩
        rw [hfs, hsym] at he
        exact hR.keep _ _ _ _ he
      refine ⟨⟨⟨⟨g1, by simp only [g4, hlen], by simp only [g3]; exact g2, by simp only [g3]; omega, by simp,
        fun _ _ => by simp only [g3]; omega, by simp⟩, by simp, by simp⟩, g5.1, by simp only [g4, hsym], by simp,
        by simp⟩, muW_lt (by simp only [g5.2]; exact hlast) (hmu _ g3 rfl)⟩
    | none =>
      simp only
      rw [hfs, hsym] at he
      have hl := hR.skip _ _ hs he
      unfold wasted
      by_cases hw1 : w.wc = 0 ∨ w.es.i - w.fw > 255
      · rw [if_pos hw1]
        refine plain 1 (w.es.i - w.es.count) fun _ => ⟨w.es.count, hs, hl.1, by omega, by omega, ?_, ?_⟩
        · rw [show w.es.i - w.es.count + w.es.count = w.es.i by omega, ← hsym]; exact h2
        · rw [show w.es.i - w.es.count + w.es.count = w.es.i by omega]; exact hstop
      · rw [if_neg hw1]
        by_cases hw2 : w.wc + 1 > 2
        · rw [if_pos hw2]
          obtain ⟨c, g1, g2, g3, g4, g5, g6, g7⟩ := hch (by omega)
          have g5 := g5 hpc
          have hm : matchLen inp w.es.sym w.fw (n - 16 - w.fw) 0 = c := by
            rw [hsym]; exact matchLen_exact (by omega) g6 g7
          have hpos := hR.pos
          unfold replay
          rw [hm]
          have hF := hR.back c (w.fw - w.es.lastRLE) g1 g2 (by omega)
          have hcl := hcF _ _ _ _ c (w.fw - w.es.lastRLE) _ _ hcp hlen (Or.inr (Nat.one_dvd c))
            (by omega) (by rw [hsym]; exact g6.toRun (by omega)) (by rw [hfs, hsym]; exact hF)
          rw [show w.es.lastRLE + (w.fw - w.es.lastRLE) + c = w.fw + c by omega] at hcl
          refine ⟨⟨⟨⟨?_, hlen, Nat.le_refl _, by simp only; omega, by simp, fun _ _ => by simp only; omega, by simp⟩,
            by simp, by simp⟩, hfs, hsym, by simp, by simp⟩, ?_⟩
          · simp only [hfs]; exact hcl
          · have := hR.wide
            simp only [muW, mu8, hpc, PC.rank8]
            omega
        · rw [if_neg hw2]
          exact plain _ _ fun _ => keep (by omega)
  · rw [if_neg hs]
    exact plain _ _ keep

theorem stepW_inv {σ : Type} {emit emitT emitF : Emit σ} {force : Nat → Nat → List Byte} {short long far : Nat}
    {fs0 : σ} {b : Byte} {unb : Bool} {inp : Mem} {n B : Nat} {CP : σ → List Byte → Nat → Prop}
    (hB : n ≤ B) (hR : WRules emit emitT emitF force short long far fs0 b)
    (hc : Closed emit inp 1 unb B CP) (hcT : Closed emitT inp 1 unb B CP) (hcF : Closed emitF inp 1 unb B CP)
    (w : WS σ) (h : WInv short long far fs0 b inp n CP w) :
    Post (stepW emit emitT force short inp n w)
      (fun w' => WInv short long far fs0 b inp n CP w' ∧ muW n w' < muW n w)
      (fun w' => Inv8 16 inp n CP w'.es ∧ n ≤ w'.es.i ∧ w'.es.pc = .scal) := by
  unfold stepW
  by_cases hpc : w.es.pc = .second
  · rw [if_pos hpc]
    exact second_inv hB hR hc hcF w h hpc
  · rw [if_neg hpc]
    obtain ⟨hinv, hfs, hsym, hstop, hch⟩ := h
    have hs := stepS8_inv (minR := short) hB hcT w.es hinv
    by_cases hsc : w.es.pc = .scal
    · have hframe : Post (stepS8 emitT short inp n w.es)
          (fun s' => s'.fs = fs0 ∧ s'.sym = [b] ∧ s'.pc = .scal ∧ w.es.lastRLE ≤ s'.lastRLE) (fun _ => True) := by
        simp only [stepS8, hsc]
        split
        · split
          · exact ⟨hfs, hsym, rfl, Nat.le_refl _⟩
          · simp only [Post]
            unfold doEmit
            split
            · next bytes fs' he =>
              rw [hfs, hsym] at he
              exact ⟨hR.keepT _ _ _ _ he, hsym, hsc, hinv.1.last⟩
            · exact ⟨hfs, hsym, hsc, Nat.le_refl _⟩
        · trivial
      cases he : stepS8 emitT short inp n w.es with
      | inl e =>
        rw [he] at hs hframe
        obtain ⟨g1, g2⟩ := hs
        obtain ⟨f1, f2, f3, f4⟩ := hframe
        exact ⟨⟨g1, f1, f2, fun hp => absurd hp (by simp [f3]), fun hp => absurd f3 hp⟩, muW_lt f4 g2⟩
      | inr e =>
        rw [he] at hs
        exact hs
    · have hframe := stepS8_frame (emit := emitT) (minR := short) (inp := inp) (n := n) w.es b hsym hpc hsc
      cases he : stepS8 emitT short inp n w.es with
      | inl e =>
        rw [he] at hs hframe
        obtain ⟨g1, g2⟩ := hs
        obtain ⟨f1, f2, f3, f4, f5⟩ := hframe
        refine ⟨⟨g1, by rw [f1]; exact hfs, by rw [f2]; exact hsym, fun hp => (f5 hp).2, ?_⟩,
          muW_lt (Nat.le_of_eq f3.symm) g2⟩
        intro _ hwc
        obtain ⟨c, k1, k2, k3, k4, k5, k6, k7⟩ := hch hsc hwc
        refine ⟨c, k1, k2, by simp only [f3]; exact k3, by simp only; omega, fun hp => ?_, k6, k7⟩
        have := hinv.1.ext (f5 hp).1
        simp only
        omega
      | inr e =>
        rw [he] at hs
        exact hs

theorem stepW_congr {σ : Type} {emit emitT : Emit σ} {force : Nat → Nat → List Byte} {short : Nat}
    {inp inp' : Mem} {n : Nat} {CP : σ → List Byte → Nat → Prop} (hm : ∀ k, k < n → inp k = inp' k)
    (w : WS σ) (h : Inv8 16 inp n CP w.es) (hf : w.es.pc = .second → w.wc ≠ 0 → w.fw ≤ n) :
    stepW emit emitT force short inp n w = stepW emit emitT force short inp' n w := by
  unfold stepW
  by_cases hpc : w.es.pc = .second
  · rw [if_pos hpc, if_pos hpc]
    congr 1
    have h1 := h.hi
    have e1 : doEmit emit inp w.es = doEmit emit inp' w.es := doEmit_congr _ fun j hj => hm j (by omega)
    have e2 : wasted force inp n w = wasted force inp' n w := by
      unfold wasted
      by_cases hw1 : w.wc = 0 ∨ w.es.i - w.fw > 255
      · rw [if_pos hw1, if_pos hw1]
      · rw [if_neg hw1, if_neg hw1]
        have := hf hpc (by omega)
        unfold replay
        rw [matchLen_congr (inp := inp) (inp' := inp') (n - 16 - w.fw) 0 (fun j h1 h2 => hm j (by omega)),
          rd_congr (m₁ := inp) (m₂ := inp') (fun j h1 h2 => hm j (by omega))]
    unfold second
    rw [e1, e2]
  · rw [if_neg hpc, if_neg hpc, stepS8_congr hm w.es h]

/-- The scanner for the symbol `sym inp n`; `fs0` is the state it starts with
(src/rle8_extreme_cpu.h:353-510). -/
def runW {σ : Type} (emit emitT : Emit σ) (force : Nat → Nat → List Byte) (short : Nat) (fs0 : Mem → Nat → σ)
    (sym : Mem → Nat → Byte) (inp : Mem) (n : Nat) : Option (ES σ) :=
  (loop (stepW emit emitT force short inp n) (12 * n + 12)
    ⟨⟨.top, 0, 0, 0, [sym inp n], fs0 inp n, []⟩, 0, 0⟩).map WS.es

theorem wInv_start {σ : Type} {short long far : Nat} {fs : σ} {b : Byte} {inp : Mem} {n : Nat}
    {CP : σ → List Byte → Nat → Prop} (h : CP fs [] 0) :
    WInv short long far fs b inp n CP ⟨⟨.top, 0, 0, 0, [b], fs, []⟩, 0, 0⟩ :=
  ⟨⟨inv8_start h, by simp, by simp⟩, rfl, rfl, by simp, by simp⟩

theorem runW_scan {σ : Type} {emit emitT emitF : Emit σ} {force : Nat → Nat → List Byte} {short long far : Nat}
    {fs0 : Mem → Nat → σ} {sym : Mem → Nat → Byte} {unb : Bool} {E : List (Emit σ)} (h1 : emit ∈ E) (h2 : emitT ∈ E)
    (h3 : emitF ∈ E) (hR : ∀ inp n, WRules emit emitT emitF force short long far (fs0 inp n) (sym inp n)) :
    ScanRun E 1 unb fs0 (runW emit emitT force short fs0 sym) := by
  intro inp n B CP hB hc h0
  obtain ⟨w, g1, g2, g3, g4⟩ := loop_rule (body := stepW emit emitT force short inp n)
    (WInv short long far (fs0 inp n) (sym inp n) inp n CP)
    (fun w' => Inv8 16 inp n CP w'.es ∧ n ≤ w'.es.i ∧ w'.es.pc = .scal) (muW n)
    (fun w hw => stepW_inv (by omega) (hR inp n) (hc _ h1) (hc _ h2) (hc _ h3) w hw) (12 * n + 12)
    ⟨⟨.top, 0, 0, 0, [sym inp n], fs0 inp n, []⟩, 0, 0⟩ (wInv_start h0)
    (by simp only [muW, mu8, PC.rank8, Nat.sub_zero]; omega)
  exact ⟨w.es, by simp [runW, g1], g2.final g3 g4⟩

theorem runW_congr {σ : Type} {emit emitT emitF : Emit σ} {force : Nat → Nat → List Byte} {short long far : Nat}
    {fs0 : Mem → Nat → σ} {sym : Mem → Nat → Byte}
    (hR : ∀ inp n, WRules emit emitT emitF force short long far (fs0 inp n) (sym inp n))
    (hs : ∀ inp inp' n, (∀ k, k < n + 1 → inp k = inp' k) → sym inp n = sym inp' n ∧ fs0 inp n = fs0 inp' n) :
    ScanCongr 1 (runW emit emitT force short fs0 sym) := by
  intro inp inp' n hm
  have hc : ∀ e : Emit σ, Closed e inp 1 true n (fun _ _ _ => True) := fun _ => closed_true
  unfold runW
  rw [← (hs inp inp' n hm).1, ← (hs inp inp' n hm).2]
  congr 1
  refine loop_congr (WInv short long far (fs0 inp n) (sym inp n) inp n (fun _ _ _ => True))
    (b₁ := stepW emit emitT force short inp n)
    (b₂ := stepW emit emitT force short inp' n) ?_ _ _ (wInv_start trivial)
  intro w hw
  refine ⟨stepW_congr (fun k hk => hm k (by omega)) w hw.inv.1 ?_, ?_⟩
  · intro hp hwc
    obtain ⟨c, k1, k2, k3, k4, k5, _⟩ := hw.chance (by simp [hp]) hwc
    have := k5 hp
    omega
  intro w' hw'
  have := stepW_inv (Nat.le_refl _) (hR inp n) (hc _) (hc _) (hc emitF) w hw
  rw [hw'] at this
  exact this.1

end Hrk
