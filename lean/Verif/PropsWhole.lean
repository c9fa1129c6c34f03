import Verif.Whole
import Verif.PropsChanges
import Verif.PropsRecent

/-
C77: a run is stored in one piece.
-/

namespace Hrk

/-! ### Streams -/

theorem ReadsRecs.snoc {σ : Type} {hdr : σ → List Byte → Option (Hdr σ)} {r : Rec} {f : σ} {bytes : List Byte} :
    ∀ {rs : List Rec} {fs fs' : σ} {src tail : List Byte}, ReadsRecs hdr fs src rs fs' (bytes ++ (r.lits ++ tail)) →
      hdr fs' (bytes ++ (r.lits ++ tail)) = some (.go r.lits.length r.sym (some r.count) f (r.lits ++ tail)) →
      ReadsRecs hdr fs src (rs ++ [r]) f tail := by
  intro rs
  induction rs with
  | nil =>
    rintro fs fs' src tail ⟨rfl, rfl⟩ h
    exact ⟨f, tail, h, rfl, rfl⟩
  | cons q rs ih =>
    rintro fs fs' src tail ⟨g, t, h1, h2⟩ h
    exact ⟨g, t, h1, ih h2 h⟩

theorem AllEnd.snoc {S g : Nat} {unb : Bool} {inp : Mem} {n : Nat} {rs : List Rec} {r : Rec} (h : AllEnd S g unb inp n rs)
    (hr : RunEnds S g unb inp n r.sym r.count ((rs ++ [r]).flatMap Rec.plain).length) : AllEnd S g unb inp n (rs ++ [r]) := by
  intro A q B he
  rcases List.eq_nil_or_concat B with rfl | ⟨B', x, rfl⟩
  · obtain ⟨e1, e2⟩ := List.append_inj' he rfl
    cases e2
    rw [← e1]
    exact hr
  · rw [List.concat_eq_append, ← List.cons_append, ← List.append_assoc] at he
    obtain ⟨e1, e2⟩ := List.append_inj' he rfl
    exact h A q B' e1

/-- The stream so far. -/
def WholeCP {σ : Type} (hdr : σ → List Byte → Option (Hdr σ)) (fs0 : σ) (inp : Mem) (n S g : Nat) (unb : Bool) (P : σ → Prop)
    (fs : σ) (out : List Byte) (last : Nat) : Prop :=
  P fs ∧ ∃ rs, (∀ tail, ReadsRecs hdr fs0 (out ++ tail) rs fs tail) ∧ rs.flatMap Rec.plain = rd inp 0 last ∧ AllEnd S g unb inp n rs

theorem WholeCP.closed {σ : Type} {emit : Emit σ} {hdr : σ → List Byte → Option (Hdr σ)} {fs0 : σ} {inp : Mem} {n S g B : Nat} {unb : Bool}
    {P : σ → Prop} (h : EmitOK emit hdr P S unb B) : ClosedM emit inp S g unb n B (WholeCP hdr fs0 inp n S g unb P) := by
  rintro fs out last sym cnt lits bytes fs' ⟨hP, rs, h1, h2, h3⟩ hl hu hB hr hE he
  obtain ⟨g1, -, g3⟩ := h fs sym cnt lits bytes fs' hP hl hu (by omega) he
  have hp : (rs ++ [(⟨rd inp last lits, sym, cnt⟩ : Rec)]).flatMap Rec.plain = rd inp 0 (last + lits + cnt) := by
    rw [← rd_append, ← rd_append, Nat.zero_add, Nat.zero_add, hr, ← h2]
    simp [Rec.plain]
  refine ⟨g1, rs ++ [⟨rd inp last lits, sym, cnt⟩], fun tail => ?_, hp, h3.snoc ?_⟩
  · have := h1 (bytes ++ (rd inp last lits ++ tail))
    rw [List.append_assoc, List.append_assoc]
    refine this.snoc (r := ⟨rd inp last lits, sym, cnt⟩) ?_
    simpa using g3 (rd inp last lits ++ tail)
  · rw [hp, rd_length]
    exact hE

/-- A codec whose scanner ends runs where they end. -/
theorem Cdc.OK.whole {σ : Type} {c : Cdc σ} {P D : σ → Prop} (h : c.OK P D) {g : Nat} (hg : 0 < g) (cpu : Cpu)
    (hs : ScanRunM (c.F.emit :: c.extra) c.S g c.unb c.first (c.run cpu)) : RunsWhole c.S g c.unb c.start c.F.hdr (c.compress cpu) := by
  intro inp n outSize ret out hn hc
  have hle := h.le
  have hm : maxInput = 1073741824 := rfl
  obtain ⟨_, b', g1, rfl, _⟩ := apiCompress_len _ inp n outSize ret out hc
  obtain ⟨s, g2, hf⟩ := h.scan cpu inp n (n + c.S) (fun _ _ _ => True) (Nat.le_refl _) (fun _ _ => closed_true) trivial
  obtain ⟨-, hlen, hlast, hlo, hhi, hrun, hdvd⟩ := hf
  have hCP := hs inp n (1073741824 + 16) (WholeCP c.F.hdr (c.first inp n) inp n c.S g c.unb P) (by omega)
    (List.forall_mem_cons.mpr ⟨WholeCP.closed h.fmt.emit, fun e he => WholeCP.closed (h.extra e he)⟩)
    ⟨h.first inp n, [], fun tail => ⟨rfl, rfl⟩, rfl, fun A r B he => by simp at he⟩ s g2
  have hb : b' = c.pre (c.first inp n) ++ finish c.emitEnd c.F.endRun c.F.endLit inp s := by
    simp only [Cdc.body, g2, Option.map_some, Option.some.injEq] at g1
    exact g1.symm
  have hdrop : (le32 n ++ le32 (8 + b'.length) ++ b').drop 8 = b' := by
    rw [List.drop_append_of_le_length (by simp)]
    simp
  rw [hdrop, hb]
  refine ⟨c.first inp n, finish c.emitEnd c.F.endRun c.F.endLit inp s, ?_⟩
  unfold finish
  split
  · next bytes f he =>
    have hp : s.lastRLE + (s.i - s.count - s.lastRLE) + s.count = s.i := by omega
    have := WholeCP.closed (g := g) (n := n) h.emitEnd _ _ _ _ _ _ _ _ hCP hlen hdvd (by omega) (hrun.toRun (by omega)) (.inl (by omega)) he
    rw [hp] at this
    obtain ⟨hP, rs, k1, k2, k3⟩ := this
    have ke := h.fmt.ends.endRun f [] hP
    rw [List.append_nil] at ke
    refine ⟨rs, f, c.F.endRun, [], s.i, h.start inp n _, k1 _, ?_, by rw [List.append_nil, k2], hlo, hhi, k3⟩
    rcases ke with k | ⟨l, k, _⟩ | ⟨sy, f', k⟩
    · exact .inl ⟨rfl, .inl k⟩
    · exact .inl ⟨rfl, .inr ⟨l, k⟩⟩
    · exact .inr ⟨sy, f', [], k⟩
  · obtain ⟨hP, rs, k1, k2, k3⟩ := hCP
    obtain ⟨sy, f', k⟩ := h.fmt.ends.endLit s.fs (s.i - s.lastRLE) (rd inp s.lastRLE (s.i - s.lastRLE)) hP (by omega)
    refine ⟨rs, s.fs, c.F.endLit (s.i - s.lastRLE) ++ rd inp s.lastRLE (s.i - s.lastRLE), rd inp s.lastRLE (s.i - s.lastRLE), s.i,
      h.start inp n _, ?_, ?_, ?_, hlo, hhi, k3⟩
    · rw [List.append_assoc]
      exact k1 _
    · exact .inr ⟨sy, f', [], by rw [rd_length, List.append_nil]; exact k⟩
    · rw [k2]
      have := rd_append inp 0 s.lastRLE (s.i - s.lastRLE)
      rwa [Nat.zero_add, Nat.add_sub_cancel' (by omega)] at this

/-! ### C77 -/

/-- C77 for the codecs of 16 to 64 bit symbols. -/
theorem C77_multibyte (c : XCfg) (hc : c.valid) (cpu : Cpu) : RunsWhole c.S c.S c.unb c.cdc.start c.hdr (c.compress cpu) := by
  refine (c.cdc_ok hc).whole (g := c.S) (c.valid_S hc).1 cpu ?_
  show ScanRunM [c.emit] c.S c.S c.unb (fun _ _ => c.fmt.init) (runXI c.fmt c.S (c.simd cpu) c.unb)
  rw [c.runI hc]
  exact runX_whole c.fmt c.emit_zero (c.valid_S hc).1 (c.encW_ok hc cpu)

/-- C77 for the codecs of 128 bit symbols, except that a run may end when exactly one symbol of the input is left. -/
theorem C77_128_partial (unb packed : Bool) (cpu : Cpu) :
    RunsWhole 16 17 unb (cdc128 unb packed).start (fmt128 unb packed).hdr ((cdc128 unb packed).compress cpu) := by
  refine (cdc128_ok unb packed).whole (g := 17) (by omega) cpu ?_
  show ScanRunM [(fmt128 unb packed).emit] 16 17 unb (fun _ _ => (fmt128 unb packed).init) (run128I (fmt128 unb packed) unb)
  rw [run128I_eq]
  exact run128_whole (fmt128 unb packed) (x128 unb packed).emit_zero

/-- C77 for the codecs with a table of 3 or 7 symbols. -/
theorem C77_symlut (c : SlCfg) (hc : c.valid) (cpu : Cpu) : RunsWhole c.S c.S c.unb c.cdc.start c.hdr (c.compress cpu) := by
  refine (c.cdc_ok hc).whole (g := c.S) (c.valid_S hc).1 cpu ?_
  show ScanRunM [c.emit] c.S c.S c.unb (fun _ _ => c.fmt.init) (c.cdc.run cpu)
  have h0 : ∀ fs sym lits, c.fmt.emit fs sym 0 lits = none := fun fs sym lits => c.emit_small fs sym 0 lits (by omega)
  by_cases h : c.S = 1
  · have hu : c.unb = true := hc.2.2 h
    have : c.cdc.run cpu = run8T c.fmt c.emit (c.encW cpu) := by
      simp only [SlCfg.cdc]
      rw [if_pos h, c.run8I h]
      rfl
    rw [this, hu, h]
    exact run8T_whole c.fmt c.emit (c.encW1 h cpu) List.mem_cons_self List.mem_cons_self h0 h0
  · have : c.cdc.run cpu = runX c.fmt c.S (c.encW cpu) c.unb := by
      simp only [SlCfg.cdc]
      rw [if_neg h, c.runI hc.2.1 h]
    rw [this]
    exact runX_whole c.fmt h0 (c.valid_S hc).1 (c.encW_ok hc cpu)

/-- C77 for the short codecs, greedy, with one symbol or neither. -/
theorem C77_short (c : ShCfg) (hc : c.valid) (cpu : Cpu) : RunsWhole c.S c.S c.unb c.cdc.start c.hdr (c.compress cpu) := by
  refine (c.cdc_ok hc).whole (g := c.S) (c.valid_S hc).1 cpu ?_
  by_cases hm : c.mode = .single
  · have hS := (hc.2.2.2.1 hm).2
    have hu : c.unb = true := hc.2.2.1 hS
    have hr : c.cdc.run cpu = runS8 c.fmt c.cdc.first c.minR pick := by
      show c.run cpu = runS8 c.fmt c.first c.minR pick
      unfold ShCfg.run
      rw [hm]
      dsimp only
      rw [runS8I_eq]
    rw [hr]
    change ScanRunM [c.fmt.emit] c.S c.S c.unb _ _
    have := runS8_whole c.fmt c.cdc.first (minR := c.minR) (sym := pick) (fun fs sym lits => c.emit_small fs sym 0 lits (by omega))
    generalize runS8 c.fmt c.cdc.first c.minR pick = r at this ⊢
    rw [hu, hS]
    exact this
  have hf : c.cdc.first = fun _ _ => c.fmt.init := by
    funext inp n
    show c.first inp n = c.init
    unfold ShCfg.first
    rw [if_neg hm]
  rw [hf]
  show ScanRunM [c.emit] c.S c.S c.unb (fun _ _ => c.fmt.init) (c.run cpu)
  have h0 : ∀ fs sym lits, c.fmt.emit fs sym 0 lits = none := fun fs sym lits => c.emit_small fs sym 0 lits (by omega)
  unfold ShCfg.run
  cases hmode : c.mode with
  | single => exact absurd hmode hm
  | greedy =>
    dsimp only
    have hS2 := (hc.2.2.2.2 hmode).2
    rw [runGI_eq c.fmt (by have := hc.2.1; simp only [List.mem_cons, List.not_mem_nil, or_false] at this; unfold symSize; omega)
      c.emit_lut (c.init_ok hc), hS2.2]
    exact runG_whole c.fmt hS2.1 (c.init_ok hc) h0 c.emit_lut
  | normal =>
    dsimp only
    by_cases h : c.S = 1
    · have hu : c.unb = true := hc.2.2.1 h
      rw [if_pos h, SlCfg.run8I ⟨c.N, c.S, c.unb⟩ h]
      have := run8T_whole c.fmt c.emit (SlCfg.encW1 ⟨c.N, c.S, c.unb⟩ h cpu) (E := [c.emit]) List.mem_cons_self List.mem_cons_self h0 h0
      change ScanRunM [c.emit] c.S c.S c.unb _ (run8T c.fmt c.emit (SlCfg.encW ⟨c.N, c.S, c.unb⟩ cpu))
      generalize run8T c.fmt c.emit (SlCfg.encW ⟨c.N, c.S, c.unb⟩ cpu) = r at this ⊢
      rw [hu, h]
      exact this
    · rw [if_neg h, SlCfg.runI ⟨c.N, c.S, c.unb⟩ hc.2.1 h]
      exact runX_whole c.fmt h0 (c.valid_S hc).1 (ShCfg.encW_ok (c.valid_S hc).2 cpu)

/-- Nothing is stored for no run. -/
theorem R8Cfg.single_zero (packed : Bool) (fs : R8St) (sym : List Byte) (lits : Nat) : R8Cfg.emit ⟨true, packed⟩ fs sym 0 lits = none ∧
    R8Cfg.emitT ⟨true, packed⟩ fs sym 0 lits = none := by
  constructor
  · unfold R8Cfg.emit
    cases packed <;> simp [R8Cfg.short, r8short]
  · unfold R8Cfg.emitT
    cases packed <;> simp [R8Cfg.short, R8Cfg.long, r8short]

/-- C77 for rle8_single and rle8_packed_single. -/
theorem C77_rle8_single (packed : Bool) (cpu : Cpu) :
    RunsWhole 1 1 true R8Cfg.start (R8Cfg.hdr packed) (R8Cfg.compress ⟨true, packed⟩ cpu) := by
  refine (R8Cfg.cdc_ok ⟨true, packed⟩).whole (g := 1) (by omega) cpu ?_
  have hr : (R8Cfg.cdc ⟨true, packed⟩).run cpu = runW (R8Cfg.emit ⟨true, packed⟩) (R8Cfg.emitT ⟨true, packed⟩) (R8Cfg.force ⟨true, packed⟩)
      (R8Cfg.short ⟨true, packed⟩) (R8Cfg.first ⟨true, packed⟩) pick := R8Cfg.run_eq ⟨true, packed⟩ cpu
  rw [hr]
  exact runW_whole (E := [R8Cfg.emit ⟨true, packed⟩, R8Cfg.emitT ⟨true, packed⟩, R8Cfg.emitF ⟨true, packed⟩]) (by simp) (by simp) (by simp)
    (fun fs sym lits => (R8Cfg.single_zero packed fs sym lits).1) (fun fs sym lits => (R8Cfg.single_zero packed fs sym lits).2)
    (R8Cfg.wrules ⟨true, packed⟩ rfl)

/-- C77 for rle8_multi and rle8_packed_multi. -/
theorem C77_rle8_multi (packed : Bool) (cpu : Cpu) :
    RunsWhole 1 1 true R8Cfg.start (R8Cfg.hdr packed) (R8Cfg.compress ⟨false, packed⟩ cpu) := by
  refine (R8Cfg.cdc_ok ⟨false, packed⟩).whole (g := 1) (by omega) cpu ?_
  have hr : (R8Cfg.cdc ⟨false, packed⟩).run cpu = run8T (R8Cfg.fmt ⟨false, packed⟩) (R8Cfg.emitT ⟨false, packed⟩) (if cpu.avx2 then 32 else 16) :=
    R8Cfg.run_eq ⟨false, packed⟩ cpu
  rw [hr]
  exact run8T_whole (R8Cfg.fmt ⟨false, packed⟩) (R8Cfg.emitT ⟨false, packed⟩) (by split <;> omega) List.mem_cons_self
    (List.mem_cons_of_mem _ List.mem_cons_self) (R8Cfg.cost packed).zero (R8Cfg.costT packed).zero

/-- 64 bytes of the same value, and others behind them. -/
def sameInp : Mem := fun i => if i < 64 then 5 else 0

/-- The first record read in a stream has all of the run. -/
theorem RunsWhole.first {σ : Type} {S : Nat} {unb : Bool} {start : List Byte → Option (Option (σ × List Byte))}
    {hdr : σ → List Byte → Option (Hdr σ)} {comp : Compress} (h : RunsWhole S S unb start hdr comp) {inp : Mem} {n outSize ret : Nat}
    {out : List Byte} (hn : n ≤ maxInput) (hc : comp (some inp) n true outSize = .ok ret out) {fs : σ} {src : List Byte}
    (h1 : start (out.drop 8) = some (some (fs, src))) {sym : List Byte} {cnt : Nat} {f : σ} {t : List Byte}
    (h2 : hdr fs src = some (.go 0 sym (some cnt) f t)) : RunEnds S S unb inp n sym cnt (runBytes sym cnt).length := by
  obtain ⟨fs', src', rs, e, e', rest, T, g1, g2, g3, -, -, -, g4⟩ := h inp n outSize ret out hn hc
  rw [h1] at g1
  cases g1
  cases rs with
  | nil =>
    obtain ⟨rfl, rfl⟩ := g2
    rw [LastPiece, h2] at g3
    rcases g3 with ⟨-, g | ⟨l, g⟩⟩ | ⟨s, f, t, g⟩
    · cases g
    · cases g
    · simp at g
  | cons r rs =>
    obtain ⟨f', t', k, -⟩ := g2
    rw [h2] at k
    obtain ⟨lits, sy, c⟩ := r
    simp only [Option.some.injEq, Hdr.go.injEq] at k
    obtain ⟨k1, rfl, rfl, rfl, k2⟩ := k
    have : lits = [] := List.length_eq_zero_iff.mp k1.symm
    subst this
    simpa [Rec.plain] using g4 [] ⟨[], sym, cnt⟩ rs rfl

/-- What the codecs of 128 bit symbols make of 64 equal bytes: a run of 48 and 16 bytes as they are. -/
def cutRec (unb packed : Bool) : List Byte :=
  let five : List Byte := List.replicate 16 5
  if packed then if unb then [64, 0, 0, 0, 51, 0, 0, 0] ++ [46] ++ five ++ [2] ++ [128, 0, 0, 0, 0, 35, 0, 0, 0] ++ five
    else [64, 0, 0, 0, 52, 0, 0, 0] ++ [4] ++ five ++ [1] ++ [128, 0, 0, 0, 0, 0, 17, 0, 0, 0] ++ five
  else [64, 0, 0, 0, 68, 0, 0, 0] ++ five ++ [if unb then 29 else 3, 1] ++ List.replicate 22 0 ++ [17, 0, 0, 0] ++ five

/-- The same bytes as one run of 64. -/
def wholeRec (unb packed : Bool) : List Byte :=
  let five : List Byte := List.replicate 16 5
  if packed then if unb then [64, 0, 0, 0, 35, 0, 0, 0] ++ [62] ++ five ++ [2] ++ [128, 0, 0, 0, 0, 0, 0, 0, 0]
    else [64, 0, 0, 0, 36, 0, 0, 0] ++ [5] ++ five ++ [1] ++ [128, 0, 0, 0, 0, 0, 0, 0, 0, 0]
  else [64, 0, 0, 0, 52, 0, 0, 0] ++ five ++ [if unb then 45 else 4, 1] ++ List.replicate 26 0

theorem cutRec_eq (unb packed : Bool) (cpu : Cpu) : (cdc128 unb packed).compress cpu (some sameInp) 64 true 300 =
    .ok (cutRec unb packed).length (cutRec unb packed) := by
  show (cdc128 unb packed).compress noSimd (some sameInp) 64 true 300 = _
  cases unb <;> cases packed <;> decide +kernel

/-- Whether a header is that of a record with no literals and this run. -/
def Hdr.isRun (h : Option (Hdr (List Byte))) (sym : List Byte) (cnt : Nat) : Bool :=
  match h with
  | some (.go 0 s (some c) _ _) => s == sym && c == cnt
  | _ => false

/-- C77 fails for the codecs of 128 bit symbols where exactly one symbol is left: of 64 equal bytes they store the last 16 as they are. The
stream with one run of 64 is 16 bytes shorter and is decompressed to the same bytes. -/
theorem C77_128_violated (unb packed : Bool) (cpu : Cpu) :
    ¬ RunsWhole 16 16 unb (cdc128 unb packed).start (fmt128 unb packed).hdr ((cdc128 unb packed).compress cpu) ∧
    ∃ inp s t m', rd inp 0 64 = List.replicate 64 5 ∧ (cdc128 unb packed).compress cpu (some inp) 64 true 300 = .ok s.length s ∧
      t.length + 16 = s.length ∧
      (cdc128 unb packed).decompress noSimd ⟨some (t ++ List.replicate 64 0), t.length, some (fun _ => 0xCC), 64, 64 + addSize, 0, 0⟩ = .ok 64 m' ∧
      ∀ k, k < 64 → m' k = inp k := by
  constructor
  · intro h
    have key : Hdr.isRun ((fmt128 unb packed).hdr (fmt128 unb packed).init ((cutRec unb packed).drop 8)) (List.replicate 16 5) 48 = true := by
      cases unb <;> cases packed <;> decide +kernel
    have hn : 64 ≤ maxInput := by decide
    unfold Hdr.isRun at key
    split at key
    · next s c f t hh =>
      simp only [Bool.and_eq_true, beq_iff_eq] at key
      obtain ⟨rfl, rfl⟩ := key
      have := h.first hn (cutRec_eq unb packed cpu) (h1 := rfl) hh
      rcases this with k | k
      · revert k
        decide +kernel
      · apply k
        unfold GoesOn
        cases unb <;> decide +kernel
    · cases key
  · obtain ⟨m', h1, h2⟩ := DRes.gave_spec (r := (cdc128 unb packed).decompress noSimd
      ⟨some (wholeRec unb packed ++ List.replicate 64 0), (wholeRec unb packed).length, some (fun _ => 0xCC), 64, 64 + addSize, 0, 0⟩)
      (n := 64) (inp := sameInp) (by cases unb <;> cases packed <;> decide +kernel)
    exact ⟨sameInp, cutRec unb packed, wholeRec unb packed, m', by decide +kernel, cutRec_eq unb packed cpu,
      by cases unb <;> cases packed <;> decide, h1, h2⟩

/-! ### Concrete cases -/

/-- Two bytes, then 40 of the value 9, then others. -/
def wholeInp : Mem := fun i => if i = 0 then 1 else if i = 1 then 2 else if i < 42 then 9 else b8 i

/-- A run of 40 bytes in a codec of 16 bit symbols: it ends in front of the byte 42. -/
example : AllEnd 2 2 true wholeInp 50 [⟨[1, 2], [9, 9], 40⟩] ∧ ([⟨[1, 2], [9, 9], 40⟩] : List Rec).flatMap Rec.plain = rd wholeInp 0 42 ∧
    ¬ AllEnd 2 2 true wholeInp 50 [⟨[1, 2], [9, 9], 30⟩] := by
  refine ⟨fun A r B he => ?_, by decide +kernel, fun h => ?_⟩
  · cases A with
    | nil =>
      obtain ⟨rfl, rfl⟩ := List.cons.inj he
      exact .inr (by unfold GoesOn; decide +kernel)
    | cons a A => simp at he
  · rcases h [] _ [] rfl with k | k
    · revert k
      decide +kernel
    · exact k (by unfold GoesOn; decide +kernel)

/-- That record is what a codec makes of the input, and what its decompressor reads. -/
example : XCfg.compress ⟨2, true, true⟩ noSimd (some wholeInp) 50 true 300 = .ok 31 ([50, 0, 0, 0, 31, 0, 0, 0] ++ [38, 9, 9, 6] ++ [1, 2] ++
      [128, 0, 0, 0, 0, 19, 0, 0, 0] ++ [42, 43, 44, 45, 46, 47, 48, 49]) ∧
    ∃ f t, (XCfg.fmt ⟨2, true, true⟩).hdr (XCfg.fmt ⟨2, true, true⟩).init [38, 9, 9, 6, 1, 2] = some (.go 2 [9, 9] (some 40) f t) :=
  ⟨by decide +kernel, _, _, rfl⟩

end Hrk
