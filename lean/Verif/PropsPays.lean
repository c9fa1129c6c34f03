import Verif.PaysSpec
import Verif.PropsWhole
import Verif.PropsSize
import Verif.PropsRle8

/-
C78: no run is stored at a loss.
-/

namespace Hrk

/-! ### Streams -/

/-- A record takes at most as many bytes as its run has, and `more l` behind `l` literals. -/
def EmitPays {σ : Type} (emit : Emit σ) (P : σ → Prop) (S : Nat) (unb : Bool) (more : Nat → Nat) : Prop :=
  ∀ fs sym cnt lits bytes fs', P fs → sym.length = S → (unb = true ∨ S ∣ cnt) →
    emit fs sym cnt lits = some (bytes, fs') → P fs' ∧ bytes.length ≤ cnt + more lits

theorem PaysRecs.snoc {σ : Type} {more : Nat → Nat} {hdr : σ → List Byte → Option (Hdr σ)} {r : Rec} {f : σ} {bytes : List Byte} :
    ∀ {rs : List Rec} {fs fs' : σ} {src tail : List Byte}, PaysRecs more hdr fs src rs fs' (bytes ++ (r.lits ++ tail)) →
      hdr fs' (bytes ++ (r.lits ++ tail)) = some (.go r.lits.length r.sym (some r.count) f (r.lits ++ tail)) →
      bytes.length ≤ r.count + more r.lits.length → PaysRecs more hdr fs src (rs ++ [r]) f tail := by
  intro rs
  induction rs with
  | nil =>
    rintro fs fs' src tail ⟨rfl, rfl⟩ h hp
    refine ⟨f, tail, h, ?_, rfl, rfl⟩
    rw [List.length_append]
    omega
  | cons q rs ih =>
    rintro fs fs' src tail ⟨g, t, h1, h2, h3⟩ h hp
    exact ⟨g, t, h1, h2, ih h3 h hp⟩

/-- The stream so far. -/
def PaysCP {σ : Type} (more : Nat → Nat) (hdr : σ → List Byte → Option (Hdr σ)) (fs0 : σ) (inp : Mem) (P : σ → Prop)
    (fs : σ) (out : List Byte) (last : Nat) : Prop :=
  P fs ∧ ∃ rs, (∀ tail, PaysRecs more hdr fs0 (out ++ tail) rs fs tail) ∧ rs.flatMap Rec.plain = rd inp 0 last

theorem PaysCP.closed {σ : Type} {emit : Emit σ} {hdr : σ → List Byte → Option (Hdr σ)} {fs0 : σ} {inp : Mem} {S B : Nat} {more : Nat → Nat} {unb : Bool}
    {P : σ → Prop} (h : EmitOK emit hdr P S unb B) (hp : EmitPays emit P S unb more) : Closed emit inp S unb B (PaysCP more hdr fs0 inp P) := by
  rintro fs out last sym cnt lits bytes fs' ⟨hP, rs, h1, h2⟩ hl hu hB hr he
  obtain ⟨g1, -, g3⟩ := h fs sym cnt lits bytes fs' hP hl hu (by omega) he
  obtain ⟨-, g4⟩ := hp fs sym cnt lits bytes fs' hP hl hu he
  refine ⟨g1, rs ++ [⟨rd inp last lits, sym, cnt⟩], fun tail => ?_, ?_⟩
  · have := h1 (bytes ++ (rd inp last lits ++ tail))
    rw [List.append_assoc, List.append_assoc]
    refine this.snoc (r := ⟨rd inp last lits, sym, cnt⟩) ?_ ?_
    · simpa using g3 (rd inp last lits ++ tail)
    · simpa using g4
  · rw [← rd_append, ← rd_append, Nat.zero_add, Nat.zero_add, hr, ← h2]
    simp [Rec.plain]

/-- A codec whose records pay, by the emission rules `E` of its scanner and `emitEnd` at the end: what is read, and the end of the stream. -/
theorem Cdc.OK.pays_ends {σ : Type} {c : Cdc σ} {P D : σ → Prop} (h : c.OK P D) {more : Nat → Nat} (cpu : Cpu) {E : List (Emit σ)} {emitEnd : Emit σ}
    (hs : ScanRun E c.S c.unb c.first (c.run cpu))
    (hE : ∀ em ∈ emitEnd :: E, EmitOK em c.F.hdr P c.S c.unb (1073741824 + 16) ∧ EmitPays em P c.S c.unb more)
    (hend : ∀ inp n s lits, c.run cpu inp n = some s → c.emitEnd s.fs s.sym s.count lits = emitEnd s.fs s.sym s.count lits) :
    ∀ inp n outSize ret out, n ≤ maxInput → c.compress cpu (some inp) n true outSize = .ok ret out →
      ∃ fs src rs fs' src' rest T, c.start (out.drop 8) = some (some (fs, src)) ∧ PaysRecs more c.F.hdr fs src rs fs' src' ∧
        LastPiece c.F.hdr fs' src' rest ∧ rs.flatMap Rec.plain ++ rest = rd inp 0 T ∧ n ≤ T ∧ T ≤ n + c.S ∧
        out.drop 8 = c.pre (c.first inp n) ++ src ∧ (src' = c.F.endRun ∧ rest = [] ∨ ∃ k, src' = c.F.endLit k ++ rest) := by
  intro inp n outSize ret out hn hc
  have hle := h.le
  have hm : maxInput = 1073741824 := rfl
  obtain ⟨_, b', g1, rfl, _⟩ := apiCompress_len _ inp n outSize ret out hc
  obtain ⟨s, g2, hf⟩ := hs inp n (1073741824 + 16) (PaysCP more c.F.hdr (c.first inp n) inp P) (by omega)
    (fun em hem => PaysCP.closed (hE em (List.mem_cons_of_mem _ hem)).1 (hE em (List.mem_cons_of_mem _ hem)).2)
    ⟨h.first inp n, [], fun tail => ⟨rfl, rfl⟩, rfl⟩
  obtain ⟨hCP, hlen, hlast, hlo, hhi, hrun, hdvd⟩ := hf
  have hb : b' = c.pre (c.first inp n) ++ finish c.emitEnd c.F.endRun c.F.endLit inp s := by
    simp only [Cdc.body, g2, Option.map_some, Option.some.injEq] at g1
    exact g1.symm
  have hdrop : (le32 n ++ le32 (8 + b'.length) ++ b').drop 8 = b' := by
    rw [List.drop_append_of_le_length (by simp)]
    simp
  rw [hdrop, hb]
  refine ⟨c.first inp n, finish c.emitEnd c.F.endRun c.F.endLit inp s, ?_⟩
  unfold finish
  split
  · next bytes f he =>
    rw [hend inp n s _ g2] at he
    have hp : s.lastRLE + (s.i - s.count - s.lastRLE) + s.count = s.i := by omega
    have hEE := hE emitEnd List.mem_cons_self
    have := PaysCP.closed hEE.1 hEE.2 _ _ _ _ _ _ _ _ hCP hlen hdvd (by omega) (hrun.toRun (by omega)) he
    rw [hp] at this
    obtain ⟨hP, rs, k1, k2⟩ := this
    have ke := h.fmt.ends.endRun f [] hP
    rw [List.append_nil] at ke
    refine ⟨rs, f, c.F.endRun, [], s.i, h.start inp n _, k1 _, ?_, by rw [List.append_nil, k2], hlo, hhi, rfl, .inl ⟨rfl, rfl⟩⟩
    rcases ke with k | ⟨l, k, _⟩ | ⟨sy, f', k⟩
    · exact .inl ⟨rfl, .inl k⟩
    · exact .inl ⟨rfl, .inr ⟨l, k⟩⟩
    · exact .inr ⟨sy, f', [], k⟩
  · obtain ⟨hP, rs, k1, k2⟩ := hCP
    obtain ⟨sy, f', k⟩ := h.fmt.ends.endLit s.fs (s.i - s.lastRLE) (rd inp s.lastRLE (s.i - s.lastRLE)) hP (by omega)
    refine ⟨rs, s.fs, c.F.endLit (s.i - s.lastRLE) ++ rd inp s.lastRLE (s.i - s.lastRLE), rd inp s.lastRLE (s.i - s.lastRLE), s.i,
      h.start inp n _, ?_, ?_, ?_, hlo, hhi, rfl, .inr ⟨_, rfl⟩⟩
    · rw [List.append_assoc]
      exact k1 _
    · exact .inr ⟨sy, f', [], by rw [rd_length, List.append_nil]; exact k⟩
    · rw [k2]
      have := rd_append inp 0 s.lastRLE (s.i - s.lastRLE)
      rwa [Nat.zero_add, Nat.add_sub_cancel' (by omega)] at this

theorem Cdc.OK.pays {σ : Type} {c : Cdc σ} {P D : σ → Prop} (h : c.OK P D) {more : Nat → Nat} (cpu : Cpu) {E : List (Emit σ)} {emitEnd : Emit σ}
    (hs : ScanRun E c.S c.unb c.first (c.run cpu))
    (hE : ∀ em ∈ emitEnd :: E, EmitOK em c.F.hdr P c.S c.unb (1073741824 + 16) ∧ EmitPays em P c.S c.unb more)
    (hend : ∀ inp n s lits, c.run cpu inp n = some s → c.emitEnd s.fs s.sym s.count lits = emitEnd s.fs s.sym s.count lits) :
    RunsPay c.S more c.start c.F.hdr (c.compress cpu) := by
  intro inp n outSize ret out hn hc
  obtain ⟨fs, src, rs, fs', src', rest, T, g1, g2, g3, g4, g5, g6, -⟩ := h.pays_ends cpu hs hE hend inp n outSize ret out hn hc
  exact ⟨fs, src, rs, fs', src', rest, T, g1, g2, g3, g4, g5, g6⟩

/-- What is read does not depend on what the records are asked to pay. -/
theorem PaysRecs.unique {σ : Type} {hdr : σ → List Byte → Option (Hdr σ)} {m1 m2 : Nat → Nat} :
    ∀ {rs1 rs2 : List Rec} {fs f1 f2 : σ} {src s1 s2 q1 q2 : List Byte}, PaysRecs m1 hdr fs src rs1 f1 s1 → LastPiece hdr f1 s1 q1 →
      PaysRecs m2 hdr fs src rs2 f2 s2 → LastPiece hdr f2 s2 q2 → rs1 = rs2 ∧ s1 = s2 := by
  have last : ∀ {fs f : σ} {src t q s : List Byte} {l c : Nat}, LastPiece hdr fs src q → hdr fs src ≠ some (.go l s (some c) f t) := by
    intro fs f src t q s l c h e
    rw [LastPiece, e] at h
    rcases h with ⟨-, g | ⟨l, g⟩⟩ | ⟨s, f, t, g⟩
    · cases g
    · cases g
    · simp at g
  intro rs1
  induction rs1 with
  | nil =>
    rintro rs2 fs f1 f2 src s1 s2 q1 q2 ⟨rfl, rfl⟩ hl h2 hl2
    cases rs2 with
    | nil => exact ⟨rfl, h2.2⟩
    | cons r rs2 =>
      obtain ⟨f, t, k, -⟩ := h2
      exact absurd k (last hl)
  | cons r rs1 ih =>
    rintro rs2 fs f1 f2 src s1 s2 q1 q2 ⟨f, t, k, -, h1⟩ hl h2 hl2
    cases rs2 with
    | nil =>
      obtain ⟨rfl, rfl⟩ := h2
      exact absurd k (last hl2)
    | cons r2 rs2 =>
      obtain ⟨f', t', k', -, h2⟩ := h2
      rw [k] at k'
      obtain ⟨l1, y1, c1⟩ := r
      obtain ⟨l2, y2, c2⟩ := r2
      simp only [Option.some.injEq, Hdr.go.injEq] at k'
      obtain ⟨e1, rfl, rfl, rfl, e2⟩ := k'
      obtain ⟨rfl, rfl⟩ := List.append_inj e2 e1
      obtain ⟨rfl, rfl⟩ := ih h1 hl h2 hl2
      exact ⟨rfl, rfl⟩

/-- Records that pay take no more bytes than they stand for. -/
theorem PaysRecs.length {σ : Type} {hdr : σ → List Byte → Option (Hdr σ)} : ∀ {rs : List Rec} {fs f : σ} {src s : List Byte},
    PaysRecs noMore hdr fs src rs f s → src.length ≤ (rs.flatMap Rec.plain).length + s.length := by
  intro rs
  induction rs with
  | nil =>
    rintro fs f src s ⟨rfl, rfl⟩
    simp
  | cons r rs ih =>
    rintro fs f src s ⟨f', t, -, h2, h3⟩
    have := ih h3
    simp only [noMore, List.length_append] at h2
    simp only [List.flatMap_cons, List.length_append, Rec.plain, runBytes, List.length_map, List.length_range]
    omega

/-- A codec that can exceed `rle_compress_bounds` stores some run at a loss. -/
theorem Cdc.OK.loses {σ : Type} {c : Cdc σ} {P D : σ → Prop} (h : c.OK P D) {more : Nat → Nat} (cpu : Cpu) {E : List (Emit σ)} {emitEnd : Emit σ}
    (hs : ScanRun E c.S c.unb c.first (c.run cpu))
    (hE : ∀ em ∈ emitEnd :: E, EmitOK em c.F.hdr P c.S c.unb (1073741824 + 16) ∧ EmitPays em P c.S c.unb more)
    (hend : ∀ inp n s lits, c.run cpu inp n = some s → c.emitEnd s.fs s.sym s.count lits = emitEnd s.fs s.sym s.count lits)
    (e1 : c.F.endRun.length ≤ 20) (e2 : ∀ k, (c.F.endLit k).length ≤ 20) (e3 : ∀ fs, P fs → (c.pre fs).length ≤ 20)
    (hv : ∃ inp n, 0 < n ∧ n ≤ 20000000 ∧ c.compress cpu (some inp) n true (bounds n) = .ub) :
    ¬ RunsPay c.S noMore c.start c.F.hdr (c.compress cpu) := by
  obtain ⟨inp, n, h0, hn, hu⟩ := hv
  intro hp
  have hm : maxInput = 1073741824 := rfl
  have hle := h.le
  have hb : bounds n = n + 193 := by unfold bounds; rw [if_neg (by omega)]
  obtain ⟨b, hbody, hbig⟩ : ∃ b, c.body cpu inp n = some b ∧ bounds n < 8 + b.length := by
    unfold Cdc.compress apiCompress at hu
    simp only [] at hu
    split at hu
    · cases hu
    · split at hu
      · cases hu
      · next b e =>
        split at hu
        · cases hu
        · next hl =>
          simp only [List.length_append, le32_length] at hl
          exact ⟨b, e, by omega⟩
  have hc : c.compress cpu (some inp) n true (8 + b.length) = .ok ((8 + b.length) % 4294967296) (le32 n ++ le32 (8 + b.length) ++ b) := by
    unfold Cdc.compress apiCompress
    simp only []
    rw [if_neg (by simp; omega), hbody]
    simp only []
    rw [if_pos (by simp only [List.length_append, le32_length]; omega)]
  obtain ⟨fs, src, rs, fs', src', rest, T, g1, g2, g3, g4, g5, g6, g7, g8⟩ := h.pays_ends cpu hs hE hend _ _ _ _ _ (by omega) hc
  obtain ⟨fs2, src2, rs2, fs2', src2', rest2, T2, k1, k2, k3, -⟩ := hp _ _ _ _ _ (by omega) hc
  rw [g1] at k1
  cases k1
  obtain ⟨rfl, rfl⟩ := g2.unique g3 k2 k3
  have hlen := k2.length
  have hpre := e3 _ (h.first inp n)
  have hplain := congrArg List.length g4
  rw [List.length_append, rd_length] at hplain
  have hout := congrArg List.length g7
  simp only [List.length_append, List.length_drop, le32_length] at hout
  have hlast : src'.length ≤ rest.length + 20 := by
    rcases g8 with ⟨rfl, rfl⟩ | ⟨k, rfl⟩
    · simpa using e1
    · have := e2 k
      rw [List.length_append]
      omega
  omega

theorem EmitSize.pays {σ : Type} {emit : Emit σ} {P : σ → Prop} {S : Nat} {unb : Bool} (h : EmitSize emit P S unb) :
    EmitPays emit P S unb noMore := h

theorem EmitGrowIf.pays {σ : Type} {emit : Emit σ} {P : σ → Prop} {S : Nat} {unb : Bool} {e L : Nat} (h : EmitGrowIf emit P S unb e L) :
    EmitPays emit P S unb (moreFrom L e) := h

theorem EmitOK.two {σ : Type} {emit : Emit σ} {hdr : σ → List Byte → Option (Hdr σ)} {P : σ → Prop} {S B : Nat} {unb : Bool}
    (h : EmitOK emit hdr P S unb B) : EmitOK (twoEmit S emit) hdr P S unb B := by
  intro fs sym cnt lits bytes fs' hP hl hu hB he
  unfold twoEmit at he
  split at he
  · exact h fs sym cnt lits bytes fs' hP hl hu hB he
  · cases he

/-- The scanner of wider symbols stores runs of two symbols and more only. -/
theorem Cdc.OK.pays_two {σ : Type} {c : Cdc σ} {P D : σ → Prop} (h : c.OK P D) {more : Nat → Nat} {W : Nat} (cpu : Cpu) (hS : 0 < c.S) (hW : W = 0 ∨ c.S < W)
    (hrun : c.run cpu = runX c.F c.S W c.unb) (hf : c.first = fun _ _ => c.F.init)
    (h1 : EmitPays (twoEmit c.S c.F.emit) P c.S c.unb more) (h2 : EmitPays (twoEmit c.S c.emitEnd) P c.S c.unb more) :
    RunsPay c.S more c.start c.F.hdr (c.compress cpu) := by
  refine h.pays cpu (E := [twoEmit c.S c.F.emit]) (emitEnd := twoEmit c.S c.emitEnd) ?_ ?_ ?_
  · rw [hrun, hf]
    have := runX_scan { c.F with emit := twoEmit c.S c.F.emit } (unb := c.unb) hS hW
    have e : runX { c.F with emit := twoEmit c.S c.F.emit } c.S W c.unb = runX c.F c.S W c.unb := by
      funext inp n
      exact (runX_two c.F hS inp n).1.symm
    rw [e] at this
    exact this
  · intro em hem
    rcases List.mem_cons.mp hem with rfl | hem
    · exact ⟨h.emitEnd.two, h2⟩
    · rw [List.mem_singleton] at hem
      subst hem
      exact ⟨h.fmt.emit.two, h1⟩
  · intro inp n s lits hs
    rw [hrun] at hs
    have := (runX_two c.F hS inp n).2 s hs
    unfold twoEmit
    rw [if_pos this]

/-! ### C78 -/

/-- C78 for the codecs of 16 to 64 bit symbols: no record takes more bytes than its run has. -/
theorem C78_multibyte (c : XCfg) (hc : c.valid) (cpu : Cpu) : RunsPay c.S noMore c.cdc.start c.hdr (c.compress cpu) := by
  have hS : c.S ≤ 16 := by have := (c.valid_S hc).2; omega
  refine (c.cdc_ok hc).pays (emitEnd := c.cdc.emitEnd) cpu ((c.cdc_ok hc).scan cpu) ?_ (fun _ _ _ _ _ => rfl)
  intro em hem
  have : em = c.emit := by
    change em ∈ [c.emit, c.emit] at hem
    simpa using hem
  subst this
  exact ⟨(c.cdc_ok hc).fmt.emit, (c.emitSize hS).pays⟩

/-- C78 for the codecs of 128 bit symbols. -/
theorem C78_128 (unb packed : Bool) (cpu : Cpu) :
    RunsPay 16 noMore (cdc128 unb packed).start (fmt128 unb packed).hdr ((cdc128 unb packed).compress cpu) := by
  refine (cdc128_ok unb packed).pays (emitEnd := (cdc128 unb packed).emitEnd) cpu ((cdc128_ok unb packed).scan cpu) ?_ (fun _ _ _ _ _ => rfl)
  intro em hem
  have : em = (x128 unb packed).emit := by
    change em ∈ [(x128 unb packed).emit, (x128 unb packed).emit] at hem
    simpa using hem
  subst this
  exact ⟨(cdc128_ok unb packed).fmt.emit, ((x128 unb packed).emitSize (Nat.le_refl 16)).pays⟩

theorem SlCfg.emit_pays (c : SlCfg) (hc : c.valid) : EmitPays (twoEmit c.S c.emit) (Lut.ok c.N c.S) c.S c.unb (slMore c.N c.S) := by
  intro lut sym cnt lits bytes lut' hP hl hu he
  unfold twoEmit at he
  split at he
  · next h2 =>
    obtain ⟨rfl, h3, h4⟩ := c.emit_len hl he
    refine ⟨use_ok' hc hP hl, Nat.le_trans h3 ?_⟩
    have e1 := ext_le 127 (c.stored cnt)
    have e2 := ext_le c.tinyR (lits + 2)
    have hS := c.valid_S hc
    have hs := c.stored_le cnt
    have hR := c.tinyR_eq
    obtain ⟨hN, hS', _⟩ := hc
    simp only [List.mem_cons, List.not_mem_nil, or_false] at hS' hN
    unfold long pen at h4
    unfold slMore
    generalize c.N = N at *
    generalize c.stored cnt = sc at *
    generalize c.tinyR = R at *
    have hR' : R = 127 ∧ N = 3 ∨ R = 63 ∧ N = 7 := by split at hR <;> omega
    clear hR
    generalize (extOf 127 sc).length = x1 at *
    generalize (extOf R (lits + 2)).length = x2 at *
    generalize lut.find sym = idx at *
    generalize c.S = S at *
    by_cases hbig : 127 < sc
    · rw [if_neg (by omega)] at e1
      split at e1 <;> split at e2 <;> (try split at e2) <;> split <;> omega
    · rw [if_pos (by omega)] at e1
      clear h3 he hP hl hu hs
      rw [if_pos (show sc ≤ 0xFFFFF by omega), if_pos (show sc ≤ 127 by omega)] at h4
      rcases hR' with ⟨rfl, rfl⟩ | ⟨rfl, rfl⟩ <;> rcases hS' with rfl | rfl | rfl | rfl | rfl | rfl <;> simp at * <;>
      split at e2 <;> (try split at e2) <;> (repeat' split at h4) <;> (repeat' split) <;> omega
  · cases he

/-- C78 for the codecs with a table of 3 or 7 symbols, as far as it holds: only runs far behind the previous one can cost more than they
have. Missing: these runs (`C78_symlut_violated`). -/
theorem C78_symlut_partial (c : SlCfg) (hc : c.valid) (cpu : Cpu) : RunsPay c.S (slMore c.N c.S) c.cdc.start c.hdr (c.compress cpu) := by
  have hS := c.valid_S hc
  by_cases h : c.S = 1
  · refine (c.cdc_ok hc).pays (emitEnd := c.cdc.emitEnd) cpu ((c.cdc_ok hc).scan cpu) ?_ (fun _ _ _ _ _ => rfl)
    intro em hem
    have : em = c.emit := by
      change em ∈ [c.emit, c.emit] at hem
      simpa using hem
    subst this
    refine ⟨(c.cdc_ok hc).fmt.emit, ?_⟩
    intro lut sym cnt lits bytes lut' hP hl hu he
    refine c.emit_pays hc lut sym cnt lits bytes lut' hP hl hu ?_
    have := (c.emit_len hl he).2.2
    unfold twoEmit
    change sym.length = c.S at hl
    rw [if_pos (by unfold SlCfg.long at this; omega), he]
  · exact (c.cdc_ok hc).pays_two (W := c.encW cpu) cpu (c.valid_S hc).1 (by
        unfold SlCfg.encW; rw [if_neg h]; show _ ∨ c.S < _; repeat' split
        all_goals omega)
      (by show (if c.S = 1 then _ else _) = _; rw [if_neg h]; exact c.runI hc.2.1 h c.fmt cpu) rfl
      (c.emit_pays hc) (c.emit_pays hc)

/-- C78 for the codecs with a table of 3 or 7 symbols of 48 and 64 bits: no record takes more bytes than its run has. -/
theorem C78_symlut_wide (c : SlCfg) (hc : c.valid) (h : c.S = 6 ∨ c.S = 8) (cpu : Cpu) :
    RunsPay c.S noMore c.cdc.start c.hdr (c.compress cpu) := by
  have : slMore c.N c.S = noMore := by
    funext l
    unfold slMore noMore
    rw [if_pos h]
  rw [← this]
  exact C78_symlut_partial c hc cpu

/-- C78 for the short codecs, except that runs behind 65534 literals or more may cost one byte more than they have. -/
theorem C78_short_partial (c : ShCfg) (hc : c.valid) (cpu : Cpu) : RunsPay c.S (moreFrom 65534 1) c.cdc.start c.hdr (c.compress cpu) := by
  refine (c.cdc_ok hc).pays (emitEnd := c.cdc.emitEnd) cpu ((c.cdc_ok hc).scan cpu) ?_ (fun _ _ _ _ _ => rfl)
  intro em hem
  have : em = c.emit := by
    change em ∈ [c.emit, c.emit] at hem
    simpa using hem
  subst this
  exact ⟨(c.cdc_ok hc).fmt.emit, (c.emit_grow hc).pays⟩

/-- C78 for the short codecs of 64 bit symbols, and of 32 bit symbols counted as a whole, with the ordinary encoder: no record takes more bytes
than its run has. -/
theorem C78_short_two (c : ShCfg) (hc : c.valid) (hm : c.mode = .normal) (h : c.S = 8 ∨ c.S = 4 ∧ c.unb = false) (cpu : Cpu) :
    RunsPay c.S noMore c.cdc.start c.hdr (c.compress cpu) := by
  have h0 : c.growE = 0 := by unfold ShCfg.growE; rw [if_pos ⟨hm, h⟩]
  have h1 : c.S ≠ 1 := by omega
  have hns : c.mode ≠ .single := by rw [hm]; decide
  have hp : EmitPays (twoEmit c.S c.emit) (Lut.ok c.tab c.S) c.S c.unb noMore := by
    intro lut sym cnt lits bytes lut' hP hl hu he
    obtain ⟨g1, g2⟩ := c.emit_two hc h0 lut sym cnt lits bytes lut' hP hl hu he
    exact ⟨g1, by unfold noMore; omega⟩
  exact (c.cdc_ok hc).pays_two (W := SlCfg.encW ⟨c.N, c.S, c.unb⟩ cpu) cpu (c.valid_S hc).1
    (by
      unfold SlCfg.encW; rw [if_neg h1]; show _ ∨ c.S < _; repeat' split
      all_goals omega)
    (by show c.run cpu = _; unfold ShCfg.run; rw [hm]; simp only [if_neg h1]; exact SlCfg.runI ⟨c.N, c.S, c.unb⟩ hc.2.1 h1 c.fmt cpu)
    (c.first_normal hns) hp hp

/-- C78 for the 8 bit codecs, as far as it holds: only runs behind 255 literals or more can cost more than they have, by at most 4 bytes
(rle8_packed_single), 2 (rle8_single), 1 (rle8_multi) or none (rle8_packed_multi). Missing: these runs (`C78_rle8_violated`). -/
theorem C78_rle8_partial (c : R8Cfg) (cpu : Cpu) :
    RunsPay 1 (moreFrom 255 (if c.single then if c.packed then 4 else 2 else if c.packed then 0 else 1)) R8Cfg.start (R8Cfg.hdr c.packed)
      (c.compress cpu) := by
  refine c.cdc_ok.pays (emitEnd := c.cdc.emitEnd) cpu (c.cdc_ok.scan cpu) ?_ (fun _ _ _ _ _ => rfl)
  intro em hem
  refine ⟨?_, ?_⟩
  · rcases List.mem_cons.mp hem with rfl | hem
    · exact c.cdc_ok.emitEnd
    · rcases List.mem_cons.mp hem with rfl | hem
      · exact c.cdc_ok.fmt.emit
      · exact c.cdc_ok.extra _ hem
  · change em ∈ [c.emitT, c.emit, c.emitT, c.emitF] at hem
    simp only [List.mem_cons, List.not_mem_nil, or_false] at hem
    rcases hem with rfl | rfl | rfl | rfl
    · exact c.emitT_grow.pays
    · exact c.emit_grow.pays
    · exact c.emitT_grow.pays
    · exact c.emitF_grow.pays

/-- C78 for rle8_packed_multi: no record takes more bytes than its run has. -/
theorem C78_packed_multi (cpu : Cpu) : RunsPay 1 noMore R8Cfg.start (R8Cfg.hdr true) (R8Cfg.compress ⟨false, true⟩ cpu) := by
  have : moreFrom 255 0 = noMore := by
    funext l
    unfold moreFrom noMore
    split <;> rfl
  rw [← this]
  exact C78_rle8_partial ⟨false, true⟩ cpu

/-! ### The runs that do not pay -/

/-- The first record of a stream, as its decompressor reads it: literals, length of the run, bytes without the literals. -/
def firstCost {σ : Type} (start : List Byte → Option (Option (σ × List Byte))) (hdr : σ → List Byte → Option (Hdr σ)) (r : CRes) :
    Option (Nat × Nat × Nat) :=
  match r with
  | .ok _ out =>
    match start (out.drop 8) with
    | some (some (fs, src)) =>
      match hdr fs src with
      | some (.go l _ (some c) _ t) => some (l, c, src.length - t.length)
      | _ => none
    | _ => none
  | _ => none

theorem RunsPay.first {σ : Type} {S : Nat} {more : Nat → Nat} {start : List Byte → Option (Option (σ × List Byte))}
    {hdr : σ → List Byte → Option (Hdr σ)} {comp : Compress} (h : RunsPay S more start hdr comp) {inp : Mem} {n outSize l c k : Nat}
    (hn : n ≤ maxInput) (hc : firstCost start hdr (comp (some inp) n true outSize) = some (l, c, k)) : k ≤ c + more l := by
  unfold firstCost at hc
  split at hc
  · next ret out ho =>
    split at hc
    · next fs src h1 =>
      split at hc
      · next l' s c' f t h2 =>
        simp only [Option.some.injEq, Prod.mk.injEq] at hc
        obtain ⟨rfl, rfl, rfl⟩ := hc
        obtain ⟨fs', src', rs, e, e', rest, T, g1, g2, g3, -⟩ := h inp n outSize ret out hn ho
        rw [h1] at g1
        cases g1
        cases rs with
        | nil =>
          obtain ⟨rfl, rfl⟩ := g2
          rw [LastPiece, h2] at g3
          rcases g3 with ⟨-, g | ⟨l, g⟩⟩ | ⟨s, f, t, g⟩
          · cases g
          · cases g
          · simp at g
        | cons r rs =>
          obtain ⟨f', t', k1, k2, -⟩ := g2
          rw [h2] at k1
          simp only [Option.some.injEq, Hdr.go.injEq] at k1
          obtain ⟨q1, -, q2, -, q3⟩ := k1
          rw [← q1, ← q3] at k2
          omega
      · cases hc
    · cases hc
  · cases hc

/-- `L` bytes without a 0, then pieces of `k` zeroes with another byte in between. -/
def farInp (L k : Nat) : Mem := fun i => if i < L then b8 (1 + i % 200) else if (i - L) % (k + 1) < k then 0 else 7

/-- C78, the 8 bit codecs: what `C78_rle8_partial` allows behind 255 literals is needed. -/
theorem C78_rle8_violated (c : R8Cfg) (more : Nat → Nat)
    (h : more 255 < if c.single then if c.packed then 4 else 2 else if c.packed then 0 else 1) :
    ¬ RunsPay 1 more R8Cfg.start (R8Cfg.hdr c.packed) (c.compress noSimd) := by
  intro hp
  obtain ⟨single, packed⟩ := c
  have hn : 300 ≤ maxInput := by decide
  cases single <;> cases packed <;> simp at h
  · have := hp.first (inp := farInp 255 6) (outSize := 1000) (l := 255) (c := 6) (k := 7) hn (by decide +kernel)
    omega
  · have := hp.first (inp := farInp 255 4) (outSize := 1000) (l := 255) (c := 4) (k := 6) hn (by decide +kernel)
    omega
  · have := hp.first (inp := farInp 255 2) (outSize := 1000) (l := 255) (c := 2) (k := 6) hn (by decide +kernel)
    omega

/-- `L` different bytes, then six of the value 250, then others. -/
def farSix (L : Nat) : Mem := fun i => if i < L then b8 i else if i < L + 6 then 250 else b8 (i - 6)

/-- C78, the codecs with a table, 24 bit symbols: what `C78_symlut_partial` allows behind 126 or 62 literals is needed. -/
theorem C78_symlut_violated (c : SlCfg) (hc : c.valid) (hS : c.S = 3) (more : Nat → Nat) (h : more (if c.N = 3 then 126 else 62) = 0) :
    ¬ RunsPay c.S more c.cdc.start c.hdr (c.compress noSimd) := by
  intro hp
  obtain ⟨N, S, unb⟩ := c
  have hN := hc.1
  simp only [List.mem_cons, List.not_mem_nil, or_false] at hN hS
  subst hS
  rcases hN with rfl | rfl <;> simp at h
  · have := hp.first (inp := farSix 126) (n := 140) (outSize := 1000) (l := 126) (c := 6) (k := 7) (by decide)
      (by cases unb <;> decide +kernel)
    omega
  · have := hp.first (inp := farSix 62) (n := 76) (outSize := 1000) (l := 62) (c := 6) (k := 7) (by decide)
      (by cases unb <;> decide +kernel)
    omega

/-! ### Concrete cases -/

/-- The record `[38, 9, 9, 6, 1, 2]` has a run of 40 bytes, which pays for its four bytes. -/
example : ∃ f, PaysRecs noMore (XCfg.fmt ⟨2, true, true⟩).hdr (XCfg.fmt ⟨2, true, true⟩).init ([38, 9, 9, 6] ++ [1, 2])
    [⟨[1, 2], [9, 9], 40⟩] f [] := ⟨_, _, _, rfl, by decide, rfl, rfl⟩

/-- A codec that stored the same run of 9 two bytes at a time would not: the record of two bytes takes four. -/
example : ¬ ∃ f, PaysRecs noMore (XCfg.fmt ⟨2, true, true⟩).hdr (XCfg.fmt ⟨2, true, true⟩).init ([0, 9, 9, 6] ++ [1, 2])
    [⟨[1, 2], [9, 9], 2⟩] f [] := by
  rintro ⟨f, g, t, -, h, -, rfl⟩
  simp [noMore] at h

/-- A run that pays in the 8 bit codec: behind 20 literals six bytes take three. -/
example : firstCost R8Cfg.start (R8Cfg.hdr false) (R8Cfg.compress ⟨false, false⟩ noSimd (some (farInp 20 6)) 60 true 1000) = some (20, 6, 3) := by
  decide +kernel

/-- All valid codecs that the theorems speak of exist. -/
example : (XCfg.valid ⟨2, true, true⟩) ∧ (SlCfg.valid ⟨7, 3, false⟩) ∧ (ShCfg.valid ⟨7, 8, true, .normal⟩) ∧
    ShCfg.mode ⟨7, 8, true, .normal⟩ = .normal := by decide

end Hrk
