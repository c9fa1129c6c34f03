import Verif.CliSpec

/-
Lemmas on the command line of the benchmark tool: each option is read as a unit, and the tests of
`CodecMatchesArgs` are tests of the features of a codec.
-/

namespace Hrk.Cli

/-! ### Proof: one option -/

/-- What the parser does with an option. -/
def Opt.apply (hw : Hw) (atoi : String → Int) (o : Opt) (s : St) : Option St :=
  match o with
  | .test => some { s with isTestRun := true, noDelays := true }
  | .sd => some { s with showStdDev := true }
  | .fuzzIterative => some { s with fuzzing := true, fuzzingIterative := true }
  | .fuzzRandom => some { s with fuzzing := true, fuzzingIterative := false }
  | .analyze => some { s with analyze := true }
  | .maxSimd l => (Cli.maxSimd l.word (detect hw s.flags).on).map fun on =>
      { s with flags := { detect hw s.flags with on := on } }
  | .runs v => if atoi v < 0 then none else if atoi v = 0 then some { s with runs := 1, noDelays := true }
      else some { s with runs := atoi v }
  | .minTime v => if atoi v < 0 then none else some { s with minSeconds := atoi v }
  | .family .extreme => some { s with args := { s.args with hasMode := true, isModeExtreme := true } }
  | .family .lowEntropy => some { s with args := { s.args with hasMode := true, isModeLowEntropy := true } }
  | .family .sh => some { s with args := { s.args with hasMode := true, isModeSH := true } }
  | .family .rleMmtf => some { s with args := { s.args with hasMode := true, isModeRleMMTF := true } }
  | .family .mmtf => some { s with args := { s.args with hasMode := true, isModeMMTF := true } }
  | .lowEntropyShort =>
    some { s with args := { s.args with hasMode := true, isModeLowEntropy := true, hasShortMode := true, isShortMode := true } }
  | .single b => if s.args.hasSingleMode then none
    else some { s with args := { s.args with hasSingleMode := true, isSingleMode := b } }
  | .short b => if s.args.hasShortMode then none
    else some { s with args := { s.args with hasShortMode := true, isShortMode := b } }
  | .greedy b => if s.args.hasGreedyMode then none
    else some { s with args := { s.args with hasGreedyMode := true, isGreedy := b } }
  | .byteAligned b => if s.args.hasAlignment then none
    else some { s with args := { s.args with hasAlignment := true, isAlignmentByte := b } }
  | .packed b => if s.args.hasPackedMode then none
    else some { s with args := { s.args with hasPackedMode := true, isPacked := b } }
  | .size v => if s.args.hasBitCount then none
    else (sizeArg v).map fun k => { s with args := { s.args with hasBitCount := true, bitCount := k } }
  | .lut v => if s.args.hasLutSize then none
    else (lutArg v).map fun k => { s with args := { s.args with hasLutSize := true, lutSize := k } }

theorem parse_one (hw : Hw) (atoi : String → Int) (w : String) (rest : List String) (s : St) (r : Option St)
    (h : ∀ v, arg hw atoi w v s = r.map fun x => (x, 1)) :
    parse hw atoi (w :: rest) s = r.bind (parse hw atoi rest) := by
  cases rest with
  | nil => rw [parse, h]; cases r <;> rfl
  | cons v t => rw [parse, h]; cases r <;> simp

theorem parse_two (hw : Hw) (atoi : String → Int) (w v : String) (rest : List String) (s : St) (r : Option St)
    (h : arg hw atoi w (some v) s = r.map fun x => (x, 2)) :
    parse hw atoi (w :: v :: rest) s = r.bind (parse hw atoi rest) := by
  rw [parse, h]; cases r <;> simp

theorem parse_words (hw : Hw) (atoi : String → Int) (o : Opt) (rest : List String) (s : St) :
    parse hw atoi (o.words ++ rest) s = (o.apply hw atoi s).bind (parse hw atoi rest) := by
  cases o with
  | family f => cases f <;> exact parse_one hw atoi _ _ _ _ (fun v => by simp [arg, Opt.apply])
  | single b => cases b <;> exact parse_one hw atoi _ _ _ _ (fun v => by simp [arg, Opt.apply]; try split <;> simp)
  | short b => cases b <;> exact parse_one hw atoi _ _ _ _ (fun v => by simp [arg, Opt.apply]; try split <;> simp)
  | greedy b => cases b <;> exact parse_one hw atoi _ _ _ _ (fun v => by simp [arg, Opt.apply]; try split <;> simp)
  | byteAligned b => cases b <;> exact parse_one hw atoi _ _ _ _ (fun v => by simp [arg, Opt.apply]; try split <;> simp)
  | packed b => cases b <;> exact parse_one hw atoi _ _ _ _ (fun v => by simp [arg, Opt.apply]; try split <;> simp)
  | maxSimd l => exact parse_two hw atoi _ _ _ _ _ (by simp [arg, Opt.apply, Function.comp_def])
  | runs v => exact parse_two hw atoi _ _ _ _ _ (by simp [arg, Opt.apply]; split <;> (try split) <;> simp)
  | minTime v => exact parse_two hw atoi _ _ _ _ _ (by simp [arg, Opt.apply]; split <;> simp)
  | size v => exact parse_two hw atoi _ _ _ _ _ (by simp [arg, Opt.apply]; split <;> simp [Function.comp_def])
  | lut v => exact parse_two hw atoi _ _ _ _ _ (by simp [arg, Opt.apply]; split <;> simp [Function.comp_def])
  | _ => exact parse_one hw atoi _ _ _ _ (fun v => by simp [arg, Opt.apply])

theorem maxSimd_word {v : String} {on on' : Feat → Bool} (h : Cli.maxSimd v on = some on') : ∃ l : Simd, l.word = v := by
  by_cases h0 : v = "avx512f"
  · exact ⟨.avx512f, by rw [h0]; rfl⟩
  by_cases h1 : v = "avx2"
  · exact ⟨.avx2, by rw [h1]; rfl⟩
  by_cases h2 : v = "avx"
  · exact ⟨.avx, by rw [h2]; rfl⟩
  by_cases h3 : v = "sse4.2"
  · exact ⟨.sse42, by rw [h3]; rfl⟩
  by_cases h4 : v = "sse4.1"
  · exact ⟨.sse41, by rw [h4]; rfl⟩
  by_cases h5 : v = "ssse3"
  · exact ⟨.ssse3, by rw [h5]; rfl⟩
  by_cases h6 : v = "sse3"
  · exact ⟨.sse3, by rw [h6]; rfl⟩
  by_cases h7 : v = "sse2"
  · exact ⟨.sse2, by rw [h7]; rfl⟩
  by_cases h8 : v = "none"
  · exact ⟨.none, by rw [h8]; rfl⟩
  simp [Cli.maxSimd, h0, h1, h2, h3, h4, h5, h6, h7, h8] at h

/-- Every accepted command line is a sequence of options. -/
theorem arg_opt {hw : Hw} {atoi : String → Int} {w : String} {v : Option String} {s s' : St} {used : Nat}
    (h : arg hw atoi w v s = some (s', used)) :
    (used = 1 ∧ ∃ o : Opt, o.words = [w]) ∨ (used = 2 ∧ ∃ (o : Opt) (x : String), v = some x ∧ o.words = [w, x]) := by
  have one : ∀ {o : Opt} {x : St} (_ : o.words = [w]), some (x, 1) = some (s', used) →
      (used = 1 ∧ ∃ o : Opt, o.words = [w]) ∨
        (used = 2 ∧ ∃ (o : Opt) (x : String), v = some x ∧ o.words = [w, x]) :=
    fun {o x} ho e => by
      simp only [Option.some.injEq, Prod.mk.injEq] at e
      exact Or.inl ⟨e.2.symm, o, ho⟩
  have two : ∀ {o : String → Opt} {x : St} (_ : v.isSome) (_ : (o (v.getD "")).words = [w, v.getD ""]),
      some (x, 2) = some (s', used) →
      (used = 1 ∧ ∃ o : Opt, o.words = [w]) ∨
        (used = 2 ∧ ∃ (o : Opt) (x : String), v = some x ∧ o.words = [w, x]) :=
    fun {o x} hv ho e => by
      simp only [Option.some.injEq, Prod.mk.injEq] at e
      obtain ⟨y, rfl⟩ := Option.isSome_iff_exists.mp hv
      exact Or.inr ⟨e.2.symm, o y, y, rfl, ho⟩
  unfold arg at h
  by_cases hc : w = "--test"
  · rw [if_pos hc] at h
    exact one (o := .test) (by rw [hc]; rfl) h
  rw [if_neg hc] at h
  clear hc
  by_cases hc : w = "--sd"
  · rw [if_pos hc] at h
    exact one (o := .sd) (by rw [hc]; rfl) h
  rw [if_neg hc] at h
  clear hc
  by_cases hc : w = "--fuzz-iterative"
  · rw [if_pos hc] at h
    exact one (o := .fuzzIterative) (by rw [hc]; rfl) h
  rw [if_neg hc] at h
  clear hc
  by_cases hc : w = "--fuzz-random"
  · rw [if_pos hc] at h
    exact one (o := .fuzzRandom) (by rw [hc]; rfl) h
  rw [if_neg hc] at h
  clear hc
  by_cases hc : w = "--max-simd" ∧ v.isSome
  · rw [if_pos hc] at h
    obtain ⟨on, h1, h2⟩ := Option.map_eq_some_iff.mp h
    obtain ⟨l, hl⟩ := maxSimd_word h1
    exact two (o := fun _ => .maxSimd l) hc.2 (by simp [Opt.words, hl, hc.1]) (congrArg some h2)
  rw [if_neg hc] at h
  clear hc
  by_cases hc : w = "--runs" ∧ v.isSome
  · rw [if_pos hc] at h
    dsimp only at h
    split at h
    · cases h
    split at h
    · exact two (o := .runs) hc.2 (by simp [Opt.words, hc.1]) h
    · exact two (o := .runs) hc.2 (by simp [Opt.words, hc.1]) h
  rw [if_neg hc] at h
  clear hc
  by_cases hc : w = "--min-time" ∧ v.isSome
  · rw [if_pos hc] at h
    dsimp only at h
    split at h
    · cases h
    · exact two (o := .minTime) hc.2 (by simp [Opt.words, hc.1]) h
  rw [if_neg hc] at h
  clear hc
  by_cases hc : w = "--low-entropy"
  · rw [if_pos hc] at h
    exact one (o := .family .lowEntropy) (by rw [hc]; rfl) h
  rw [if_neg hc] at h
  clear hc
  by_cases hc : w = "--single"
  · rw [if_pos hc] at h
    split at h
    · cases h
    · exact one (o := .single true) (by rw [hc]; rfl) h
  rw [if_neg hc] at h
  clear hc
  by_cases hc : w = "--multi"
  · rw [if_pos hc] at h
    split at h
    · cases h
    · exact one (o := .single false) (by rw [hc]; rfl) h
  rw [if_neg hc] at h
  clear hc
  by_cases hc : w = "--short"
  · rw [if_pos hc] at h
    split at h
    · cases h
    · exact one (o := .short true) (by rw [hc]; rfl) h
  rw [if_neg hc] at h
  clear hc
  by_cases hc : w = "--not-short"
  · rw [if_pos hc] at h
    split at h
    · cases h
    · exact one (o := .short false) (by rw [hc]; rfl) h
  rw [if_neg hc] at h
  clear hc
  by_cases hc : w = "--greedy"
  · rw [if_pos hc] at h
    split at h
    · cases h
    · exact one (o := .greedy true) (by rw [hc]; rfl) h
  rw [if_neg hc] at h
  clear hc
  by_cases hc : w = "--not-greedy"
  · rw [if_pos hc] at h
    split at h
    · cases h
    · exact one (o := .greedy false) (by rw [hc]; rfl) h
  rw [if_neg hc] at h
  clear hc
  by_cases hc : w = "--low-entropy-short"
  · rw [if_pos hc] at h
    exact one (o := .lowEntropyShort) (by rw [hc]; rfl) h
  rw [if_neg hc] at h
  clear hc
  by_cases hc : w = "--extreme"
  · rw [if_pos hc] at h
    exact one (o := .family .extreme) (by rw [hc]; rfl) h
  rw [if_neg hc] at h
  clear hc
  by_cases hc : w = "--x-size" ∧ v.isSome
  · rw [if_pos hc] at h
    split at h
    · cases h
    · obtain ⟨k, _, h2⟩ := Option.map_eq_some_iff.mp h
      exact two (o := .size) hc.2 (by simp [Opt.words, hc.1]) (congrArg some h2)
  rw [if_neg hc] at h
  clear hc
  by_cases hc : w = "--lut-size" ∧ v.isSome
  · rw [if_pos hc] at h
    split at h
    · cases h
    · obtain ⟨k, _, h2⟩ := Option.map_eq_some_iff.mp h
      exact two (o := .lut) hc.2 (by simp [Opt.words, hc.1]) (congrArg some h2)
  rw [if_neg hc] at h
  clear hc
  by_cases hc : w = "--byte-aligned"
  · rw [if_pos hc] at h
    split at h
    · cases h
    · exact one (o := .byteAligned true) (by rw [hc]; rfl) h
  rw [if_neg hc] at h
  clear hc
  by_cases hc : w = "--symbol-aligned"
  · rw [if_pos hc] at h
    split at h
    · cases h
    · exact one (o := .byteAligned false) (by rw [hc]; rfl) h
  rw [if_neg hc] at h
  clear hc
  by_cases hc : w = "--packed"
  · rw [if_pos hc] at h
    split at h
    · cases h
    · exact one (o := .packed true) (by rw [hc]; rfl) h
  rw [if_neg hc] at h
  clear hc
  by_cases hc : w = "--not-packed"
  · rw [if_pos hc] at h
    split at h
    · cases h
    · exact one (o := .packed false) (by rw [hc]; rfl) h
  rw [if_neg hc] at h
  clear hc
  by_cases hc : w = "--mmtf"
  · rw [if_pos hc] at h
    exact one (o := .family .mmtf) (by rw [hc]; rfl) h
  rw [if_neg hc] at h
  clear hc
  by_cases hc : w = "--sh"
  · rw [if_pos hc] at h
    exact one (o := .family .sh) (by rw [hc]; rfl) h
  rw [if_neg hc] at h
  clear hc
  by_cases hc : w = "--rle-mmtf"
  · rw [if_pos hc] at h
    exact one (o := .family .rleMmtf) (by rw [hc]; rfl) h
  rw [if_neg hc] at h
  clear hc
  by_cases hc : w = "--analyze"
  · rw [if_pos hc] at h
    exact one (o := .analyze) (by rw [hc]; rfl) h
  rw [if_neg hc] at h
  cases h

theorem parse_opts (hw : Hw) (atoi : String → Int) : ∀ (n : Nat) (ws : List String) (s s' : St), ws.length ≤ n →
    parse hw atoi ws s = some s' → ∃ os : List Opt, ws = os.flatMap Opt.words
  | _, [], _, _, _, _ => ⟨[], rfl⟩
  | 0, _ :: _, _, _, hn, _ => absurd hn (by simp)
  | n + 1, [w], s, s', _, h => by
    rw [parse] at h
    obtain ⟨⟨s1, used⟩, h1, _⟩ := Option.map_eq_some_iff.mp h
    rcases arg_opt h1 with ⟨_, o, ho⟩ | ⟨_, o, x, hx, _⟩
    · exact ⟨[o], by simp [ho]⟩
    · cases hx
  | n + 1, w :: v :: rest, s, s', hn, h => by
    rw [parse] at h
    split at h
    · cases h
    · rename_i s1 used h1
      simp only [List.length_cons] at hn
      rcases arg_opt h1 with ⟨hu, o, ho⟩ | ⟨hu, o, x, hx, ho⟩
      · rw [if_neg (by omega)] at h
        obtain ⟨os, e⟩ := parse_opts hw atoi n (v :: rest) s1 s' (by simp; omega) h
        exact ⟨o :: os, by simp [ho, ← e]⟩
      · rw [if_pos hu] at h
        obtain ⟨os, e⟩ := parse_opts hw atoi n rest s1 s' (by omega) h
        cases hx
        exact ⟨o :: os, by simp [ho, ← e]⟩

/-- All options one after the other. -/
def applyAll (hw : Hw) (atoi : String → Int) : List Opt → St → Option St
  | [], s => some s
  | o :: os, s => (o.apply hw atoi s).bind (applyAll hw atoi os)

theorem parse_all (hw : Hw) (atoi : String → Int) (os : List Opt) (s : St) :
    parse hw atoi (os.flatMap Opt.words) s = applyAll hw atoi os s := by
  induction os generalizing s with
  | nil => simp [parse, applyAll]
  | cons o os ih =>
    rw [List.flatMap_cons, parse_words, applyAll]
    cases o.apply hw atoi s <;> simp [ih]

/-! ### Proof: the features -/

theorem codec_forall (p : CodecT → Bool) (h : (List.range 121).all (fun i => p (CodecT.ofNat i)) = true) (c : CodecT) :
    p c = true := by
  have h1 := List.all_eq_true.mp h c.ctorIdx (List.mem_range.mpr (by cases c <;> decide))
  rwa [CodecT.ofNat_ctorIdx] at h1

/-- The same by position. -/
def whatT (c : CodecT) : What :=
  match ((table.map fun r => What.rle r.comp) ++ rest.map (·.2))[c.ctorIdx]? with
  | some w => w
  | none => .copy

theorem what_eq (c : CodecT) : what c = whatT c := by
  have := codec_forall (fun c => decide (what c = whatT c)) (by decide +kernel) c
  simpa using this

theorem alignOk_eq (b : Bool) (c : CodecT) : alignOk b c = decide ((what c).byteAligned = some b) := by
  rw [what_eq]
  have := codec_forall (fun c => [true, false].all fun b => alignOk b c == decide ((whatT c).byteAligned = some b))
    (by decide +kernel) c
  cases b <;> simp_all

theorem singleOk_eq (b : Bool) (c : CodecT) : singleOk b c = decide ((what c).single = some b) := by
  rw [what_eq]
  have := codec_forall (fun c => [true, false].all fun b => singleOk b c == decide ((whatT c).single = some b))
    (by decide +kernel) c
  cases b <;> simp_all

theorem packedOk_eq (b : Bool) (c : CodecT) : packedOk b c = decide ((what c).packed = b) := by
  rw [what_eq]
  have := codec_forall (fun c => [true, false].all fun b => packedOk b c == decide ((whatT c).packed = b))
    (by decide +kernel) c
  cases b <;> simp_all

theorem shortOk_eq (b : Bool) (c : CodecT) : shortOk b c = decide ((what c).short = b) := by
  rw [what_eq]
  have := codec_forall (fun c => [true, false].all fun b => shortOk b c == decide ((whatT c).short = b))
    (by decide +kernel) c
  cases b <;> simp_all

theorem greedyOk_eq (b : Bool) (c : CodecT) : greedyOk b c = decide ((what c).greedy = b) := by
  rw [what_eq]
  have := codec_forall (fun c => [true, false].all fun b => greedyOk b c == decide ((whatT c).greedy = b))
    (by decide +kernel) c
  cases b <;> simp_all

theorem lutOk_eq (n : Nat) (c : CodecT) : lutOk n c = decide ((what c).lut = n) := by
  rw [what_eq]
  have h1 : lutOk n c = (n == if lutOk 0 c then 0 else if lutOk 1 c then 1 else if lutOk 3 c then 3 else 7) := by
    cases c <;> rfl
  have h2 := codec_forall
    (fun c => (if lutOk 0 c then 0 else if lutOk 1 c then 1 else if lutOk 3 c then 3 else 7) == (whatT c).lut) (by decide +kernel) c
  rw [h1, beq_iff_eq.mp h2]
  by_cases e : (whatT c).lut = n
  · simp [e]
  · simp [e, Ne.symm e]

theorem bitsOk_eq (n : Nat) (c : CodecT) : bitsOk n c = decide ((what c).bits = some n) := by
  rw [what_eq]
  have h1 : bitsOk n c = (some n == if bitsOk 8 c then some 8 else if bitsOk 16 c then some 16 else if bitsOk 24 c then some 24
      else if bitsOk 32 c then some 32 else if bitsOk 48 c then some 48 else if bitsOk 64 c then some 64
      else if bitsOk 128 c then some 128 else if bitsOk 256 c then some 256 else none) := by
    cases c <;> rfl
  have h2 := codec_forall
    (fun c => (if bitsOk 8 c then some 8 else if bitsOk 16 c then some 16 else if bitsOk 24 c then some 24
      else if bitsOk 32 c then some 32 else if bitsOk 48 c then some 48 else if bitsOk 64 c then some 64
      else if bitsOk 128 c then some 128 else if bitsOk 256 c then some 256 else none) == (whatT c).bits) (by decide +kernel) c
  rw [h1, beq_iff_eq.mp h2]
  by_cases e : (whatT c).bits = some n
  · simp [e]
  · simp [e, Ne.symm e]

/-- The tests of `modeOk` one by one. -/
theorem modeOk_eq (a : Args) (c : CodecT) : modeOk a c = decide (
    (a.isModeExtreme = true → (what c).family = some .extreme) ∧ (a.isModeLowEntropy = true → (what c).family = some .lowEntropy) ∧
    (a.isModeMMTF = true → (what c).family = some .mmtf) ∧ (a.isModeSH = true → (what c).family = some .sh) ∧
    (a.isModeRleMMTF = true → (what c).family = some .rleMmtf)) := by
  simp only [what_eq]
  have h := codec_forall (fun c =>
    ((decide (c.ctorIdx > CodecT.Extreme128BytePacked.ctorIdx) || decide (c.ctorIdx < CodecT.Extreme8.ctorIdx))
      == decide ((whatT c).family ≠ some .extreme)) &&
    ((decide (c.ctorIdx < CodecT.LowEntropy.ctorIdx) || decide (c.ctorIdx > CodecT.LowEntropyShortSingle.ctorIdx))
      == decide ((whatT c).family ≠ some .lowEntropy)) &&
    ((c != .MultiMTF128 && c != .MultiMTF256 && c != .BitMultiMTF8 && c != .BitMultiMTF16)
      == decide ((whatT c).family ≠ some .mmtf)) &&
    ((c != .Rle8SH) == decide ((whatT c).family ≠ some .sh)) &&
    ((c != .Extreme8MultiMTF128) == decide ((whatT c).family ≠ some .rleMmtf))) (by decide +kernel) c
  simp only [Bool.and_eq_true, beq_iff_eq] at h
  obtain ⟨⟨⟨⟨h1, h2⟩, h3⟩, h4⟩, h5⟩ := h
  unfold modeOk
  rw [h1, h2, h3, h4, h5]
  cases a.isModeExtreme <;> cases a.isModeLowEntropy <;> cases a.isModeMMTF <;> cases a.isModeSH <;> cases a.isModeRleMMTF <;>
    simp [Bool.and_assoc]

end Hrk.Cli
