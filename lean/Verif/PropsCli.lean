import Verif.CliLemmas

/-
C42 and C43: which codecs the arguments of the benchmark tool select, and which vector extensions
they leave.
-/

namespace Hrk.Cli

/-! ### Selection -/

/-- No family is remembered unless one was asked for. -/
def ModeInv (a : Args) : Prop :=
  a.hasMode = false → a.isModeExtreme = false ∧ a.isModeLowEntropy = false ∧ a.isModeSH = false ∧
    a.isModeRleMMTF = false ∧ a.isModeMMTF = false

/-- `CodecMatchesArgs` in terms of the features. -/
def Fits (a : Args) (w : What) : Prop :=
  (a.isModeExtreme = true → w.family = some .extreme) ∧ (a.isModeLowEntropy = true → w.family = some .lowEntropy) ∧
  (a.isModeMMTF = true → w.family = some .mmtf) ∧ (a.isModeSH = true → w.family = some .sh) ∧
  (a.isModeRleMMTF = true → w.family = some .rleMmtf) ∧
  (a.hasAlignment = true → w.byteAligned = some a.isAlignmentByte) ∧
  (a.hasSingleMode = true → w.single = some a.isSingleMode) ∧
  (a.hasPackedMode = true → w.packed = a.isPacked) ∧
  (a.hasShortMode = true → w.short = a.isShortMode) ∧
  (a.hasGreedyMode = true → w.greedy = a.isGreedy) ∧
  (a.hasLutSize = true → w.lut = a.lutSize) ∧
  (a.hasBitCount = true → w.bits = some a.bitCount)

theorem matches_iff {a : Args} (h : ModeInv a) (c : CodecT) : codecMatchesArgs a c = true ↔ Fits a (what c) := by
  have hm : (!a.hasMode || modeOk a c) = modeOk a c := by
    cases e : a.hasMode
    · obtain ⟨h1, h2, h3, h4, h5⟩ := h e
      simp [modeOk, h1, h2, h3, h4, h5]
    · simp
  unfold codecMatchesArgs Fits
  rw [hm, modeOk_eq, alignOk_eq, singleOk_eq, packedOk_eq, shortOk_eq, greedyOk_eq, lutOk_eq, bitsOk_eq]
  simp only [Bool.and_eq_true, decide_eq_true_eq, Bool.or_eq_true, Bool.not_eq_true']
  have im : ∀ (b : Bool) (p : Prop), (b = false ∨ p) ↔ (b = true → p) := by
    intro b p; cases b <;> simp
  simp only [im, and_assoc]

theorem selected_eq (a : Args) (c : CodecT) : selected a c = codecMatchesArgs a c := by
  unfold selected
  by_cases h : (a.hasAlignment || a.hasBitCount || a.hasGreedyMode || a.hasLutSize || a.hasMode ||
    a.hasPackedMode || a.hasShortMode || a.hasSingleMode) = true
  · simp only [h]; simp
  · simp only [h]
    simp only [Bool.or_eq_true, not_or, Bool.not_eq_true] at h
    obtain ⟨⟨⟨⟨⟨⟨⟨h1, h2⟩, h3⟩, h4⟩, h5⟩, h6⟩, h7⟩, h8⟩ := h
    simp [codecMatchesArgs, h1, h2, h3, h4, h5, h6, h7, h8]

theorem size_number {v : String} (h : (Opt.size v).documented = true) : sizeArg v = number v ∧ (number v).isSome := by
  simp only [Opt.documented, List.mem_cons, List.not_mem_nil, or_false, decide_eq_true_eq] at h
  rcases h with h | h | h | h | h | h | h | h <;> subst h <;> decide +kernel

theorem lut_number {v : String} (h : (Opt.lut v).documented = true) : lutArg v = number v ∧ (number v).isSome := by
  simp only [Opt.documented, List.mem_cons, List.not_mem_nil, or_false, decide_eq_true_eq] at h
  rcases h with h | h | h | h <;> subst h <;> decide +kernel

theorem apply_inv {hw : Hw} {atoi : String → Int} {o : Opt} {s s' : St} (h : o.apply hw atoi s = some s')
    (hi : ModeInv s.args) : ModeInv s'.args := by
  cases o with
  | family f => cases f <;> simp [Opt.apply] at h <;> subst h <;> simp [ModeInv]
  | maxSimd l => simp [Opt.apply] at h; obtain ⟨_, _, rfl⟩ := h; exact hi
  | runs v =>
    simp [Opt.apply] at h; obtain ⟨_, h⟩ := h
    split at h <;> cases h <;> exact hi
  | _ =>
    simp [Opt.apply] at h
    first
      | (obtain ⟨_, _, _, rfl⟩ := h; exact hi)
      | (obtain ⟨_, rfl⟩ := h; exact hi)
      | (subst h; first | exact hi | simp [ModeInv])

/-- Both directions: take the twelve tests apart and put them together again. -/
local macro "fits_tac" : tactic => `(tactic| (
  constructor
  · rintro ⟨h1, h2, h3, h4, h5, h6, h7, h8, h9, h10, h11, h12⟩
    refine ⟨⟨?_, ?_, ?_, ?_, ?_, ?_, ?_, ?_, ?_, ?_, ?_, ?_⟩, ?_⟩ <;>
      first
        | assumption
        | (intro _; first | exact h1 rfl | exact h2 rfl | exact h3 rfl | exact h4 rfl | exact h5 rfl)
        | (intro hh; exact absurd hh ‹_›)
        | exact h1 rfl | exact h2 rfl | exact h3 rfl | exact h4 rfl | exact h5 rfl | exact h6 rfl | exact h7 rfl
        | exact h8 rfl | exact h9 rfl | exact h10 rfl
        | exact congrArg some (h11 rfl)
        | (rw [h12 rfl]; exact ⟨rfl, rfl⟩)
  · rintro ⟨⟨h1, h2, h3, h4, h5, h6, h7, h8, h9, h10, h11, h12⟩, ha⟩
    refine ⟨?_, ?_, ?_, ?_, ?_, ?_, ?_, ?_, ?_, ?_, ?_, ?_⟩ <;>
      first | assumption | (intro _; first | exact ha | exact Option.some.inj ha | exact ha.2)))

theorem apply_fits {hw : Hw} {atoi : String → Int} {o : Opt} {s s' : St} (h : o.apply hw atoi s = some s')
    (hd : o.documented = true) (hu : o = .lowEntropyShort → s.args.hasShortMode = true → s.args.isShortMode = true) (w : What) :
    Fits s'.args w ↔ Fits s.args w ∧ o.admits w := by
  cases o with
  | family f =>
    cases f <;> simp only [Opt.apply, Option.some.injEq] at h <;> subst h <;> dsimp only [Fits, Opt.admits] <;>
      fits_tac
  | maxSimd l => simp [Opt.apply] at h; obtain ⟨_, _, rfl⟩ := h; simp [Fits, Opt.admits]
  | runs v =>
    simp [Opt.apply] at h; obtain ⟨_, h⟩ := h
    split at h <;> cases h <;> simp [Fits, Opt.admits]
  | minTime v => simp [Opt.apply] at h; obtain ⟨_, rfl⟩ := h; simp [Fits, Opt.admits]
  | lowEntropyShort =>
    have hu := hu rfl
    simp only [Opt.apply, Option.some.injEq] at h
    subst h
    dsimp only [Fits, Opt.admits]
    constructor
    · rintro ⟨h1, h2, h3, h4, h5, h6, h7, h8, h9, h10, h11, h12⟩
      exact ⟨⟨h1, fun _ => h2 rfl, h3, h4, h5, h6, h7, h8, fun e => (hu e).symm ▸ h9 rfl, h10, h11, h12⟩, h2 rfl, h9 rfl⟩
    · rintro ⟨⟨h1, h2, h3, h4, h5, h6, h7, h8, h9, h10, h11, h12⟩, ha, hb⟩
      exact ⟨h1, fun _ => ha, h3, h4, h5, h6, h7, h8, fun _ => hb, h10, h11, h12⟩
  | size v =>
    obtain ⟨h1, h2⟩ := size_number hd
    simp only [Opt.apply, h1, Option.ite_none_left_eq_some, Option.map_eq_some_iff] at h
    obtain ⟨hb, k, hk, rfl⟩ := h
    simp only [Opt.admits, hk]
    dsimp only [Fits]
    fits_tac
  | lut v =>
    obtain ⟨h1, h2⟩ := lut_number hd
    simp only [Opt.apply, h1, Option.ite_none_left_eq_some, Option.map_eq_some_iff] at h
    obtain ⟨hb, k, hk, rfl⟩ := h
    simp only [Opt.admits, hk]
    dsimp only [Fits]
    fits_tac
  | _ =>
    simp only [Opt.apply, Option.ite_none_left_eq_some, Option.some.injEq] at h
    first
      | (obtain ⟨hb, rfl⟩ := h; dsimp only [Fits, Opt.admits]; fits_tac)
      | (subst h; simp [Fits, Opt.admits])

theorem apply_short {hw : Hw} {atoi : String → Int} {o : Opt} {s s' : St} (h : o.apply hw atoi s = some s')
    (hs : s'.args.hasShortMode = true ∧ s'.args.isShortMode = false) :
    (s.args.hasShortMode = true ∧ s.args.isShortMode = false) ∨ o = .short false := by
  cases o with
  | family f => cases f <;> simp [Opt.apply] at h <;> subst h <;> exact Or.inl hs
  | maxSimd l => simp [Opt.apply] at h; obtain ⟨_, _, rfl⟩ := h; exact Or.inl hs
  | runs v =>
    simp [Opt.apply] at h; obtain ⟨_, h⟩ := h
    split at h <;> cases h <;> exact Or.inl hs
  | lowEntropyShort => simp [Opt.apply] at h; subst h; simp at hs
  | short b => simp [Opt.apply] at h; obtain ⟨_, rfl⟩ := h; simp at hs; simp [hs]
  | _ =>
    simp [Opt.apply] at h
    first
      | (obtain ⟨_, _, _, rfl⟩ := h; exact Or.inl hs)
      | (obtain ⟨_, rfl⟩ := h; exact Or.inl hs)
      | (subst h; exact Or.inl hs)

theorem all_fits {hw : Hw} {atoi : String → Int} : ∀ (os : List Opt) (s s' : St), applyAll hw atoi os s = some s' →
    (∀ o ∈ os, o.documented = true) →
    (s.args.hasShortMode = true ∧ s.args.isShortMode = false → Opt.lowEntropyShort ∉ os) →
    ¬(Opt.short false ∈ os ∧ Opt.lowEntropyShort ∈ os) → ModeInv s.args →
    ModeInv s'.args ∧ ∀ w, Fits s'.args w ↔ Fits s.args w ∧ ∀ o ∈ os, o.admits w
  | [], s, s', h, _, _, _, hi => by
    cases h
    exact ⟨hi, fun w => by simp⟩
  | o :: os, s, s', h, hd, hc, hn, hi => by
    obtain ⟨s1, h1, h2⟩ := Option.bind_eq_some_iff.mp h
    have hu : o = .lowEntropyShort → s.args.hasShortMode = true → s.args.isShortMode = true := by
      intro e hs
      cases e' : s.args.isShortMode
      · exact absurd (e ▸ List.mem_cons_self) (hc ⟨hs, e'⟩)
      · rfl
    obtain ⟨hi', hf⟩ := all_fits os s1 s' h2 (fun o ho => hd o (List.mem_cons_of_mem _ ho))
      (fun hs hmem => (apply_short h1 hs).elim (fun a => hc a (List.mem_cons_of_mem _ hmem))
        (fun a => hn ⟨a ▸ List.mem_cons_self, List.mem_cons_of_mem _ hmem⟩))
      (fun a => hn ⟨List.mem_cons_of_mem _ a.1, List.mem_cons_of_mem _ a.2⟩) (apply_inv h1 hi)
    refine ⟨hi', fun w => ?_⟩
    rw [hf w, apply_fits h1 (hd o List.mem_cons_self) hu w, List.forall_mem_cons, and_assoc]

theorem commandLine_parse {hw : Hw} {atoi : String → Int} {ws : List String} {s : St} (h : commandLine hw atoi ws = some s) :
    parse hw atoi ws {} = some s := by
  obtain ⟨s1, h1, h2⟩ := Option.bind_eq_some_iff.mp h
  split at h2
  · cases h2; exact h1
  · cases h2

/-- C42: the tool accepts nothing but sequences of its options. -/
theorem C42_only_options (hw : Hw) (atoi : String → Int) (ws : List String) (s : St)
    (h : commandLine hw atoi ws = some s) : ∃ os : List Opt, ws = os.flatMap Opt.words :=
  parse_opts hw atoi ws.length ws {} s (Nat.le_refl _) (commandLine_parse h)

/-- C42: whatever options are given and accepted, the codecs that are run are exactly those every
option lets through. Missing: values of `--x-size` and `--lut-size` that are not among the documented
ones (`C42_size_violated`), and `--low-entropy-short` after `--not-short` (`C42_short_violated`). -/
theorem C42_selection_partial (hw : Hw) (atoi : String → Int) (os : List Opt) (s : St)
    (h : commandLine hw atoi (os.flatMap Opt.words) = some s) (hd : ∀ o ∈ os, o.documented = true)
    (hn : ¬(Opt.short false ∈ os ∧ Opt.lowEntropyShort ∈ os)) (c : CodecT) :
    selected s.args c = true ↔ ∀ o ∈ os, o.admits (what c) := by
  have h1 := commandLine_parse h
  rw [parse_all] at h1
  have hi : ModeInv (({} : St).args) := fun _ => ⟨rfl, rfl, rfl, rfl, rfl⟩
  obtain ⟨hi', hf⟩ := all_fits os _ s h1 hd (by simp) hn hi
  rw [selected_eq, matches_iff hi', hf]
  have : Fits (({} : St).args) (what c) := by simp [Fits]
  simp [this]

/-- A processor without any extension. -/
def hw0 : Hw := ⟨0, 0, 0, 0, 0, 0, 0⟩

example : ∃ s, commandLine hw0 (fun _ => 1) (["--extreme", "--x-size", "24", "--runs", "3", "--greedy", "--lut-size", "7"]) = some s ∧
    selected s.args .Extreme24Byte_7SLShortGreedy = true ∧ selected s.args .Extreme32Byte_7SLShortGreedy = false :=
  ⟨_, rfl, by decide +kernel, by decide +kernel⟩

/-- C42 is false of `--x-size 30`: the tool takes it for 32. -/
theorem C42_size_violated : ∃ (os : List Opt) (s : St), commandLine hw0 (fun _ => 1) (os.flatMap Opt.words) = some s ∧
    selected s.args .Extreme32Sym = true ∧ ∃ o ∈ os, ¬o.admits (what .Extreme32Sym) :=
  ⟨[.size "30"], { args := { hasBitCount := true, bitCount := 32 } }, rfl, by decide +kernel, .size "30", by simp,
    by
      simp only [Opt.admits]
      have : number "30" = none := by decide +kernel
      rw [this]
      rintro ⟨h1, h2⟩
      rw [h2] at h1
      cases h1⟩

/-- C42 is false of `--not-short --low-entropy-short`: the second option silently withdraws the first. -/
theorem C42_short_violated : ∃ (os : List Opt) (s : St), commandLine hw0 (fun _ => 1) (os.flatMap Opt.words) = some s ∧
    (∀ o ∈ os, o.documented = true) ∧ selected s.args .LowEntropyShort = true ∧
    ∃ o ∈ os, ¬o.admits (what .LowEntropyShort) :=
  ⟨[.short false, .lowEntropyShort],
    { args := { hasMode := true, isModeLowEntropy := true, hasShortMode := true, isShortMode := true } }, rfl,
    by decide +kernel, by decide +kernel, .short false, by simp, by
      simp only [Opt.admits]
      decide +kernel⟩

/-- C42: asking for two families asks for nothing. -/
theorem C42_two_families (hw : Hw) (atoi : String → Int) (os : List Opt) (s : St)
    (h : commandLine hw atoi (os.flatMap Opt.words) = some s) (hd : ∀ o ∈ os, o.documented = true)
    (hn : ¬(Opt.short false ∈ os ∧ Opt.lowEntropyShort ∈ os)) (f g : Family) (hfg : f ≠ g)
    (hf : Opt.family f ∈ os) (hg : Opt.family g ∈ os) (c : CodecT) : selected s.args c = false := by
  rw [← Bool.not_eq_true, C42_selection_partial hw atoi os s h hd hn c]
  intro hall
  have h1 : (what c).family = some f := hall _ hf
  have h2 : (what c).family = some g := hall _ hg
  rw [h1] at h2
  exact hfg (Option.some.inj h2)

example : (commandLine hw0 (fun _ => 1) ["--extreme", "--sh"]).isSome = true := rfl

/-! ### Vector extensions -/

theorem maxSimd_spec (l : Simd) (on : Feat → Bool) :
    Cli.maxSimd l.word on =
      if (∀ f, l.needs = some f → on f = true) then some (fun f => on f && decide (level f ≤ l.level)) else none := by
  have key : ∀ f (g : Feat → Bool), (∀ x, g x = (on x && decide (level x ≤ l.level))) → l.needs = some f →
      (if (!g f) = true then none else some g) =
        if (∀ f, l.needs = some f → on f = true) then some (fun f => on f && decide (level f ≤ l.level)) else none := by
    intro f g hg hf
    have e : (∀ f, l.needs = some f → on f = true) ↔ on f = true :=
      ⟨fun h => h f hf, fun h f' hf' => by rw [hf] at hf'; cases hf'; exact h⟩
    have hl : level f ≤ l.level := by cases l <;> cases hf <;> decide
    rw [show g = fun x => (on x && decide (level x ≤ l.level)) from funext hg]
    simp only [e, hl]
    cases on f <;> simp
  cases l with
  | none =>
    have e : (∀ f, Simd.none.needs = some f → on f = true) := by simp [Simd.needs]
    rw [if_pos e]
    simp [Cli.maxSimd, Simd.word]
    funext x
    cases x <;> simp [clear, level, Simd.level]
  | _ =>
    simp only [Cli.maxSimd, Simd.word, String.reduceEq, if_false, if_true]
    refine key _ _ ?_ rfl
    intro x
    cases x <;> simp [clear, level, Simd.level]

/-- The restriction an option makes. -/
def Opt.keeps (f : Feat) : Opt → Bool
  | .maxSimd l => decide (level f ≤ l.level)
  | _ => true

theorem detect_detect (hw : Hw) (s : Flags) : detect hw (detect hw s) = detect hw s := by
  unfold detect
  by_cases h : s.detected = true
  · simp [h]
  · simp [h]

theorem apply_flags {hw : Hw} {atoi : String → Int} {o : Opt} {s s' : St} (h : o.apply hw atoi s = some s') (f : Feat) :
    (detect hw s'.flags).on f = ((detect hw s.flags).on f && o.keeps f) := by
  cases o with
  | family f => cases f <;> simp [Opt.apply] at h <;> subst h <;> simp [Opt.keeps]
  | maxSimd l =>
    simp only [Opt.apply, maxSimd_spec, Option.map_eq_some_iff] at h
    obtain ⟨on, h1, rfl⟩ := h
    split at h1
    · cases h1
      have hd : (detect hw s.flags).detected = true := by
        unfold detect; split <;> simp_all
      generalize detect hw s.flags = fl at *
      simp [detect, hd, Opt.keeps]
    · cases h1
  | runs v =>
    simp [Opt.apply] at h; obtain ⟨_, h⟩ := h
    split at h <;> cases h <;> simp [Opt.keeps]
  | _ =>
    simp [Opt.apply] at h
    first
      | (obtain ⟨_, _, _, rfl⟩ := h; simp [Opt.keeps])
      | (obtain ⟨_, rfl⟩ := h; simp [Opt.keeps])
      | (subst h; simp [Opt.keeps])

theorem all_flags {hw : Hw} {atoi : String → Int} : ∀ (os : List Opt) (s s' : St), applyAll hw atoi os s = some s' → ∀ f,
    (detect hw s'.flags).on f = ((detect hw s.flags).on f && (levels os).all fun k => decide (level f ≤ k))
  | [], s, s', h, f => by cases h; simp [levels]
  | o :: os, s, s', h, f => by
    obtain ⟨s1, h1, h2⟩ := Option.bind_eq_some_iff.mp h
    rw [all_flags os s1 s' h2 f, apply_flags h1 f]
    cases o <;> simp [levels, Opt.keeps, Bool.and_assoc]

/-- C43: after the options have been accepted the library sees exactly the features the processor has
and no `--max-simd` excludes, in whatever order and number those were given. -/
theorem C43_max_simd (hw : Hw) (atoi : String → Int) (os : List Opt) (s : St)
    (h : commandLine hw atoi (os.flatMap Opt.words) = some s) (f : Feat) :
    (detect hw s.flags).on f = true ↔ (detect hw flags0).on f = true ∧ ∀ l, Opt.maxSimd l ∈ os → level f ≤ l.level := by
  have h1 := commandLine_parse h
  rw [parse_all] at h1
  rw [all_flags os _ s h1 f]
  simp only [Bool.and_eq_true, List.all_eq_true, decide_eq_true_eq, levels, List.mem_filterMap]
  constructor
  · rintro ⟨h1, h2⟩
    exact ⟨h1, fun l hl => h2 _ ⟨_, hl, rfl⟩⟩
  · rintro ⟨h1, h2⟩
    refine ⟨h1, ?_⟩
    rintro k ⟨o, ho, hk⟩
    cases o <;> cases hk
    exact h2 _ ho

/-- A processor with everything up to AVX2. -/
def hwAvx2 : Hw := ⟨7, 0xffffffff, 0xffffffff, 32, 0, 0, 7⟩

example : ∃ s, commandLine hwAvx2 (fun _ => 1) ["--max-simd", "avx2", "--max-simd", "ssse3"] = some s ∧
    (detect hwAvx2 s.flags).on .ssse3 = true ∧ (detect hwAvx2 s.flags).on .sse41 = false ∧
    (detect hwAvx2 flags0).on .sse41 = true :=
  ⟨_, rfl, by decide +kernel, by decide +kernel, by decide +kernel⟩

/-! ### Acceptance -/

/-- An ordinary sequence of options. -/
def os0 : List Opt := [.family .extreme, .maxSimd .avx2, .size "16", .runs "1", .short true, .maxSimd .sse2, .byteAligned true]

/-- Whether the state refuses an option. -/
def blocked (a : Args) : Opt → Bool
  | .single _ => a.hasSingleMode
  | .short _ => a.hasShortMode
  | .greedy _ => a.hasGreedyMode
  | .byteAligned _ => a.hasAlignment
  | .packed _ => a.hasPackedMode
  | .size _ => a.hasBitCount
  | .lut _ => a.hasLutSize
  | _ => false

/-- The values of `--runs` and `--min-time` are not negative. -/
def NonNeg (atoi : String → Int) : Opt → Prop
  | .runs v | .minTime v => 0 ≤ atoi v
  | _ => True

theorem apply_some {hw : Hw} {atoi : String → Int} (o : Opt) (s : St) (hd : o.documented = true) (hv : NonNeg atoi o) :
    (o.apply hw atoi s).isSome = true ↔ blocked s.args o = false ∧
      ∀ l f, o = .maxSimd l → l.needs = some f → (detect hw s.flags).on f = true := by
  cases o with
  | family f => cases f <;> simp [Opt.apply, blocked]
  | maxSimd l =>
    simp only [Opt.apply, maxSimd_spec, Option.isSome_map, blocked, true_and]
    constructor
    · intro h l' f e hf
      cases e
      split at h
      · rename_i hh; exact hh f hf
      · cases h
    · intro h
      rw [if_pos (fun f hf => h l f rfl hf)]
      rfl
  | runs v =>
    have : ¬atoi v < 0 := by simp only [NonNeg] at hv; omega
    simp only [Opt.apply, this, if_false, blocked]
    split <;> simp
  | minTime v =>
    have : ¬atoi v < 0 := by simp only [NonNeg] at hv; omega
    simp [Opt.apply, this, blocked]
  | size v =>
    obtain ⟨h1, h2⟩ := size_number hd
    simp only [Opt.apply, blocked]
    cases s.args.hasBitCount <;> simp [h1, h2]
  | lut v =>
    obtain ⟨h1, h2⟩ := lut_number hd
    simp only [Opt.apply, blocked]
    cases s.args.hasLutSize <;> simp [h1, h2]
  | single b => simp only [Opt.apply, blocked]; cases s.args.hasSingleMode <;> simp
  | short b => simp only [Opt.apply, blocked]; cases s.args.hasShortMode <;> simp
  | greedy b => simp only [Opt.apply, blocked]; cases s.args.hasGreedyMode <;> simp
  | byteAligned b => simp only [Opt.apply, blocked]; cases s.args.hasAlignment <;> simp
  | packed b => simp only [Opt.apply, blocked]; cases s.args.hasPackedMode <;> simp
  | _ => simp [Opt.apply, blocked]

theorem apply_blocked {hw : Hw} {atoi : String → Int} {o : Opt} {s s' : St} (h : o.apply hw atoi s = some s') (p : Opt) :
    blocked s'.args p = (blocked s.args p || conflicts o p) := by
  cases o with
  | family f => cases f <;> simp [Opt.apply] at h <;> subst h <;> cases p <;> simp [blocked, conflicts]
  | maxSimd l => simp [Opt.apply] at h; obtain ⟨_, _, rfl⟩ := h; cases p <;> simp [blocked, conflicts]
  | runs v =>
    simp [Opt.apply] at h; obtain ⟨_, h⟩ := h
    split at h <;> cases h <;> cases p <;> simp [blocked, conflicts]
  | _ =>
    simp [Opt.apply] at h
    first
      | (obtain ⟨_, _, _, rfl⟩ := h; cases p <;> simp [blocked, conflicts])
      | (obtain ⟨_, rfl⟩ := h; cases p <;> simp [blocked, conflicts])
      | (subst h; cases p <;> simp [blocked, conflicts])

theorem all_some {hw : Hw} {atoi : String → Int} : ∀ (os : List Opt) (s : St), (∀ o ∈ os, o.documented = true) →
    (∀ o ∈ os, NonNeg atoi o) →
    ((applyAll hw atoi os s).isSome = true ↔ (∀ o ∈ os, blocked s.args o = false) ∧
      os.Pairwise (fun o p => conflicts o p = false) ∧
      ∀ pre l post, os = pre ++ Opt.maxSimd l :: post → ∀ f, l.needs = some f →
        (detect hw s.flags).on f = true ∧ ∀ k ∈ levels pre, level f ≤ k)
  | [], s, _, _ => by simp [applyAll]
  | o :: os, s, hd, hv => by
    have ih := fun s => all_some (hw := hw) os s (fun o ho => hd o (List.mem_cons_of_mem _ ho)) (fun o ho => hv o (List.mem_cons_of_mem _ ho))
    have h0 := apply_some (hw := hw) o s (hd o List.mem_cons_self) (hv o List.mem_cons_self)
    cases h1 : o.apply hw atoi s with
    | none =>
      rw [h1] at h0
      simp only [applyAll, h1, Option.bind_none, Option.isSome_none, Bool.false_eq_true, false_iff]
      rintro ⟨a1, _, a3⟩
      have : blocked s.args o = false ∧ ∀ l f, o = .maxSimd l → l.needs = some f → (detect hw s.flags).on f = true := by
        refine ⟨a1 o List.mem_cons_self, fun l f e hf => ?_⟩
        subst e
        exact (a3 [] l os rfl f hf).1
      exact absurd (h0.mpr this) (by simp)
    | some s1 =>
      rw [h1] at h0
      obtain ⟨b1, b2⟩ := h0.mp rfl
      simp only [applyAll, h1, Option.bind_some]
      rw [ih s1, List.pairwise_cons, List.forall_mem_cons]
      constructor
      · rintro ⟨a1, a2, a3⟩
        refine ⟨⟨b1, fun p hp => ?_⟩, ⟨fun p hp => ?_, a2⟩, ?_⟩
        · have := a1 p hp
          rw [apply_blocked h1] at this
          exact (Bool.or_eq_false_iff.mp this).1
        · have := a1 p hp
          rw [apply_blocked h1] at this
          exact (Bool.or_eq_false_iff.mp this).2
        · intro pre l post e f hf
          cases pre with
          | nil =>
            simp only [List.nil_append, List.cons.injEq] at e
            exact ⟨b2 l f e.1 hf, by simp [levels]⟩
          | cons x pre =>
            simp only [List.cons_append, List.cons.injEq] at e
            obtain ⟨c1, c2⟩ := a3 pre l post e.2 f hf
            rw [apply_flags h1] at c1
            obtain ⟨c1, c3⟩ := Bool.and_eq_true_iff.mp c1
            refine ⟨c1, ?_⟩
            rw [← e.1]
            cases o <;> simp only [levels, List.filterMap_cons] <;> try exact c2
            simp only [Opt.keeps, decide_eq_true_eq] at c3
            exact List.forall_mem_cons.mpr ⟨c3, c2⟩
      · rintro ⟨⟨_, a1⟩, ⟨a2, a3⟩, a4⟩
        refine ⟨fun p hp => ?_, a3, ?_⟩
        · rw [apply_blocked h1, a1 p hp, a2 p hp]; rfl
        · intro pre l post e f hf
          obtain ⟨c1, c2⟩ := a4 (o :: pre) l post (by rw [e]; rfl) f hf
          rw [apply_flags h1, c1]
          cases o <;> simp only [levels, List.filterMap_cons] at c2 <;> try exact ⟨rfl, c2⟩
          obtain ⟨c2, c3⟩ := List.forall_mem_cons.mp c2
          exact ⟨by simpa [Opt.keeps] using c2, c3⟩

/-- What the later checks look at, in terms of the options. -/
structure Summary (a a' : Args) (os : List Opt) : Prop where
  extreme : a'.isModeExtreme = true ↔ a.isModeExtreme = true ∨ Opt.family .extreme ∈ os
  mmtf : a'.isModeMMTF = true ↔ a.isModeMMTF = true ∨ Opt.family .mmtf ∈ os
  rleMmtf : a'.isModeRleMMTF = true ↔ a.isModeRleMMTF = true ∨ Opt.family .rleMmtf ∈ os
  single : (a'.hasSingleMode = true ∧ a'.isSingleMode = true) ↔
    (a.hasSingleMode = true ∧ a.isSingleMode = true) ∨ Opt.single true ∈ os
  size : ∀ k, (a'.hasBitCount = true ∧ a'.bitCount = k) ↔
    (a.hasBitCount = true ∧ a.bitCount = k) ∨ ∃ v, Opt.size v ∈ os ∧ sizeArg v = some k

theorem apply_summary {hw : Hw} {atoi : String → Int} {o : Opt} {s s' : St} (h : o.apply hw atoi s = some s') :
    Summary s.args s'.args [o] := by
  cases o with
  | family f => cases f <;> simp [Opt.apply] at h <;> subst h <;> constructor <;> simp
  | maxSimd l => simp [Opt.apply] at h; obtain ⟨_, _, rfl⟩ := h; constructor <;> simp
  | runs v =>
    simp [Opt.apply] at h; obtain ⟨_, h⟩ := h
    split at h <;> cases h <;> constructor <;> simp
  | single b =>
    simp [Opt.apply] at h; obtain ⟨e, rfl⟩ := h
    cases b <;> constructor <;> simp [e]
  | size v =>
    simp [Opt.apply] at h; obtain ⟨e, k, hk, rfl⟩ := h
    constructor <;> simp [e, hk]
  | _ =>
    simp [Opt.apply] at h
    first
      | (obtain ⟨_, _, _, rfl⟩ := h; constructor <;> simp)
      | (obtain ⟨_, rfl⟩ := h; constructor <;> simp)
      | (subst h; constructor <;> simp)

theorem all_summary {hw : Hw} {atoi : String → Int} : ∀ (os : List Opt) (s s' : St), applyAll hw atoi os s = some s' →
    Summary s.args s'.args os
  | [], s, s', h => by cases h; constructor <;> simp
  | o :: os, s, s', h => by
    obtain ⟨s1, h1, h2⟩ := Option.bind_eq_some_iff.mp h
    have a := apply_summary h1
    have b := all_summary os s1 s' h2
    constructor
    · rw [b.extreme, a.extreme, List.mem_singleton, List.mem_cons, or_assoc]
    · rw [b.mmtf, a.mmtf, List.mem_singleton, List.mem_cons, or_assoc]
    · rw [b.rleMmtf, a.rleMmtf, List.mem_singleton, List.mem_cons, or_assoc]
    · rw [b.single, a.single, List.mem_singleton, List.mem_cons, or_assoc]
    · intro k
      rw [b.size, a.size, or_assoc]
      simp only [List.mem_cons, List.not_mem_nil, or_false, or_and_right, exists_or]

theorem size_doc {v : String} (h : (Opt.size v).documented = true) :
    ((∃ k, sizeArg v = some k ∧ k ≠ 8) ↔ v ≠ "8") ∧ ((∃ k, sizeArg v = some k ∧ k = 256) ↔ v = "256") ∧
    ((∃ k, sizeArg v = some k ∧ (k ≠ 8 ∧ k ≠ 16 ∧ k ≠ 256 ∧ k ≠ 128)) ↔ v ∉ ["8", "16", "128", "256"]) := by
  have hn := (size_number h).1
  rw [hn]
  simp only [Opt.documented, List.mem_cons, List.not_mem_nil, or_false, decide_eq_true_eq] at h
  rcases h with h | h | h | h | h | h | h | h <;> subst h <;> simp [number]

/-- C42: the tool accepts a sequence of options with documented values exactly if no option is given
twice, none of `--short` and `--not-short` follows `--low-entropy-short`, every `--max-simd` is
possible, and the combination is not one of those it reports. -/
theorem C42_accepts (hw : Hw) (atoi : String → Int) (os : List Opt) (hd : ∀ o ∈ os, o.documented = true)
    (hv : ∀ o ∈ os, NonNeg atoi o) :
    (commandLine hw atoi (os.flatMap Opt.words)).isSome = true ↔
      os.Pairwise (fun o p => conflicts o p = false) ∧ SimdOk hw os ∧ ¬Refused os := by
  have hsimd : (∀ pre l post, os = pre ++ Opt.maxSimd l :: post → ∀ f, l.needs = some f →
        (detect hw flags0).on f = true ∧ ∀ k ∈ levels pre, level f ≤ k) ↔ SimdOk hw os := by
    constructor
    · intro h pre l post e
      refine ⟨fun f hf => (h pre l post e f hf).1, fun k hk => ?_⟩
      cases hn : l.needs with
      | none => cases l <;> first | exact Nat.zero_le _ | cases hn
      | some f =>
        have := (h pre l post e f hn).2 k hk
        cases l <;> cases hn <;> exact this
    · intro h pre l post e f hf
      obtain ⟨h1, h2⟩ := h pre l post e
      refine ⟨h1 f hf, fun k hk => ?_⟩
      have := h2 k hk
      cases l <;> cases hf <;> exact this
  have hall := all_some (hw := hw) (atoi := atoi) os {} hd hv
  have hb : ∀ o ∈ os, blocked (({} : St).args) o = false := by intro o _; cases o <;> rfl
  unfold commandLine
  rw [parse_all]
  cases hp : applyAll hw atoi os {} with
  | none =>
    rw [hp] at hall
    simp only [Option.isSome_none, Bool.false_eq_true, false_iff] at hall
    simp only [Option.bind_none, Option.isSome_none, Bool.false_eq_true, false_iff]
    rintro ⟨h1, h2, _⟩
    exact hall ⟨hb, h1, hsimd.mpr h2⟩
  | some s =>
    rw [hp] at hall
    obtain ⟨_, h1, h2⟩ := hall.mp rfl
    have hS := all_summary os _ s hp
    have hi : ModeInv s.args := by
      have : ∀ (os : List Opt) (s s' : St), applyAll hw atoi os s = some s' → ModeInv s.args → ModeInv s'.args := by
        intro os
        induction os with
        | nil => intro s s' h hi; cases h; exact hi
        | cons o os ih =>
          intro s s' h hi
          obtain ⟨s1, h1, h2⟩ := Option.bind_eq_some_iff.mp h
          exact ih s1 s' h2 (apply_inv h1 hi)
      exact this os _ s hp (fun _ => ⟨rfl, rfl, rfl, rfl, rfl⟩)
    simp only [Option.bind_some, h1, hsimd.mp h2, true_and]
    have hsz : ∀ k, (s.args.hasBitCount = true ∧ s.args.bitCount = k) ↔ ∃ v, Opt.size v ∈ os ∧ sizeArg v = some k := by
      intro k; rw [hS.size k]; simp
    have hex : s.args.isModeExtreme = true ↔ Opt.family .extreme ∈ os := by rw [hS.extreme]; simp
    have hmm : s.args.isModeMMTF = true ↔ Opt.family .mmtf ∈ os := by rw [hS.mmtf]; simp
    have hrm : s.args.isModeRleMMTF = true ↔ Opt.family .rleMmtf ∈ os := by rw [hS.rleMmtf]; simp
    have hsi : (s.args.hasSingleMode = true ∧ s.args.isSingleMode = true) ↔ Opt.single true ∈ os := by rw [hS.single]; simp
    have hmode : ∀ b : Bool, (b = s.args.isModeExtreme ∨ b = (s.args.isModeMMTF || s.args.isModeRleMMTF)) →
        (s.args.hasMode && b) = b := by
      intro b hb
      cases hm : s.args.hasMode with
      | true => simp
      | false =>
        obtain ⟨e1, _, _, e4, e5⟩ := hi hm
        rcases hb with rfl | rfl <;> simp [e1, e4, e5]
    -- a size with a property of its number
    have hany : ∀ (P : Nat → Prop), (s.args.hasBitCount = true ∧ P s.args.bitCount) ↔
        ∃ v, Opt.size v ∈ os ∧ ∃ k, sizeArg v = some k ∧ P k := by
      intro P
      constructor
      · rintro ⟨e1, e2⟩
        obtain ⟨v, h1, h2⟩ := (hsz s.args.bitCount).mp ⟨e1, rfl⟩
        exact ⟨v, h1, _, h2, e2⟩
      · rintro ⟨v, h1, k, h2, h3⟩
        obtain ⟨e1, rfl⟩ := (hsz k).mpr ⟨v, h1, h2⟩
        exact ⟨e1, h3⟩
    have hval : validate s.args = true ↔ ¬Refused os := by
      have d8 : ∀ v, (Opt.size v ∈ os ∧ ∃ k, sizeArg v = some k ∧ k ≠ 8) ↔ (Opt.size v ∈ os ∧ v ≠ "8") :=
        fun v => and_congr_right fun hm => (size_doc (hd _ hm)).1
      have d256 : ∀ v, (Opt.size v ∈ os ∧ ∃ k, sizeArg v = some k ∧ k = 256) ↔ (Opt.size v ∈ os ∧ v = "256") :=
        fun v => and_congr_right fun hm => (size_doc (hd _ hm)).2.1
      have dm : ∀ v, (Opt.size v ∈ os ∧ ∃ k, sizeArg v = some k ∧ (k ≠ 8 ∧ k ≠ 16 ∧ k ≠ 256 ∧ k ≠ 128)) ↔
          (Opt.size v ∈ os ∧ v ∉ ["8", "16", "128", "256"]) :=
        fun v => and_congr_right fun hm => (size_doc (hd _ hm)).2.2
      have e1 := hany (fun k => k ≠ 8)
      have e2 := hany (fun k => k = 256)
      have e3 := hany (fun k => k ≠ 8 ∧ k ≠ 16 ∧ k ≠ 256 ∧ k ≠ 128)
      simp only [d8] at e1
      simp only [d256] at e2
      simp only [dm] at e3
      have e2' : (∃ v, Opt.size v ∈ os ∧ v = "256") ↔ Opt.size "256" ∈ os :=
        ⟨fun ⟨v, h1, h2⟩ => h2 ▸ h1, fun h => ⟨_, h, rfl⟩⟩
      rw [e2'] at e2
      unfold Refused
      rw [← e1, ← e2, ← e3, ← hex, ← hmm, ← hrm, ← hsi]
      unfold validate
      rw [hmode _ (Or.inl rfl), hmode _ (Or.inr rfl)]
      simp only [not_or, Bool.and_eq_true, Bool.not_eq_true', bne_iff_ne, beq_iff_eq, Bool.or_eq_true, ← Bool.not_eq_true,
        and_assoc]
    rw [← hval]
    cases validate s.args <;> simp

example : os0.Pairwise (fun o p => conflicts o p = false) ∧ SimdOk hwAvx2 os0 ∧ ¬Refused os0 :=
  (C42_accepts hwAvx2 (fun _ => 1) os0 (by decide +kernel) (by simp [os0, NonNeg])).mp rfl

end Hrk.Cli
