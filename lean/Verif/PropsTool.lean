import Verif.Tool
import Verif.PropsCli

/-
C45: what the exit code of `--test` says.
-/

namespace Hrk.Cli

/-! ### Specification -/

/-- What the tool does with a codec: compress a file of `n` bytes into a buffer of `toolBuffer n` bytes
that holds `buf`, and decompress from a buffer that begins with the compressed data (and holds anything
behind it) into one that holds `out`. -/
structure Attempt (e : Env) (data : List Byte) (c : CodecT) where
  buf : Mem
  buf' : Mem
  out : Mem
  agree : ∀ i, i < (e.comp c data.length (toolBuffer data.length) buf).1 →
    buf' i = (e.comp c data.length (toolBuffer data.length) buf).2 i

/-- The size of the compressed data. -/
def Attempt.size {e : Env} {data : List Byte} {c : CodecT} (a : Attempt e data c) : Nat :=
  (e.comp c data.length (toolBuffer data.length) a.buf).1

/-- What the decompressor returns and leaves in the output buffer. -/
def Attempt.result {e : Env} {data : List Byte} {c : CodecT} (a : Attempt e data c) : Nat × Mem :=
  e.dec c a.size a.buf' (toolBuffer data.length) a.out

/-- Neither call fails and the file is in the output buffer. -/
def Attempt.Ok {e : Env} {data : List Byte} {c : CodecT} (a : Attempt e data c) : Prop :=
  a.size ≠ 0 ∧ a.result.1 ≠ 0 ∧ ∀ i, i < data.length → a.result.2 i = data.getD i 0

/-- The transforms the tool does not require on old processors. -/
def Excused (e : Env) (c : CodecT) : Prop :=
  (e.on .avx = false ∧ c = .MultiMTF256) ∨ (e.on .sse2 = false ∧ (c = .MultiMTF128 ∨ c = .MultiMTF256))

/-! ### Proofs -/

theorem validateData_iff (data : List Byte) (out : Mem) :
    validateData data out = true ↔ ∀ i, i < data.length → out i = data.getD i 0 := by
  simp [validateData]

/-- The result of the last round is the result of one call. -/
theorem rounds_last (f : Mem → Nat × Mem) : ∀ (k : Nat) (m : Mem), 0 < k → ∃ m', rounds f k m = f m'
  | 0, _, h => absurd h (by omega)
  | 1, m, _ => ⟨m, rfl⟩
  | k + 2, m, _ => by
    simp only [rounds]
    split
    · exact ⟨m, rfl⟩
    · exact rounds_last f (k + 1) _ (by omega)

theorem roundCount_pos {s : St} (h : 1 ≤ s.runs) (more : Nat) : 0 < roundCount s more := by
  unfold roundCount
  split <;> omega

/-- What one pass of the loop does, in terms of one attempt: the attempt is `a`. -/
theorem one_attempt {e : Env} {s : St} {data : List Byte} {c : CodecT} (b : Mem × Mem) (hr : 1 ≤ s.runs)
    (hn : data.length < 4294967296) (hc : c ≠ .MemCopy) :
    ∃ a : Attempt e data c, (a.Ok → ∃ b', oneCodec e s data c b = some b') ∧
      (¬a.Ok → s.isTestRun = true → ¬Excused e c → oneCodec e s data c b = none) := by
  obtain ⟨m, hm⟩ := rounds_last (callComp e data c) (roundCount s (e.moreComp c)) b.1 (roundCount_pos hr _)
  have hm' : callComp e data c m = e.comp c data.length (toolBuffer data.length) m := by
    simp only [callComp, hc, if_false, Nat.mod_eq_of_lt hn]
  rw [hm'] at hm
  unfold oneCodec
  simp only [hm, Nat.mod_eq_of_lt hn]
  generalize hR : e.comp c data.length (toolBuffer data.length) m = r
  generalize hB : (if (s.isTestRun || (!s.isTestRun && !s.noDelays)) = true then
      fun i => if r.1 ≤ i ∧ i < toolBuffer data.length then ~~~(r.2 i) else r.2 i else r.2 : Mem) = buf
  have hbuf : ∀ i, i < r.1 → buf i = r.2 i := by
    intro i hi
    rw [← hB]
    split
    · show (if r.1 ≤ i ∧ i < toolBuffer data.length then ~~~(r.2 i) else r.2 i) = r.2 i
      rw [if_neg (by omega)]
    · rfl
  obtain ⟨o, ho⟩ := rounds_last (fun out => callDec e data c r.1 buf out) (roundCount s (e.moreDec c)) b.2
    (roundCount_pos hr _)
  have ho' : ∀ o, callDec e data c r.1 buf o = e.dec c r.1 buf (toolBuffer data.length) o := by
    intro o
    simp only [callDec, hc, if_false, Nat.mod_eq_of_lt hn]
  rw [ho]
  simp only [ho']
  let a : Attempt e data c := ⟨m, buf, o, by rw [hR]; exact hbuf⟩
  have has : a.size = r.1 := by show (e.comp c data.length (toolBuffer data.length) m).1 = r.1; rw [hR]
  have har : a.result = e.dec c r.1 buf (toolBuffer data.length) o := by
    show e.dec c a.size buf (toolBuffer data.length) o = _
    rw [has]
  refine ⟨a, ?_, ?_⟩
  · rintro ⟨h1, h2, h3⟩
    rw [has] at h1
    rw [har] at h2 h3
    rw [if_neg h1, if_neg h2, (validateData_iff _ _).mpr h3]
    exact ⟨_, rfl⟩
  · intro hno ht hx
    have x1 : (!e.on .avx && c == .MultiMTF256) = false := by
      cases h1 : e.on .avx
      · have : c ≠ .MultiMTF256 := fun h2 => hx (Or.inl ⟨h1, h2⟩)
        simp [this]
      · rfl
    have x2 : (!e.on .sse2 && (c == .MultiMTF128 || c == .MultiMTF256)) = false := by
      cases h1 : e.on .sse2
      · have a : c ≠ .MultiMTF128 := fun h2 => hx (Or.inr ⟨h1, Or.inl h2⟩)
        have b : c ≠ .MultiMTF256 := fun h2 => hx (Or.inr ⟨h1, Or.inr h2⟩)
        simp [a, b]
      · rfl
    rw [x1, x2, ht]
    by_cases k1 : r.1 = 0
    · simp [k1]
    · rw [if_neg k1]
      by_cases k2 : (e.dec c r.1 buf (toolBuffer data.length) o).1 = 0
      · simp [k2]
      · rw [if_neg k2]
        have k3 : validateData data (e.dec c r.1 buf (toolBuffer data.length) o).2 = false := by
          rw [← Bool.not_eq_true, validateData_iff]
          intro hall
          refine hno ⟨?_, ?_, ?_⟩
          · rw [has]; exact k1
          · rw [har]; exact k2
          · rw [har]; exact hall
        simp [k3]

/-- The last row copies the file, which always succeeds. -/
theorem one_memcpy {e : Env} {s : St} {data : List Byte} (b : Mem × Mem) (hr : 1 ≤ s.runs)
    (h0 : 0 < data.length) (hn : data.length < 4294967296) : ∃ b', oneCodec e s data .MemCopy b = some b' := by
  obtain ⟨m, hm⟩ := rounds_last (callComp e data .MemCopy) (roundCount s (e.moreComp .MemCopy)) b.1 (roundCount_pos hr _)
  unfold oneCodec
  simp only [hm, callComp, callDec, if_true, Nat.mod_eq_of_lt hn]
  rw [if_neg (by omega : ¬data.length = 0)]
  generalize hB : (if (s.isTestRun || (!s.isTestRun && !s.noDelays)) = true then _ else _ : Mem) = buf
  obtain ⟨o, ho⟩ := rounds_last (fun out => (data.length, fun i => if i < data.length then buf i else out i))
    (roundCount s (e.moreDec .MemCopy)) b.2 (roundCount_pos hr _)
  have hbuf : ∀ i, i < data.length → buf i = data.getD i 0 := by
    intro i hi
    rw [← hB]
    split
    · show (if data.length ≤ i ∧ i < toolBuffer data.length then ~~~(if i < data.length then data.getD i 0 else m i)
        else if i < data.length then data.getD i 0 else m i) = _
      rw [if_neg (by omega), if_pos hi]
    · show (if i < data.length then data.getD i 0 else m i) = _
      rw [if_pos hi]
  rw [ho]
  rw [if_neg (by show ¬data.length = 0; omega), (validateData_iff _ _).mpr]
  · exact ⟨_, rfl⟩
  · intro i hi
    show (if i < data.length then buf i else o i) = _
    rw [if_pos hi, hbuf i hi]

theorem loop_ok {e : Env} {s : St} {data : List Byte} (hr : 1 ≤ s.runs) (hn : data.length < 4294967296)
    (h0 : 0 < data.length) :
    ∀ (cs : List CodecT) (b : Mem × Mem),
      (∀ c, c ∈ cs → selected s.args c = true → c ≠ .MemCopy → ∀ a : Attempt e data c, a.Ok) →
      benchLoop e s data cs b = true
  | [], _, _ => rfl
  | c :: cs, b, h => by
    have ih := fun b => loop_ok hr hn h0 cs b (fun c hc => h c (List.mem_cons_of_mem _ hc))
    rw [benchLoop]
    cases hs : selected s.args c
    · exact ih b
    · obtain ⟨b', hb⟩ : ∃ b', oneCodec e s data c b = some b' := by
        by_cases hc : c = .MemCopy
        · subst hc; exact one_memcpy b hr h0 hn
        · obtain ⟨a, ha, _⟩ := one_attempt (e := e) (s := s) b hr hn hc
          exact ha (h c List.mem_cons_self hs hc a)
      rw [hb]
      exact ih b'

theorem loop_fails {e : Env} {s : St} {data : List Byte} {c : CodecT} (hr : 1 ≤ s.runs) (hn : data.length < 4294967296)
    (hc : c ≠ .MemCopy) (ht : s.isTestRun = true) (hx : ¬Excused e c) (h : ∀ a : Attempt e data c, ¬a.Ok)
    (hsel : selected s.args c = true) :
    ∀ (cs : List CodecT) (b : Mem × Mem), c ∈ cs → benchLoop e s data cs b = false
  | [], _, hm => absurd hm (by simp)
  | x :: cs, b, hm => by
    rw [benchLoop]
    rcases List.mem_cons.mp hm with e1 | hm'
    · subst e1
      obtain ⟨a, _, ha⟩ := one_attempt (e := e) (s := s) b hr hn hc
      rw [hsel, ha (h a) ht hx]
      rfl
    · have ih := loop_fails hr hn hc ht hx h hsel cs
      cases selected s.args x
      · exact ih b hm'
      · cases oneCodec e s data x b with
        | none => rfl
        | some b' => exact ih b' hm'

theorem mem_codecs (c : CodecT) : c ∈ codecs := by
  refine List.mem_map.mpr ⟨c.ctorIdx, List.mem_range.mpr (by cases c <;> decide), ?_⟩
  exact CodecT.ofNat_ctorIdx c

theorem apply_runs {hw : Hw} {atoi : String → Int} {o : Opt} {s s' : St} (h : o.apply hw atoi s = some s')
    (hr : 1 ≤ s.runs) : 1 ≤ s'.runs := by
  cases o with
  | maxSimd l =>
    simp only [Opt.apply, Option.map_eq_some_iff] at h
    obtain ⟨_, _, rfl⟩ := h; exact hr
  | size v =>
    simp only [Opt.apply] at h
    split at h
    · cases h
    · obtain ⟨_, _, rfl⟩ := Option.map_eq_some_iff.mp h; exact hr
  | lut v =>
    simp only [Opt.apply] at h
    split at h
    · cases h
    · obtain ⟨_, _, rfl⟩ := Option.map_eq_some_iff.mp h; exact hr
  | runs v =>
    simp only [Opt.apply] at h
    split at h
    · cases h
    · split at h
      · cases h; exact Int.le_refl 1
      · cases h; show 1 ≤ atoi v; omega
  | family f => cases f <;> (cases h; exact hr)
  | _ => simp only [Opt.apply] at h; first | (cases h; exact hr) | (split at h; cases h; cases h; exact hr)

theorem applyAll_runs {hw : Hw} {atoi : String → Int} : ∀ {os : List Opt} {s s' : St},
    applyAll hw atoi os s = some s' → 1 ≤ s.runs → 1 ≤ s'.runs
  | [], s, s', h, hr => by simp only [applyAll, Option.some.injEq] at h; subst h; exact hr
  | o :: os, s, s', h, hr => by
    simp only [applyAll] at h
    obtain ⟨s1, h1, h2⟩ := Option.bind_eq_some_iff.mp h
    exact applyAll_runs h2 (apply_runs h1 hr)

theorem apply_test {hw : Hw} {atoi : String → Int} {o : Opt} {s s' : St} (h : o.apply hw atoi s = some s') :
    (s'.isTestRun = true ↔ s.isTestRun = true ∨ o = .test) ∧
    (s'.fuzzing = true ↔ s.fuzzing = true ∨ o = .fuzzIterative ∨ o = .fuzzRandom) := by
  cases o with
  | maxSimd l =>
    simp only [Opt.apply, Option.map_eq_some_iff] at h
    obtain ⟨_, _, rfl⟩ := h; simp
  | size v =>
    simp only [Opt.apply] at h
    split at h
    · cases h
    · obtain ⟨_, _, rfl⟩ := Option.map_eq_some_iff.mp h; simp
  | lut v =>
    simp only [Opt.apply] at h
    split at h
    · cases h
    · obtain ⟨_, _, rfl⟩ := Option.map_eq_some_iff.mp h; simp
  | runs v =>
    simp only [Opt.apply] at h
    split at h
    · cases h
    · split at h <;> (cases h; simp)
  | family f => cases f <;> (cases h; simp)
  | _ => simp only [Opt.apply] at h; first | (cases h; simp) | (split at h; cases h; cases h; simp)

theorem applyAll_test {hw : Hw} {atoi : String → Int} : ∀ {os : List Opt} {s s' : St},
    applyAll hw atoi os s = some s' →
    (s'.isTestRun = true ↔ s.isTestRun = true ∨ Opt.test ∈ os) ∧
    (s'.fuzzing = true ↔ s.fuzzing = true ∨ Opt.fuzzIterative ∈ os ∨ Opt.fuzzRandom ∈ os)
  | [], s, s', h => by simp only [applyAll, Option.some.injEq] at h; subst h; simp
  | o :: os, s, s', h => by
    simp only [applyAll] at h
    obtain ⟨s1, h1, h2⟩ := Option.bind_eq_some_iff.mp h
    obtain ⟨a1, a2⟩ := apply_test h1
    obtain ⟨b1, b2⟩ := applyAll_test h2
    rw [b1, a1, b2, a2]
    simp only [List.mem_cons, eq_comm (b := o)]
    constructor
    · exact or_assoc
    · constructor
      · rintro ((h | h | h) | h | h) <;> simp [h]
      · rintro (h | (h | h) | h | h) <;> simp [h]

/-! ### The property -/

/-- The options ask for a test of a file, none asks for the fuzzer, and the tool accepts them. -/
structure TestOf (hw : Hw) (atoi : String → Int) (os : List Opt) : Prop where
  accepted : (commandLine hw atoi (os.flatMap Opt.words)).isSome = true
  noFuzz : Opt.fuzzIterative ∉ os ∧ Opt.fuzzRandom ∉ os
  documented : ∀ o ∈ os, o.documented = true
  short : ¬(Opt.short false ∈ os ∧ Opt.lowEntropyShort ∈ os)

theorem TestOf.state {hw : Hw} {atoi : String → Int} {os : List Opt} (h : TestOf hw atoi os) :
    ∃ s, commandLine hw atoi (os.flatMap Opt.words) = some s ∧ 1 ≤ s.runs ∧ s.fuzzing = false ∧
      (s.isTestRun = true ↔ Opt.test ∈ os) ∧ ∀ c, selected s.args c = true ↔ ∀ o ∈ os, o.admits (what c) := by
  obtain ⟨s, hs⟩ := Option.isSome_iff_exists.mp h.accepted
  have h1 := commandLine_parse hs
  rw [parse_all] at h1
  obtain ⟨t1, t2⟩ := applyAll_test h1
  refine ⟨s, hs, applyAll_runs h1 (by decide), ?_, by rw [t1]; simp, C42_selection_partial hw atoi os s hs h.documented h.short⟩
  have := h.noFuzz
  rw [← Bool.not_eq_true, t2]
  simp [this.1, this.2]

/-- C45: no false alarm. If every codec all options let through restores the file in every attempt, the
tool exits with 0, however often the clock makes it repeat the calls. -/
theorem C45_no_false_alarm (e : Env) (hw : Hw) (atoi : String → Int) (os : List Opt) (b : Mem × Mem)
    (ho : TestOf hw atoi os) (data : List Byte) (hf : e.file = some data) (hn : data.length < 4294967296)
    (h : ∀ c, (∀ o ∈ os, o.admits (what c)) → c ≠ .MemCopy → ∀ a : Attempt e data c, a.Ok) :
    tool e hw atoi (os.flatMap Opt.words) b = 0 := by
  obtain ⟨s, hs, hr, hz, _, hsel⟩ := ho.state
  unfold tool exitCode
  rw [hs]
  simp only [hz, Bool.false_eq_true, if_false, hf]
  by_cases h0 : data.length = 0
  · rw [if_pos h0]
  · rw [if_neg h0, loop_ok hr hn (by omega) codecs b (fun c _ hc => h c ((hsel c).mp hc))]
    rfl

/-- C45: with `--test`, a codec all options let through that restores the file in no attempt makes the
tool exit with a value other than 0. Missing: a decompressor that leaves the output buffer as it is
(`C45_stale_violated`), one that reports a wrong size (`C45_size_violated`), and files that cannot be
read (`C45_no_file_violated`). -/
theorem C45_detects_partial (e : Env) (hw : Hw) (atoi : String → Int) (os : List Opt) (b : Mem × Mem)
    (ho : TestOf hw atoi os) (ht : Opt.test ∈ os) (data : List Byte) (hf : e.file = some data) (h0 : 0 < data.length)
    (hn : data.length < 4294967296) (c : CodecT) (hc : c ≠ .MemCopy) (hx : ¬Excused e c)
    (hsel : ∀ o ∈ os, o.admits (what c)) (h : ∀ a : Attempt e data c, ¬a.Ok) :
    tool e hw atoi (os.flatMap Opt.words) b = -1 := by
  obtain ⟨s, hs, hr, hz, hts, hs'⟩ := ho.state
  unfold tool exitCode
  rw [hs]
  simp only [hz, Bool.false_eq_true, if_false, hf]
  rw [if_neg (by omega), loop_fails hr hn hc (hts.mpr ht) hx h ((hs' c).mpr hsel) codecs b (mem_codecs c)]
  rfl

theorem loop_bench {e : Env} {s : St} {data : List Byte} (ht : s.isTestRun = false) :
    ∀ (cs : List CodecT) (b : Mem × Mem), benchLoop e s data cs b = true
  | [], _ => rfl
  | c :: cs, b => by
    have ih := loop_bench (e := e) (data := data) ht cs
    rw [benchLoop]
    cases selected s.args c
    · exact ih b
    · have : ∃ b', oneCodec e s data c b = some b' := by
        unfold oneCodec
        simp only [ht]
        repeat' split
        all_goals first | exact ⟨_, rfl⟩ | (rename_i h; cases h) | (rename_i h _; cases h)
      obtain ⟨b', hb⟩ := this
      rw [hb]
      exact ih b'

/-- C45: without `--test` the exit code says nothing about the codecs: it is always 0. -/
theorem C45_benchmark (e : Env) (hw : Hw) (atoi : String → Int) (os : List Opt) (b : Mem × Mem)
    (ho : TestOf hw atoi os) (ht : Opt.test ∉ os) : tool e hw atoi (os.flatMap Opt.words) b = 0 := by
  obtain ⟨s, hs, _, hz, hts, _⟩ := ho.state
  have : s.isTestRun = false := by rw [← Bool.not_eq_true, hts]; exact ht
  unfold tool exitCode
  rw [hs]
  simp only [hz, Bool.false_eq_true, if_false]
  split
  · rfl
  · rw [loop_bench this]; split <;> rfl

/-- C45 is violated: a test of a file that cannot be read exits with 0. -/
theorem C45_no_file_violated (e : Env) (hw : Hw) (atoi : String → Int) (os : List Opt) (b : Mem × Mem)
    (ho : TestOf hw atoi os) (hf : e.file = none) : tool e hw atoi (os.flatMap Opt.words) b = 0 := by
  obtain ⟨s, hs, _, hz, _, _⟩ := ho.state
  unfold tool exitCode
  rw [hs]
  simp [hz, hf]

/-- The options of the examples: `--test`. -/
theorem testOf_test (hw : Hw) (atoi : String → Int) : TestOf hw atoi [.test] where
  accepted := rfl
  noFuzz := by decide
  documented := by decide
  short := by decide

/-- An environment in which every codec stores the file as it is; `size` is what the decompressors
report, and those in `lazy` write nothing. -/
def storeEnv (data : List Byte) (size : Nat) (lazy : CodecT → Bool) : Env where
  file := some data
  comp := fun _ n _ buf => (n, fun i => if i < n then data.getD i 0 else buf i)
  dec := fun c n buf _ out => (size, fun i => if lazy c = false ∧ i < n then buf i else out i)
  moreComp := fun _ => 3
  moreDec := fun _ => 5
  on := fun _ => true
  fuzz := fun _ => true

theorem store_ok {data : List Byte} (h0 : 0 < data.length) {size : Nat} (hs : size ≠ 0) {c : CodecT}
    (a : Attempt (storeEnv data size fun _ => false) data c) : a.Ok := by
  refine ⟨show data.length ≠ 0 by omega, hs, fun i hi => ?_⟩
  show (if false = false ∧ i < data.length then a.buf' i else a.out i) = _
  rw [if_pos ⟨rfl, hi⟩, a.agree i hi]
  show (if i < data.length then data.getD i 0 else a.buf i) = _
  rw [if_pos hi]

/-- The hypotheses of `C45_no_false_alarm` can be met. -/
example (hw : Hw) (atoi : String → Int) (b : Mem × Mem) :
    tool (storeEnv [1, 2, 3] 3 fun _ => false) hw atoi ["--test"] b = 0 :=
  C45_no_false_alarm _ hw atoi [.test] b (testOf_test hw atoi) [1, 2, 3] rfl (by decide)
    (fun _ _ _ a => store_ok (by decide) (by decide) a)

/-- The hypotheses of `C45_detects_partial` can be met: a compressor that keeps all bytes but one, and a
decompressor that writes a constant for it. -/
example (hw : Hw) (atoi : String → Int) (b : Mem × Mem) :
    tool { storeEnv [1, 2, 3] 3 (fun _ => false) with
            dec := fun c n buf _ out => (3, fun i => if c = .Extreme8 ∧ i = 1 then 9 else if i < n then buf i else out i) }
      hw atoi ["--test"] b = -1 :=
  C45_detects_partial _ hw atoi [.test] b (testOf_test hw atoi) (by decide) [1, 2, 3] rfl (by decide) (by decide)
    .Extreme8 (by decide) (by rintro (⟨h, _⟩ | ⟨h, _⟩) <;> cases h) (by intro o ho; simp only [List.mem_singleton] at ho; subst ho; trivial)
    (fun a h => by
      have := h.2.2 1 (by decide)
      exact absurd (show (9 : Byte) = 2 from this) (by decide))

/-- C45 is violated: the size the decompressor reports is not compared with the size of the file. For
every file there are codecs whose decompressors all report a wrong size, and the test exits with 0. -/
theorem C45_size_violated (hw : Hw) (atoi : String → Int) (b : Mem × Mem) (data : List Byte) (h0 : 0 < data.length)
    (hn : data.length < 4294967296) :
    ∃ e : Env, e.file = some data ∧ (∀ c (a : Attempt e data c), a.result.1 = data.length + 1) ∧
      tool e hw atoi ["--test"] b = 0 :=
  ⟨storeEnv data (data.length + 1) fun _ => false, rfl, fun _ _ => rfl,
    C45_no_false_alarm _ hw atoi [.test] b (testOf_test hw atoi) data rfl hn
      (fun _ _ _ a => store_ok h0 (by omega) a)⟩

/-- C45 is violated: the output buffer is not cleared between the codecs (`memset` is called with the size
0). There are codecs of which one has a decompressor that writes nothing at all, and the test exits with 0. -/
theorem C45_stale_violated (hw : Hw) (atoi : String → Int) :
    ∃ (e : Env) (data : List Byte) (c : CodecT) (b : Mem × Mem), e.file = some data ∧ 0 < data.length ∧ ¬Excused e c ∧
      (∀ n buf cap out, (e.dec c n buf cap out).2 = out) ∧ (∀ i, i < data.length → b.2 i ≠ data.getD i 0) ∧
      tool e hw atoi ["--test"] b = 0 := by
  refine ⟨storeEnv [7] 1 (fun c => c == .Extreme16Sym), [7], .Extreme16Sym, (fun _ => 0, fun _ => 0), rfl, by decide, ?_, ?_, ?_, ?_⟩
  · rintro (⟨h, _⟩ | ⟨h, _⟩) <;> cases h
  · intro n buf cap out
    funext i
    show (if (CodecT.Extreme16Sym == CodecT.Extreme16Sym) = false ∧ i < n then buf i else out i) = out i
    rw [if_neg (fun h => absurd h.1 (by decide))]
  · intro i hi
    have h1 : i < 1 := hi
    have : i = 0 := by omega
    subst this
    decide
  · have hs : commandLine hw atoi ["--test"] = some { isTestRun := true, noDelays := true } := rfl
    unfold tool exitCode
    rw [hs]
    decide +kernel

/-- C45: the buffer for the compressed data has at least the size every codec advertises. -/
theorem C45_buffer (n : Nat) :
    bounds n ≤ toolBuffer n ∧ n ≤ toolBuffer n ∧ shBounds n ≤ toolBuffer n ∧ mmBounds n ≤ toolBuffer n ∧
      leBounds n ≤ toolBuffer n := by
  simp only [toolBuffer, mmtfBounds]
  omega

end Hrk.Cli
