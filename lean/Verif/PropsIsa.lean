import Verif.Isa
import Verif.PropsDetect
import Verif.PropsCli

/-!
C71: a call only runs functions whose instructions the processor has and the operating system supports, and the tool only those its
`--max-simd` leaves.
-/
namespace Hrk

/-- The instructions of an extension can be executed: the processor reports it, and the operating system saves its registers. -/
def Works (hw : Hw) (f : Feat) : Prop := Reported hw f ∧ Usable hw f

/-- No function of the list raises an invalid instruction fault, whatever instructions its compiler chose. -/
def NoFault (hw : Hw) (calls : List Target) : Prop := ∀ t ∈ calls, ∀ f ∈ t.feats, Works hw f

/-- An x86-64 machine: SSE and SSE2 are there, a processor that reports an extension reports those it was built on, and the operating
system saves the registers of what is reported. Without the last see `C35_avx2_violated`. -/
structure Machine (hw : Hw) : Prop where
  sse : Reported hw .sse
  sse2 : Reported hw .sse2
  ssse3 : Reported hw .ssse3 → Reported hw .sse3
  sse41 : Reported hw .sse41 → Reported hw .ssse3
  sse42 : Reported hw .sse42 → Reported hw .sse41
  avx : Reported hw .avx → Reported hw .sse42
  avx2 : Reported hw .avx2 → Reported hw .avx
  avx512 : Reported hw .avx512F → Reported hw .avx2
  os : hw.l7ebx.testBit 5 = true ∨ hw.l1ecx.testBit 28 = true →
    hw.l1ecx.testBit 27 = true ∧ hw.xcr0.testBit 1 = true ∧ hw.xcr0.testBit 2 = true
  os512 : hw.l7ebx.testBit 16 = true → hw.l1ecx.testBit 27 = true ∧ hw.xcr0.testBit 1 = true ∧ hw.xcr0.testBit 2 = true ∧
    hw.xcr0.testBit 5 = true ∧ hw.xcr0.testBit 6 = true ∧ hw.xcr0.testBit 7 = true

/-- What a call may have read of the flags: each is set only if the detection sets it. This covers calls made while another thread is
still in the detection, and a tool that has switched extensions off. -/
structure ReadOf (cpu all : Cpu) : Prop where
  ssse3 : cpu.ssse3 = true → all.ssse3 = true
  sse41 : cpu.sse41 = true → all.sse41 = true
  avx : cpu.avx = true → all.avx = true
  avx2 : cpu.avx2 = true → all.avx2 = true
  avx512f : cpu.avx512f = true → all.avx512f = true

/-! ### Every dispatcher asks for the flag of the function it runs -/

/-- The flag that guards functions of a target. -/
def Target.guard (cpu : Cpu) : Target → Bool
  | .none => true
  | .ssse3 => cpu.ssse3
  | .sse41 => cpu.sse41
  | .avx => cpu.avx
  | .avx2 => cpu.avx2
  | .avx512f => cpu.avx512f
  | .aes => false

theorem Simd.guard_x (c : XCfg) (cpu : Cpu) : (c.simd cpu).target.guard cpu = true := by
  unfold XCfg.simd
  rcases cpu with ⟨p, q, _, _, r, _⟩
  cases c.odd <;> cases p <;> cases q <;> cases r <;> rfl

theorem Simd.guard_sl (c : SlCfg) (cpu : Cpu) : (c.simd cpu).target.guard cpu = true := by
  unfold SlCfg.simd
  rcases cpu with ⟨p, q, _, _, r, _⟩
  cases c.odd <;> cases p <;> cases q <;> cases r <;> rfl

theorem Simd.guard_sl8 (c : SlCfg) (cpu : Cpu) : (c.simd8 cpu).target.guard cpu = true := by
  unfold SlCfg.simd8
  rcases cpu with ⟨p, q, _, _, r, _⟩
  cases r <;> rfl

theorem pair_guard {cpu : Cpu} {a t : Target} (ha : a.guard cpu = true) (h : t ∈ [Target.none, a]) : t.guard cpu = true := by
  simp only [List.mem_cons, List.not_mem_nil, or_false] at h
  rcases h with rfl | rfl
  · rfl
  · exact ha

theorem CName.calls_guard {f : CName} {cpu : Cpu} {t : Target} (h : t ∈ f.calls cpu) : t.guard cpu = true := by
  cases f with
  | r8 single packed =>
    refine pair_guard ?_ h
    rcases cpu with ⟨_, _, _, _, r, _⟩
    cases single <;> cases r <;> rfl
  | x S unb packed => exact pair_guard (Simd.guard_x _ _) h
  | sl N S unb =>
    refine pair_guard ?_ h
    split
    · exact Simd.guard_sl8 _ _
    · exact Simd.guard_sl _ _
  | sh N S unb mode =>
    refine pair_guard ?_ h
    cases mode
    · dsimp only
      split
      · exact Simd.guard_sl8 _ _
      · exact Simd.guard_sl _ _
    · rfl
    · rfl
  | x128 unb packed => rw [List.mem_singleton.mp h]; rfl
  | rsh => rw [List.mem_singleton.mp h]; rfl
  | mm => rw [List.mem_singleton.mp h]; rfl
  | le short onlyMax => rw [List.mem_singleton.mp h]; rfl

theorem decEven_guard (cpu : Cpu) : (decEven cpu).guard cpu = true := by
  unfold decEven
  rcases cpu with ⟨_, s, a, b, d, e⟩
  cases a <;> cases b <;> cases d <;> cases e <;> rfl

theorem decOddX_guard (cpu : Cpu) : (decOddX cpu).guard cpu = true := by
  unfold decOddX
  rcases cpu with ⟨_, s, a, b, d, e⟩
  cases s <;> cases d <;> rfl

theorem decOddSl_guard (cpu : Cpu) : (decOddSl cpu).guard cpu = true := by
  unfold decOddSl
  rcases cpu with ⟨_, s, a, b, d, e⟩
  cases s <;> cases a <;> cases b <;> cases d <;> rfl

theorem dec128_guard (cpu : Cpu) : (dec128 cpu).guard cpu = true := by
  unfold dec128
  rcases cpu with ⟨_, s, a, b, d, e⟩
  cases b <;> cases e <;> rfl

theorem decLe_guard (cpu : Cpu) (k : Nat) : (decLe cpu k).guard cpu = true := by
  unfold decLe
  rcases cpu with ⟨_, s, a, b, d, e⟩
  split
  · rfl
  · split
    · cases d <;> rfl
    · cases b <;> rfl

theorem DName.calls_guard {f : DName} {cpu : Cpu} {k : Nat} {t : Target} (h : t ∈ f.calls cpu k) : t.guard cpu = true := by
  cases f with
  | r8 packed => exact pair_guard (decEven_guard cpu) h
  | x S unb packed =>
    refine pair_guard ?_ h
    split
    · exact decOddX_guard cpu
    · exact decEven_guard cpu
  | sl N S unb =>
    refine pair_guard ?_ h
    split
    · exact decOddSl_guard cpu
    · exact decEven_guard cpu
  | sh N S unb mode =>
    refine pair_guard ?_ h
    split
    · exact decOddSl_guard cpu
    · exact decEven_guard cpu
  | x128 unb packed => exact pair_guard (dec128_guard cpu) h
  | rsh => rw [List.mem_singleton.mp h]; rfl
  | mm => rw [List.mem_singleton.mp h]; rfl
  | le short => exact pair_guard (decLe_guard cpu k) h

theorem rle8mCalls_guard {d : Bool} {cpu : Cpu} {k : Nat} {t : Target} (h : t ∈ rle8mCalls d cpu k) : t.guard cpu = true := by
  cases d
  · rw [List.mem_singleton.mp h]; rfl
  · exact pair_guard (decLe_guard cpu k) h

theorem mmtf128Calls_guard {cpu : Cpu} {aIn aOut : Nat} {t : Target} (h : t ∈ mmtf128Calls cpu aIn aOut) : t.guard cpu = true := by
  refine pair_guard ?_ h
  split
  · rfl
  · split
    · rename_i h; exact h.2.2
    · rfl

theorem mmtf256Calls_guard {cpu : Cpu} {t : Target} (h : t ∈ mmtf256Calls cpu) : t.guard cpu = true := by
  refine pair_guard ?_ h
  rcases cpu with ⟨p, _, _, _, r, _⟩
  cases p <;> cases r <;> rfl

/-- The functions a call of the library runs: any compressor, any decompressor, `rle8m`, and the two transforms that dispatch. -/
def LibCall (cpu : Cpu) (ts : List Target) : Prop :=
  (∃ f : CName, ts = f.calls cpu) ∨ (∃ (f : DName) (k : Nat), ts = f.calls cpu k) ∨ (∃ d k, ts = rle8mCalls d cpu k) ∨
    (∃ aIn aOut, ts = mmtf128Calls cpu aIn aOut) ∨ ts = mmtf256Calls cpu

theorem LibCall.guard {cpu : Cpu} {ts : List Target} (h : LibCall cpu ts) {t : Target} (ht : t ∈ ts) : t.guard cpu = true := by
  rcases h with ⟨f, rfl⟩ | ⟨f, k, rfl⟩ | ⟨d, k, rfl⟩ | ⟨a, b, rfl⟩ | rfl
  · exact CName.calls_guard ht
  · exact DName.calls_guard ht
  · exact rle8mCalls_guard ht
  · exact mmtf128Calls_guard ht
  · exact mmtf256Calls_guard ht

/-! ### A guarded function is executable -/

theorem Machine.feats {hw : Hw} (M : Machine hw) {t : Target} (h : t.guard (detect hw flags0).cpu = true) :
    ∀ f ∈ t.feats, Works hw f := by
  have use := C35_usable_partial hw M.os M.os512
  have rep : ∀ f, (detect hw flags0).on f = true → Reported hw f := fun f h => ((C35_reports hw f).mp h).1
  have s1 : Works hw .sse := ⟨M.sse, trivial⟩
  have s2 : Works hw .sse2 := ⟨M.sse2, M.sse2⟩
  have w3 : Reported hw .sse3 → Works hw .sse3 := fun h => ⟨h, trivial⟩
  have w4 : Reported hw .ssse3 → Works hw .ssse3 := fun h => ⟨h, h⟩
  have w5 : Reported hw .sse41 → Works hw .sse41 := fun h => ⟨h, h⟩
  have w6 : Reported hw .sse42 → Works hw .sse42 := fun h => ⟨h, trivial⟩
  have w7 : Reported hw .avx → Works hw .avx := fun h => ⟨h, h.1, h.2, M.os (.inr h.2)⟩
  have w8 : Reported hw .avx2 → Works hw .avx2 := fun h => ⟨h, h.1, h.2, M.os (.inl h.2)⟩
  have w9 : Reported hw .avx512F → Works hw .avx512F := fun h => ⟨h, h.1, h.2, M.os512 h.2⟩
  cases t with
  | none => simp only [Target.feats, List.forall_mem_cons, List.not_mem_nil, false_implies, implies_true, and_true]; exact ⟨s1, s2⟩
  | ssse3 =>
    have r := rep .ssse3 h
    simp only [Target.feats, List.forall_mem_cons, List.not_mem_nil, false_implies, implies_true, and_true]
    exact ⟨s1, s2, w3 (M.ssse3 r), w4 r⟩
  | sse41 =>
    have r := rep .sse41 h
    simp only [Target.feats, List.forall_mem_cons, List.not_mem_nil, false_implies, implies_true, and_true]
    exact ⟨s1, s2, w3 (M.ssse3 (M.sse41 r)), w4 (M.sse41 r), w5 r⟩
  | avx =>
    have r := rep .avx h
    have a := M.avx r
    have b := M.sse42 a
    have c := M.sse41 b
    simp only [Target.feats, List.forall_mem_cons, List.not_mem_nil, false_implies, implies_true, and_true]
    exact ⟨s1, s2, w3 (M.ssse3 c), w4 c, w5 b, w6 a, w7 r⟩
  | avx2 =>
    have r2 := rep .avx2 h
    have r := M.avx2 r2
    have a := M.avx r
    have b := M.sse42 a
    have c := M.sse41 b
    simp only [Target.feats, List.forall_mem_cons, List.not_mem_nil, false_implies, implies_true, and_true]
    exact ⟨s1, s2, w3 (M.ssse3 c), w4 c, w5 b, w6 a, w7 r, w8 r2⟩
  | avx512f =>
    have r5 := rep .avx512F h
    have r2 := M.avx512 r5
    have r := M.avx2 r2
    have a := M.avx r
    have b := M.sse42 a
    have c := M.sse41 b
    simp only [Target.feats, List.forall_mem_cons, List.not_mem_nil, false_implies, implies_true, and_true]
    exact ⟨s1, s2, w3 (M.ssse3 c), w4 c, w5 b, w6 a, w7 r, w8 r2, w9 r5⟩
  | aes => cases h

theorem ReadOf.guard {cpu all : Cpu} (B : ReadOf cpu all) {t : Target} (h : t.guard cpu = true) : t.guard all = true := by
  cases t with
  | none => rfl
  | ssse3 => exact B.ssse3 h
  | sse41 => exact B.sse41 h
  | avx => exact B.avx h
  | avx2 => exact B.avx2 h
  | avx512f => exact B.avx512f h
  | aes => cases h

/-! ### The properties -/

/-- C71: whatever a call of the library has read of the flags, also while other threads are still detecting, it runs no function
compiled for an extension the machine cannot execute. -/
theorem C71_library (hw : Hw) (M : Machine hw) (cpu : Cpu) (B : ReadOf cpu (detect hw flags0).cpu) (ts : List Target)
    (h : LibCall cpu ts) : NoFault hw ts :=
  fun _ ht => M.feats (B.guard (h.guard ht))

/-- C71 under every schedule of threads that make their first calls: what is in the flags at any moment is enough. -/
theorem C71_threads (hw : Hw) (M : Machine hw) (sched : List Nat) (ts : List Target)
    (h : LibCall (trun hw sched ts0).sh.cpu ts) : NoFault hw ts := by
  have I : TInv hw (trun hw sched ts0) := trun_inv sched (ts0_inv hw)
  have key : ∀ f, (trun hw sched ts0).sh.on f = true → (detect hw flags0).on f = true := by
    intro f hf
    rcases I.val f with e | e
    · rw [e] at hf; exact hf
    · rw [e] at hf; cases hf
  exact C71_library hw M _ ⟨key _, key _, key _, key _, key _⟩ ts h

/-- C71 for the tool: after its options were accepted no codec runs a function the machine cannot execute, -/
theorem C71_tool (hw : Hw) (M : Machine hw) (atoi : String → Int) (os : List Cli.Opt) (s : Cli.St)
    (hc : Cli.commandLine hw atoi (os.flatMap Cli.Opt.words) = some s) (ts : List Target)
    (h : LibCall (detect hw s.flags).cpu ts) : NoFault hw ts := by
  have key : ∀ f, (detect hw s.flags).on f = true → (detect hw flags0).on f = true :=
    fun f hf => ((Cli.C43_max_simd hw atoi os s hc f).mp hf).1
  exact C71_library hw M _ ⟨key _, key _, key _, key _, key _⟩ ts h

/-- nor one compiled for an extension above the level `--max-simd` asked for; SSE2 is never excluded, code without attribute uses it. -/
theorem C71_max_simd (hw : Hw) (atoi : String → Int) (os : List Cli.Opt) (s : Cli.St)
    (hc : Cli.commandLine hw atoi (os.flatMap Cli.Opt.words) = some s) (l : Cli.Simd) (hl : Cli.Opt.maxSimd l ∈ os)
    (ts : List Target) (h : LibCall (detect hw s.flags).cpu ts) (t : Target) (ht : t ∈ ts) (f : Feat) (hf : f ∈ t.feats) :
    Cli.level f ≤ max 1 l.level := by
  have key : ∀ f, (detect hw s.flags).on f = true → Cli.level f ≤ l.level :=
    fun f hf => ((Cli.C43_max_simd hw atoi os s hc f).mp hf).2 l hl
  have g := h.guard ht
  have k1 := key .ssse3
  have k2 := key .sse41
  have k3 := key .avx
  have k4 := key .avx2
  have k5 := key .avx512F
  have hmax : 1 ≤ max 1 l.level ∧ l.level ≤ max 1 l.level := ⟨Nat.le_max_left .., Nat.le_max_right ..⟩
  generalize max 1 l.level = mx at hmax ⊢
  cases t with
  | none => simp only [Target.feats, List.mem_cons, List.not_mem_nil, or_false] at hf; rcases hf with rfl | rfl <;> simp [Cli.level]; omega
  | aes => cases g
  | ssse3 =>
    have b := k1 g
    simp only [Cli.level] at b
    simp only [Target.feats, List.mem_cons, List.not_mem_nil, or_false] at hf
    rcases hf with rfl | rfl | rfl | rfl <;> simp only [Cli.level] <;> omega
  | sse41 =>
    have b := k2 g
    simp only [Cli.level] at b
    simp only [Target.feats, List.mem_cons, List.not_mem_nil, or_false] at hf
    rcases hf with rfl | rfl | rfl | rfl | rfl <;> simp only [Cli.level] <;> omega
  | avx =>
    have b := k3 g
    simp only [Cli.level] at b
    simp only [Target.feats, List.mem_cons, List.not_mem_nil, or_false] at hf
    rcases hf with rfl | rfl | rfl | rfl | rfl | rfl | rfl <;> simp only [Cli.level] <;> omega
  | avx2 =>
    have b := k4 g
    simp only [Cli.level] at b
    simp only [Target.feats, List.mem_cons, List.not_mem_nil, or_false] at hf
    rcases hf with rfl | rfl | rfl | rfl | rfl | rfl | rfl | rfl <;> simp only [Cli.level] <;> omega
  | avx512f =>
    have b := k5 g
    simp only [Cli.level] at b
    simp only [Target.feats, List.mem_cons, List.not_mem_nil, or_false] at hf
    rcases hf with rfl | rfl | rfl | rfl | rfl | rfl | rfl | rfl | rfl <;> simp only [Cli.level] <;> omega

/-! ### The decoders as modelled -/

/-- Bytes in the widest register the machine's extensions give. -/
def regWidth (cpu : Cpu) : Nat := if cpu.avx512f then 64 else if cpu.avx2 ∨ cpu.avx then 32 else 16

/-- C71, seen in memory: no decompressor copies in pieces longer than the registers detected, whatever is read as one piece. -/
theorem C71_copy_width (cpu : Cpu) :
    (∀ c : XCfg, (c.decV cpu).copyW ≤ regWidth cpu) ∧ (∀ c : SlCfg, (c.decV cpu).copyW ≤ regWidth cpu) ∧
      (R8Cfg.decV cpu).copyW ≤ regWidth cpu ∧ (decV128 cpu).copyW ≤ regWidth cpu := by
  rcases cpu with ⟨p, s, a, b, d, e⟩
  refine ⟨fun c => ?_, fun c => ?_, ?_, ?_⟩
  · unfold XCfg.decV regWidth
    cases c.odd <;> cases s <;> cases a <;> cases b <;> cases d <;> cases e <;> simp
  · unfold SlCfg.decV regWidth
    by_cases h : c.S = 1
    · simp only [if_pos h]
      cases a <;> cases b <;> cases d <;> cases e <;> simp
    · simp only [if_neg h]
      cases c.odd <;> cases s <;> cases a <;> cases b <;> cases d <;> cases e <;> simp
  · unfold R8Cfg.decV regWidth
    cases a <;> cases b <;> cases d <;> cases e <;> simp
  · unfold decV128 regWidth
    cases b <;> cases d <;> cases e <;> simp

/-! ### Where it fails -/

/-- A processor with SSE 4.2 and no more. -/
def hwSse42 : Hw := ⟨5, 0x00180201, 0x06000000, 0, 0, 0, 3⟩

/-- A processor with AVX-512. -/
def hwAvx512 : Hw := ⟨13, 0x18180201, 0x06000000, 0x00010020, 0, 0, 0xe7⟩

theorem machine_sse42 : Machine hwSse42 := by
  constructor <;> (try simp only [Reported]) <;> decide

theorem machine_avx512 : Machine hwAvx512 := by
  constructor <;> (try simp only [Reported]) <;> decide

/-- C71 is false of the fuzzer of the tool: on a processor without AVX2, and for random inputs on one without AES, it runs functions
the machine cannot execute, -/
theorem C71_fuzz_violated (hw : Hw) :
    (¬ Reported hw .avx2 → ∀ iterative, ¬ NoFault hw (fuzzCalls iterative)) ∧
      (¬ Reported hw .aesNi → ¬ NoFault hw (fuzzCalls false)) := by
  constructor
  · intro h it hn
    have hm : Target.avx2 ∈ fuzzCalls it := by cases it <;> simp [fuzzCalls]
    exact h (hn .avx2 hm .avx2 (by simp [Target.feats])).1
  · intro h hn
    exact h (hn .aes (by simp [fuzzCalls]) .aesNi (by simp [Target.feats])).1

/-- and `--max-simd sse2` does not keep it from running AVX2 functions, on any machine. -/
theorem C71_fuzz_max_simd_violated (iterative : Bool) :
    ∃ t ∈ fuzzCalls iterative, ∃ f ∈ t.feats, max 1 Cli.Simd.sse2.level < Cli.level f :=
  ⟨.avx2, by cases iterative <;> simp [fuzzCalls], .avx2, by simp [Target.feats], by decide⟩

/-! ### Examples -/

/-- The machines of the hypotheses exist, with and without the extensions; different decoders run on them. -/
example : Machine hwSse42 ∧ ¬ Reported hwSse42 .avx2 ∧ ¬ Reported hwSse42 .aesNi ∧
    (DName.x 2 true false).calls (detect hwSse42 flags0).cpu 0 = [.none, .sse41] := by
  refine ⟨machine_sse42, ?_, ?_, by decide +kernel⟩ <;> simp only [Reported] <;> decide

example : Machine hwAvx512 ∧ (DName.x 2 true false).calls (detect hwAvx512 flags0).cpu 0 = [.none, .avx512f] ∧
    (DName.x 3 true false).calls (detect hwAvx512 flags0).cpu 0 = [.none, .avx2] ∧
    (CName.sl 3 4 true).calls (detect hwAvx512 flags0).cpu = [.none, .avx2] :=
  ⟨machine_avx512, by decide +kernel, by decide +kernel, by decide +kernel⟩

/-- Running the AVX2 function there where only SSE 4.1 was detected would be a fault. -/
example : ¬ NoFault hwSse42 [.none, .avx2] := fun h => absurd (h .avx2 (by simp) .avx2 (by simp [Target.feats])).1
  (by simp only [Reported]; decide)

/-- `C71_max_simd` has cases: the AVX-512 machine restricted to SSSE3 runs the function without attribute for 16 bit symbols and the
SSSE3 one for 24 bit symbols. -/
example : ∃ s, Cli.commandLine hwAvx512 (fun _ => 1) ([Cli.Opt.maxSimd .ssse3].flatMap Cli.Opt.words) = some s ∧
    (DName.x 2 true false).calls (detect hwAvx512 s.flags).cpu 0 = [.none, .none] ∧
    (DName.x 3 true false).calls (detect hwAvx512 s.flags).cpu 0 = [.none, .ssse3] :=
  ⟨_, rfl, by decide +kernel, by decide +kernel⟩

end Hrk
