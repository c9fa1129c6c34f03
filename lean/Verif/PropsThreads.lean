import Verif.Threads
import Verif.PropsSame

/-
Theorems about threads that use the library at the same time.
-/

namespace Hrk

/-- A call that read `cpu` from the flags does the same as a call in a process with a single thread on the same machine `hw`:
every compressor and decompressor of the table, for all arguments. -/
def AsAlone (hw : Hw) (cpu : Cpu) (row : Row) : Prop :=
  (∀ junk m0 pIn n pOut outSize,
    row.comp.run cpu junk m0 pIn n pOut outSize = row.comp.run (detect hw flags0).cpu junk m0 pIn n pOut outSize) ∧
  ∀ a : DArgs, row.dec.run cpu a = row.dec.run (detect hw flags0).cpu a

theorem detect_final (hw : Hw) : (detect hw flags0).cpu = viewCpu (final hw) := rfl

/-- C53: on x86, however the instructions of any number of threads and the delayed stores of their store buffers interleave, every
call of every thread, the first ones included, does what it would do in a process with a single thread. -/
theorem C53_threads_x86 (hw : Hw) (sched : List Ev) (t : Nat) (cpu : Cpu) (hx : (t, cpu) ∈ (Tso.run hw sched).log) (row : Row) :
    AsAlone hw cpu row := by
  have h := (Tso.run_inv hw sched).log _ hx
  have h2 : cpu = (detect hw flags0).cpu := h
  subst h2
  exact ⟨fun _ _ _ _ _ _ => rfl, fun _ => rfl⟩

/-- A processor and operating system with everything up to AVX2. -/
def hwAvx2 : Hw := ⟨7, 2 ^ 9 + 2 ^ 19 + 2 ^ 27 + 2 ^ 28, 2 ^ 26, 2 ^ 5, 0, 0, 6⟩

/-- Two threads whose first calls overlap: both run the detection, thread 1 still has all its stores in its buffer when it reads the
flags, and thread 0's call returns after half of its own stores reached memory. -/
def overlap : List Ev :=
  [.exec 0, .exec 1] ++ (List.replicate 26 [Ev.exec 0, .exec 1]).flatten ++ List.replicate 12 (.flush 0) ++
    (List.replicate 8 [Ev.exec 1, .exec 0]).flatten

example : (Tso.run hwAvx2 overlap).log.map (fun x => (x.1, x.2.avx2)) = [(0, true), (1, true)] ∧
    (Tso.run hwAvx2 overlap).mem none = false := by decide +kernel

/-- What stays true if nothing orders the accesses to different variables, neither compiler nor processor. -/
structure SameResult (hw : Hw) (x y : Cpu) (row : Row) : Prop where
  /-- The compressor does what it does in a process with a single thread. -/
  comp : ∀ junk m0 pIn n pOut outSize,
    row.comp.run x junk m0 pIn n pOut outSize = row.comp.run (detect hw flags0).cpu junk m0 pIn n pOut outSize
  /-- What one call has compressed the other decompresses (unless it is one of the low entropy codecs of C07 and C08). -/
  trip : row.comp ≠ .le false false → row.comp ≠ .le true false →
    ∀ junk m0, RoundTrip32 (row.comp.run x junk m0) (row.dec.run y)

/-- C53, partial: even if a load may return any value stored so far and the stores of the detection happen in any order, no call uses
an instruction set that the detection does not report, all compressors but `rle8_packed_multi` produce what they produce with a
single thread, and streams can be exchanged between threads. Missing: `rle8_packed_multi`, see `C53_unordered_violated`. -/
theorem C53_unordered_partial (hw : Hw) (s : Wk) (hs : Wk.Reach hw s) (t u : Nat) (x y : Cpu) (hx : (t, x) ∈ s.log)
    (_hy : (u, y) ∈ s.log) :
    (let d := (detect hw flags0).cpu
     (x.sse2 → d.sse2) ∧ (x.ssse3 → d.ssse3) ∧ (x.sse41 → d.sse41) ∧ (x.avx → d.avx) ∧ (x.avx2 → d.avx2) ∧ (x.avx512f → d.avx512f)) ∧
    ∀ row ∈ table, row.comp ≠ .r8 false true → SameResult hw x y row := by
  obtain ⟨view, h1, h2⟩ := hs.inv.log _ hx
  have h3 : x = viewCpu view := h1
  subst h3
  refine ⟨⟨h2 _, h2 _, h2 _, h2 _, h2 _, h2 _⟩, fun row hr hn => ⟨?_, ?_⟩⟩
  · intro junk m0 pIn n pOut outSize
    exact C47_table_partial row hr hn junk m0 _ _ pIn n pOut outSize
  · intro l1 l2 junk m0
    exact C38_table_partial row hr l1 l2 _ _ junk m0

/-- All six reads of a dispatcher may be stale as long as nothing has been stored. -/
theorem Wk.Reach.stale {hw : Hw} {s : Wk} (hs : Wk.Reach hw s) {t : Nat} (hpc : s.pc t = .read (fun _ => false) dispatchFlags)
    (ho : ∀ f, s.own t (some f) = false) : ∃ s', Wk.Reach hw s' ∧ (t, (⟨false, false, false, false, false, false⟩ : Cpu)) ∈ s'.log := by
  suffices H : ∀ (todo : List Feat) (s : Wk), Wk.Reach hw s → s.pc t = .read (fun _ => false) todo →
      (∀ f, s.own t (some f) = false) → ∃ s', Wk.Reach hw s' ∧ (t, viewCpu fun _ => false) ∈ s'.log from H _ s hs hpc ho
  intro todo
  induction todo with
  | nil => intro s hs hpc _; exact ⟨_, hs.step (.ret hpc), List.mem_cons_self⟩
  | cons f fs ih =>
    intro s hs hpc ho
    refine ih _ (hs.step (.read (v := false) hpc (.inr ⟨ho f, rfl⟩))) ?_ ho
    show updN _ _ _ t = _
    rw [updN_self]
    simp

/-- C53 is false in a memory without order: a thread can see the detection as done while it still sees the old flags, and
`rle8_packed_multi` then writes another stream (24 bytes) than with a single thread (25 bytes). -/
theorem C53_unordered_violated : ∃ s, Wk.Reach hwAvx2 s ∧ ∃ t cpu, (t, cpu) ∈ s.log ∧
    ∃ out out', R8Cfg.compress ⟨false, true⟩ cpu (some inp18) 18 true 1000 = .ok 24 out ∧
      R8Cfg.compress ⟨false, true⟩ (detect hwAvx2 flags0).cpu (some inp18) 18 true 1000 = .ok 25 out' := by
  have r1 := Wk.Reach.init (hw := hwAvx2) |>.step (.test (t := 0) (v := false) rfl (.inr ⟨rfl, rfl⟩))
  have r2 := r1.step (.store (t := 0) (w := (none, true)) (ws := allWrites hwAvx2) (by simp [updN]) (by decide))
  have r3 := r2.step (.test (t := 1) (v := true) (by simp [updN, wk0]) (.inl (by simp)))
  obtain ⟨s, hs, hl⟩ := r3.stale (t := 1) (by simp [updN]) (fun f => by simp [updN, wk0])
  refine ⟨s, hs, 1, _, hl, ?_⟩
  have hc : (detect hwAvx2 flags0).cpu = ⟨true, true, true, true, true, false⟩ := by rfl
  rw [hc]
  exact C47_packed_multi_violated _ _ _ _ _ _ _ _ _ _

end Hrk
