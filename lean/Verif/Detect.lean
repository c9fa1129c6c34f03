import Verif.RleX

/-
CPU feature detection (src/simd_platform.c).
-/

namespace Hrk

/-- The feature flags (src/simd_platform.c:29-53). -/
inductive Feat where
  | sse | sse2 | sse3 | ssse3 | sse41 | sse42 | avx | avx2 | fma3
  | avx512F | avx512PF | avx512ER | avx512CD | avx512BW | avx512DQ | avx512VL | avx512IFMA | avx512VBMI
  | avx512VNNI | avx512VBMI2 | avx512POPCNTDQ | avx512BITALG | avx5124VNNIW | avx5124FMAPS | aesNi
  deriving DecidableEq, Repr

/-- What the machine answers: highest leaf (`cpuid` leaf 0, a signed `int`), registers of the leaves
1 and 7, and `XCR0` as `_xgetbv` returns it (src/simd_platform.c:10-13, 60-62, 67, 74, 91). -/
structure Hw where
  idCount : Int
  l1ecx : Nat
  l1edx : Nat
  l7ebx : Nat
  l7ecx : Nat
  l7edx : Nat
  xcr0 : Nat
  deriving Repr

/-- The process wide variables (src/simd_platform.c:28-53). -/
structure Flags where
  detected : Bool
  on : Feat → Bool

/-- Static initialisers (src/simd_platform.c:28-53). -/
def flags0 : Flags := ⟨false, fun _ => false⟩

/-- The stores of leaf 1, in program order (src/simd_platform.c:64-85). -/
def writes1 (hw : Hw) : List (Feat × Bool) :=
  (if hw.l1ecx.testBit 27 && hw.l1ecx.testBit 28 then [(.avx, hw.xcr0 &&& 6 != 0)] else []) ++
  [(.sse, hw.l1edx.testBit 25), (.sse2, hw.l1edx.testBit 26), (.sse3, hw.l1ecx.testBit 0),
   (.ssse3, hw.l1ecx.testBit 9), (.sse41, hw.l1ecx.testBit 19), (.sse42, hw.l1ecx.testBit 20),
   (.fma3, hw.l1ecx.testBit 12), (.aesNi, hw.l1ecx.testBit 25)]

/-- The stores of leaf 7 (src/simd_platform.c:90-108). -/
def writes7 (hw : Hw) : List (Feat × Bool) :=
  [(.avx2, hw.l7ebx.testBit 5), (.avx512F, hw.l7ebx.testBit 16), (.avx512PF, hw.l7ebx.testBit 26),
   (.avx512ER, hw.l7ebx.testBit 27), (.avx512CD, hw.l7ebx.testBit 28), (.avx512BW, hw.l7ebx.testBit 30),
   (.avx512DQ, hw.l7ebx.testBit 17), (.avx512VL, hw.l7ebx.testBit 31), (.avx512IFMA, hw.l7ebx.testBit 21),
   (.avx512VBMI, hw.l7ecx.testBit 1), (.avx512VNNI, hw.l7ecx.testBit 11), (.avx512VBMI2, hw.l7ecx.testBit 6),
   (.avx512POPCNTDQ, hw.l7ecx.testBit 14), (.avx512BITALG, hw.l7ecx.testBit 12), (.avx5124VNNIW, hw.l7edx.testBit 2),
   (.avx5124FMAPS, hw.l7edx.testBit 3)]

/-- All stores to flags of one run of the detection (src/simd_platform.c:60-109). -/
def writes (hw : Hw) : List (Feat × Bool) :=
  (if hw.idCount ≥ 1 then writes1 hw else []) ++ (if hw.idCount ≥ 7 then writes7 hw else [])

/-- One store to a flag (e.g. src/simd_platform.c:78). -/
def setFlag (on : Feat → Bool) (w : Feat × Bool) : Feat → Bool := fun f => if f = w.1 then w.2 else on f

/-- `_DetectCPUFeatures` (src/simd_platform.c:55-112). -/
def detect (hw : Hw) (s : Flags) : Flags :=
  if s.detected then s else ⟨true, (writes hw).foldl setFlag s.on⟩

/-- The flags the dispatchers look at (e.g. src/rleX_extreme_cpu.h:95-108, src/mmtf.c:42-48). -/
def Flags.cpu (s : Flags) : Cpu :=
  ⟨s.on .sse2, s.on .ssse3, s.on .sse41, s.on .avx, s.on .avx2, s.on .avx512F⟩

/-! ### Several threads -/

/-- Where a thread is inside `_DetectCPUFeatures`: before the test of `_CpuFeaturesDetected`, with
`ws` flags still to store, or returned (src/simd_platform.c:57, 64-109, 111-112). -/
inductive TPc where
  | test
  | store (ws : List (Feat × Bool))
  | done

/-- Shared flags (src/simd_platform.c:28-53) and one program counter per thread. -/
structure TS where
  sh : Flags
  pc : Nat → TPc

/-- Thread `t` executes its next load or store of a shared variable (src/simd_platform.c:55-112). All threads see the same `cpuid`
answers and memory is sequentially consistent. -/
def tstep (hw : Hw) (t : Nat) (s : TS) : TS :=
  match s.pc t with
  | .test => { s with pc := fun u => if u = t then (if s.sh.detected then .done else .store (writes hw)) else s.pc u }
  | .store [] => ⟨⟨true, s.sh.on⟩, fun u => if u = t then .done else s.pc u⟩
  | .store (w :: ws) => ⟨⟨s.sh.detected, setFlag s.sh.on w⟩, fun u => if u = t then .store ws else s.pc u⟩
  | .done => s

/-- A schedule is the list of the threads that execute `_DetectCPUFeatures` (src/simd_platform.c:55-112). -/
def trun (hw : Hw) (sched : List Nat) (s : TS) : TS := sched.foldl (fun s t => tstep hw t s) s

/-- Every thread is about to call `_DetectCPUFeatures` for the first time in the process
(src/simd_platform.c:28-57). -/
def ts0 : TS := ⟨flags0, fun _ => .test⟩

/-! ### Lemmas -/

/-- The final value of a flag. -/
def final (hw : Hw) : Feat → Bool := (writes hw).foldl setFlag flags0.on

/-- Each flag is stored at most once. -/
theorem writes_nodup (hw : Hw) : ((writes hw).map Prod.fst).Nodup := by
  unfold writes writes1 writes7
  by_cases h1 : hw.idCount ≥ 1 <;> by_cases h7 : hw.idCount ≥ 7 <;>
    by_cases ha : (hw.l1ecx.testBit 27 && hw.l1ecx.testBit 28) = true <;>
    simp [h1, h7, ha]

theorem foldl_setFlag_notin {on : Feat → Bool} {ws : List (Feat × Bool)} {f : Feat} (h : f ∉ ws.map Prod.fst) :
    (ws.foldl setFlag on) f = on f := by
  induction ws generalizing on with
  | nil => rfl
  | cons w ws ih =>
    simp only [List.map_cons, List.mem_cons, not_or] at h
    rw [List.foldl_cons, ih h.2]
    simp only [setFlag, if_neg h.1]

theorem foldl_setFlag_in {on : Feat → Bool} {ws : List (Feat × Bool)} (hn : (ws.map Prod.fst).Nodup) {w : Feat × Bool}
    (h : w ∈ ws) : (ws.foldl setFlag on) w.1 = w.2 := by
  induction ws generalizing on with
  | nil => cases h
  | cons v ws ih =>
    simp only [List.map_cons, List.nodup_cons] at hn
    rw [List.foldl_cons]
    rcases List.mem_cons.mp h with h | h
    · subst h
      rw [foldl_setFlag_notin hn.1]
      simp [setFlag]
    · exact ih hn.2 h

theorem final_in {hw : Hw} {w : Feat × Bool} (h : w ∈ writes hw) : final hw w.1 = w.2 :=
  foldl_setFlag_in (writes_nodup hw) h

/-- What holds under every schedule: a flag is final, or still false and yet to be stored by every
thread inside the detection; once the detection is marked done all flags are final. -/
structure TInv (hw : Hw) (s : TS) : Prop where
  val : ∀ f, s.sh.on f = final hw f ∨ s.sh.on f = false
  pend : ∀ t ws, s.pc t = .store ws → (∀ w ∈ ws, w ∈ writes hw) ∧
    ∀ f, s.sh.on f = final hw f ∨ f ∈ ws.map Prod.fst
  det : s.sh.detected = true → ∀ f, s.sh.on f = final hw f
  done : ∀ t, s.pc t = .done → s.sh.detected = true

theorem final_or {hw : Hw} {f : Feat} : final hw f = false ∨ f ∈ (writes hw).map Prod.fst := by
  by_cases h : f ∈ (writes hw).map Prod.fst
  · exact Or.inr h
  · left
    unfold final
    rw [foldl_setFlag_notin h]
    rfl

theorem tstep_inv {hw : Hw} {s : TS} (h : TInv hw s) (t : Nat) : TInv hw (tstep hw t s) := by
  unfold tstep
  split
  · next hpc =>
    by_cases hd : s.sh.detected = true
    · refine ⟨h.val, ?_, h.det, ?_⟩
      · intro u ws hu
        simp only [hd, if_true] at hu
        by_cases hut : u = t
        · rw [if_pos hut] at hu; cases hu
        · rw [if_neg hut] at hu; exact h.pend u ws hu
      · intro u _; exact hd
    · refine ⟨h.val, ?_, h.det, ?_⟩
      · intro u ws hu
        simp only [hd] at hu
        by_cases hut : u = t
        · rw [if_pos hut] at hu
          cases hu
          refine ⟨fun w hw => hw, ?_⟩
          intro f
          rcases h.val f with h1 | h1
          · exact Or.inl h1
          · rcases final_or (hw := hw) (f := f) with h2 | h2
            · exact Or.inl (h1.trans h2.symm)
            · exact Or.inr h2
        · rw [if_neg hut] at hu; exact h.pend u ws hu
      · intro u hu
        simp only [hd] at hu
        by_cases hut : u = t
        · rw [if_pos hut] at hu; cases hu
        · rw [if_neg hut] at hu; exact h.done u hu
  · next hpc =>
    have hall : ∀ f, s.sh.on f = final hw f := by
      intro f
      rcases (h.pend t [] hpc).2 f with h1 | h1
      · exact h1
      · simp at h1
    refine ⟨fun f => Or.inl (hall f), ?_, fun _ => hall, fun _ _ => rfl⟩
    intro u ws hu
    by_cases hut : u = t
    · simp only [if_pos hut] at hu; cases hu
    · simp only [if_neg hut] at hu; exact h.pend u ws hu
  · next w ws hpc =>
    have hw' := h.pend t _ hpc
    have hset : ∀ f, s.sh.on f = final hw f → setFlag s.sh.on w f = final hw f := by
      intro f hf
      unfold setFlag
      by_cases h1 : f = w.1
      · rw [if_pos h1, h1, final_in (hw'.1 w (List.mem_cons_self ..))]
      · rw [if_neg h1]; exact hf
    have hw1 : setFlag s.sh.on w w.1 = final hw w.1 := by
      unfold setFlag
      rw [if_pos rfl, final_in (hw'.1 w (List.mem_cons_self ..))]
    refine ⟨?_, ?_, ?_, ?_⟩
    · intro f
      by_cases h1 : f = w.1
      · left; rw [h1]; exact hw1
      · rcases h.val f with h2 | h2
        · exact Or.inl (hset f h2)
        · right; simp only [setFlag, if_neg h1]; exact h2
    · intro u vs hu
      by_cases hut : u = t
      · simp only [if_pos hut] at hu
        cases hu
        refine ⟨fun v hv => hw'.1 v (List.mem_cons_of_mem _ hv), ?_⟩
        intro f
        rcases hw'.2 f with h2 | h2
        · exact Or.inl (hset f h2)
        · simp only [List.map_cons, List.mem_cons] at h2
          rcases h2 with h2 | h2
          · left; rw [h2]; exact hw1
          · exact Or.inr h2
      · simp only [if_neg hut] at hu
        have := h.pend u vs hu
        refine ⟨this.1, ?_⟩
        intro f
        rcases this.2 f with h2 | h2
        · exact Or.inl (hset f h2)
        · exact Or.inr h2
    · intro hd f
      exact hset f (h.det hd f)
    · intro u hu
      by_cases hut : u = t
      · simp only [if_pos hut] at hu; cases hu
      · simp only [if_neg hut] at hu; exact h.done u hu
  · exact h

theorem trun_inv {hw : Hw} (sched : List Nat) {s : TS} (h : TInv hw s) : TInv hw (trun hw sched s) := by
  induction sched generalizing s with
  | nil => exact h
  | cons t ts ih => exact ih (tstep_inv h t)

theorem ts0_inv (hw : Hw) : TInv hw ts0 :=
  ⟨fun _ => Or.inr rfl, (by intro t ws h; cases h), (by intro h; cases h), (by intro t h; cases h)⟩

end Hrk
