import Verif.Detect

/-
Several threads that use the library at the same time: the flags of src/simd_platform.c are plain variables without locks or atomic
accesses. Two memories: the store buffers of x86 processors, and a memory without any ordering between variables.
-/

namespace Hrk

/-- A shared variable: `_CpuFeaturesDetected` (`none`) or a flag (src/simd_platform.c:28-53). -/
abbrev Loc := Option Feat

/-- The flags a dispatcher may look at (e.g. src/rleX_extreme_cpu.h:95-108). -/
def dispatchFlags : List Feat := [.sse2, .ssse3, .sse41, .avx, .avx2, .avx512F]

/-- What a dispatcher goes by when it has read `v` (src/rleX_extreme_cpu.h:95-109). -/
def viewCpu (v : Feat → Bool) : Cpu := ⟨v .sse2, v .ssse3, v .sse41, v .avx, v .avx2, v .avx512F⟩

/-- Where a thread is in a call of a compressor or decompressor: at the test at the beginning of `_DetectCPUFeatures`, with stores
left to do, or reading flags (src/simd_platform.c:55-112, e.g. src/rleX_extreme_cpu.h:95-108). Simplification: every flag is read
once, whether the dispatcher gets that far or not. -/
inductive CPc where
  | test
  | store (ws : List (Loc × Bool))
  | read (view : Feat → Bool) (todo : List Feat)

/-- All stores of one run of the detection, in program order (src/simd_platform.c:60-111). -/
def allWrites (hw : Hw) : List (Loc × Bool) := (writes hw).map (fun w => (some w.1, w.2)) ++ [(none, true)]

/-! ### x86: a store buffer for every thread -/

/-- Memory, store buffers (oldest store first), program counters, and the finished calls with what they read
(src/simd_platform.c:28-53). -/
structure Tso where
  mem : Loc → Bool
  buf : Nat → List (Loc × Bool)
  pc : Nat → CPc
  log : List (Nat × Cpu)

/-- What happens next: a thread executes an instruction, or its oldest buffered store reaches memory (hardware; the program is
src/simd_platform.c:55-112). -/
inductive Ev where
  | exec (t : Nat)
  | flush (t : Nat)

/-- A load: the newest store to the variable in the own buffer, else memory (e.g. src/simd_platform.c:57). -/
def Tso.load (s : Tso) (t : Nat) (l : Loc) : Bool :=
  match ((s.buf t).reverse.find? fun w => w.1 == l) with
  | some w => w.2
  | none => s.mem l

/-- `f` with the value at `t` replaced. -/
def updN {α : Type} (f : Nat → α) (t : Nat) (x : α) : Nat → α := fun u => if u = t then x else f u

/-- One step (src/simd_platform.c:55-112, then the dispatcher of the called function). A thread that has finished a call begins the
next one. -/
def Tso.step (hw : Hw) (s : Tso) : Ev → Tso
  | .exec t => match s.pc t with
    | .test => { s with pc := updN s.pc t (if s.load t none then .read (fun _ => false) dispatchFlags else .store (allWrites hw)) }
    | .store (w :: ws) => { s with buf := updN s.buf t (s.buf t ++ [w]), pc := updN s.pc t (.store ws) }
    | .store [] => { s with pc := updN s.pc t (.read (fun _ => false) dispatchFlags) }
    | .read view (f :: fs) =>
      { s with pc := updN s.pc t (.read (fun g => if g = f then s.load t (some f) else view g) fs) }
    | .read view [] => { s with pc := updN s.pc t .test, log := (t, viewCpu view) :: s.log }
  | .flush t => match s.buf t with
    | [] => s
    | w :: r => { s with mem := fun l => if l = w.1 then w.2 else s.mem l, buf := updN s.buf t r }

/-- The process has just been started (src/simd_platform.c:28-53). -/
def tso0 : Tso := ⟨fun _ => false, fun _ => [], fun _ => .test, []⟩

/-- A schedule of any number of threads and flushes (the steps are those of src/simd_platform.c:55-112). -/
def Tso.run (hw : Hw) (sched : List Ev) : Tso := sched.foldl (Tso.step hw) tso0

/-! ### A memory without order -/

/-- For every variable the values that were stored so far, which thread stored to it, program counters, finished calls
(src/simd_platform.c:28-53). -/
structure Wk where
  hist : Loc → List Bool
  own : Nat → Loc → Bool
  pc : Nat → CPc
  log : List (Nat × Cpu)

/-- A load may return any value that was ever stored, or, if the thread has not stored to the variable itself, the initial value
(e.g. src/simd_platform.c:57). -/
def Wk.may (s : Wk) (t : Nat) (l : Loc) (v : Bool) : Prop := v ∈ s.hist l ∨ (s.own t l = false ∧ v = false)

/-- One step (src/simd_platform.c:55-112). The stores of the detection may be done in any order, as a compiler may reorder them. -/
inductive Wk.Step (hw : Hw) : Wk → Wk → Prop
  | test {s t v} : s.pc t = .test → s.may t none v →
      Step hw s { s with pc := updN s.pc t (if v then .read (fun _ => false) dispatchFlags else .store (allWrites hw)) }
  | store {s t w ws} : s.pc t = .store ws → w ∈ ws →
      Step hw s { s with
        hist := fun l => if l = w.1 then w.2 :: s.hist l else s.hist l
        own := updN s.own t (fun l => if l = w.1 then true else s.own t l)
        pc := updN s.pc t (.store (ws.erase w)) }
  | stored {s t} : s.pc t = .store [] → Step hw s { s with pc := updN s.pc t (.read (fun _ => false) dispatchFlags) }
  | read {s t view f fs v} : s.pc t = .read view (f :: fs) → s.may t (some f) v →
      Step hw s { s with pc := updN s.pc t (.read (fun g => if g = f then v else view g) fs) }
  | ret {s t view} : s.pc t = .read view [] → Step hw s { s with pc := updN s.pc t .test, log := (t, viewCpu view) :: s.log }

/-- The process has just been started (src/simd_platform.c:28-53). -/
def wk0 : Wk := ⟨fun _ => [], fun _ _ => false, fun _ => .test, []⟩

/-- The states that can come about (the steps are those of src/simd_platform.c:55-112). -/
inductive Wk.Reach (hw : Hw) : Wk → Prop
  | init : Reach hw wk0
  | step {s s'} : Reach hw s → Wk.Step hw s s' → Reach hw s'

/-! ### Invariants -/

theorem updN_self {α : Type} (f : Nat → α) (t : Nat) (x : α) : updN f t x t = x := if_pos rfl

theorem updN_ne {α : Type} (f : Nat → α) {t u : Nat} (x : α) (h : u ≠ t) : updN f t x u = f u := if_neg h

/-- The value a variable ends up with. -/
def finalL (hw : Hw) : Loc → Bool
  | none => true
  | some f => final hw f

theorem allWrites_final {hw : Hw} {w : Loc × Bool} (h : w ∈ allWrites hw) : w.2 = finalL hw w.1 := by
  unfold allWrites at h
  rcases List.mem_append.mp h with h | h
  · obtain ⟨x, hx, rfl⟩ := List.mem_map.mp h
    exact (final_in hx).symm
  · simp only [List.mem_cons, List.not_mem_nil, or_false] at h
    subst h; rfl

theorem allWrites_all {hw : Hw} (f : Feat) : final hw f = false ∨ some f ∈ (allWrites hw).map Prod.fst := by
  rcases final_or (hw := hw) (f := f) with h | h
  · exact .inl h
  · right
    obtain ⟨w, hw', rfl⟩ := List.mem_map.mp h
    unfold allWrites
    rw [List.map_append, List.map_map]
    exact List.mem_append_left _ (List.mem_map.mpr ⟨w, hw', rfl⟩)

/-- What holds with store buffers under every schedule. -/
structure TsoInv (hw : Hw) (s : Tso) : Prop where
  val : ∀ t, ∀ w ∈ s.buf t, w.2 = finalL hw w.1
  mem : ∀ l, s.mem l = finalL hw l ∨ s.mem l = false
  det : s.mem none = true → ∀ f, s.mem (some f) = final hw f
  fifo : ∀ t pre v post, s.buf t = pre ++ (none, v) :: post → ∀ f, s.mem (some f) = final hw f ∨ some f ∈ pre.map Prod.fst
  pend : ∀ t ws, s.pc t = .store ws → (∃ pre, allWrites hw = pre ++ ws) ∧
    ∀ f, s.mem (some f) = final hw f ∨ some f ∈ (s.buf t).map Prod.fst ∨ some f ∈ ws.map Prod.fst
  last : ∀ t, s.pc t = .store [] → s.mem none = true ∨ (none, true) ∈ s.buf t
  read : ∀ t view todo, s.pc t = .read view todo → (s.mem none = true ∨ (none, true) ∈ s.buf t) ∧
    ∀ f, f ∈ dispatchFlags → f ∈ todo ∨ view f = final hw f
  log : ∀ x ∈ s.log, x.2 = viewCpu (final hw)

/-- A thread that has seen the detection as done reads final values only. -/
theorem TsoInv.load {hw : Hw} {s : Tso} (hI : TsoInv hw s) {t : Nat} (hd : s.mem none = true ∨ (none, true) ∈ s.buf t) (f : Feat) :
    s.load t (some f) = final hw f := by
  unfold Tso.load
  cases hq : ((s.buf t).reverse.find? fun w => w.1 == some f) with
  | some w =>
    have h1 : w.1 = some f := by simpa using List.find?_some hq
    have h2 := hI.val t w (List.mem_reverse.mp (List.mem_of_find?_eq_some hq))
    rw [h1] at h2
    exact h2
  | none =>
    show s.mem (some f) = final hw f
    rcases hd with hd | hd
    · exact hI.det hd f
    · obtain ⟨pre, post, hb⟩ := List.append_of_mem hd
      rcases hI.fifo t pre true post hb f with h | h
      · exact h
      · obtain ⟨w, hw', hwf⟩ := List.mem_map.mp h
        rw [List.find?_eq_none] at hq
        have := hq w (List.mem_reverse.mpr (by rw [hb]; exact List.mem_append_left _ hw'))
        rw [hwf] at this
        simp at this

/-- Loading the mark. -/
theorem TsoInv.load_det {hw : Hw} {s : Tso} (hI : TsoInv hw s) {t : Nat} (h : s.load t none = true) :
    s.mem none = true ∨ (none, true) ∈ s.buf t := by
  unfold Tso.load at h
  cases hq : ((s.buf t).reverse.find? fun w => w.1 == none) with
  | some w =>
    have h1 : w.1 = none := by simpa using List.find?_some hq
    have hm := List.mem_reverse.mp (List.mem_of_find?_eq_some hq)
    have h2 := hI.val t w hm
    rw [h1] at h2
    right
    have : w = (none, true) := Prod.ext h1 h2
    rw [← this]; exact hm
  | none =>
    rw [hq] at h
    exact .inl h

/-- Only the program counter of `t` changes, to `p`, and the log grows by calls that read final values. -/
theorem TsoInv.pcStep {hw : Hw} {s : Tso} (hI : TsoInv hw s) {t : Nat} {p : CPc} {log : List (Nat × Cpu)}
    (hp : ∀ ws, p = .store ws → ws = allWrites hw)
    (hr : ∀ view todo, p = .read view todo → (s.mem none = true ∨ (none, true) ∈ s.buf t) ∧
      ∀ f, f ∈ dispatchFlags → f ∈ todo ∨ view f = final hw f)
    (hl : ∀ x ∈ log, x.2 = viewCpu (final hw)) : TsoInv hw { s with pc := updN s.pc t p, log := log } where
  val := hI.val
  mem := hI.mem
  det := hI.det
  fifo := hI.fifo
  pend := by
    intro u ws h
    by_cases hu : u = t
    · subst hu
      dsimp only at h
      rw [show updN s.pc u p u = p from updN_self _ _ _] at h
      have hws := hp ws h
      subst hws
      refine ⟨⟨[], rfl⟩, fun f => ?_⟩
      rcases hI.mem (some f) with hm | hm
      · exact .inl hm
      · rcases allWrites_all (hw := hw) f with h3 | h3
        · exact .inl (hm.trans h3.symm)
        · exact .inr (.inr h3)
    · dsimp only at h
      rw [show updN s.pc t p u = s.pc u from updN_ne _ _ hu] at h
      exact hI.pend u ws h
  last := by
    intro u h
    by_cases hu : u = t
    · subst hu
      dsimp only at h
      rw [show updN s.pc u p u = p from updN_self _ _ _] at h
      have := hp [] h
      unfold allWrites at this
      simp at this
    · dsimp only at h
      rw [show updN s.pc t p u = s.pc u from updN_ne _ _ hu] at h
      exact hI.last u h
  read := by
    intro u view todo h
    by_cases hu : u = t
    · subst hu
      dsimp only at h
      rw [show updN s.pc u p u = p from updN_self _ _ _] at h
      exact hr view todo h
    · dsimp only at h
      rw [show updN s.pc t p u = s.pc u from updN_ne _ _ hu] at h
      exact hI.read u view todo h
  log := hl

theorem TsoInv.step {hw : Hw} {s : Tso} (hI : TsoInv hw s) (e : Ev) : TsoInv hw (s.step hw e) := by
  cases e with
  | exec t =>
    unfold Tso.step
    simp only
    cases hpc : s.pc t with
    | test =>
      simp only
      by_cases hl : s.load t none = true
      · rw [if_pos hl]
        refine hI.pcStep (fun _ h => nomatch h) ?_ hI.log
        intro view todo h
        cases h
        exact ⟨hI.load_det hl, fun f hf => .inl hf⟩
      · rw [if_neg hl]
        exact hI.pcStep (fun _ h => by cases h; rfl) (fun _ _ h => nomatch h) hI.log
    | store ws =>
      cases ws with
      | nil =>
        refine hI.pcStep (fun _ h => nomatch h) ?_ hI.log
        intro view todo h
        cases h
        exact ⟨hI.last t hpc, fun f hf => .inl hf⟩
      | cons w ws =>
        obtain ⟨⟨pre0, hpre0⟩, hpend⟩ := hI.pend t _ hpc
        have hwm : w ∈ allWrites hw := by rw [hpre0]; simp
        refine ⟨?_, hI.mem, hI.det, ?_, ?_, ?_, ?_, hI.log⟩
        · intro u x hx
          by_cases hu : u = t
          · subst hu
            dsimp only at hx
            rw [show updN s.buf u (s.buf u ++ [w]) u = s.buf u ++ [w] from updN_self _ _ _] at hx
            rcases List.mem_append.mp hx with hx | hx
            · exact hI.val u x hx
            · simp only [List.mem_cons, List.not_mem_nil, or_false] at hx
              subst hx
              exact allWrites_final hwm
          · dsimp only at hx
            rw [show updN s.buf t (s.buf t ++ [w]) u = s.buf u from updN_ne _ _ hu] at hx
            exact hI.val u x hx
        · intro u pre v post hb f
          by_cases hu : u = t
          · subst hu
            dsimp only at hb
            rw [show updN s.buf u (s.buf u ++ [w]) u = s.buf u ++ [w] from updN_self _ _ _] at hb
            rcases List.eq_nil_or_concat post with hp | ⟨post', x, hp⟩
            · subst hp
              obtain ⟨h1, h2⟩ := List.append_inj' hb rfl
              -- the mark is the last store of the detection
              have hw1 : w = (none, v) := by simpa using h2
              have hws : ws = [] := by
                rcases List.eq_nil_or_concat ws with h | ⟨ws', y, h⟩
                · exact h
                · exfalso
                  rw [h] at hpre0
                  unfold allWrites at hpre0
                  have h3 : pre0 ++ w :: (ws'.concat y) = (pre0 ++ w :: ws') ++ [y] := by simp
                  rw [h3] at hpre0
                  have h4 := (List.append_inj' hpre0 rfl).1
                  have h5 : w ∈ (writes hw).map (fun w => ((some w.1 : Loc), w.2)) := by rw [h4]; simp
                  obtain ⟨z, -, hz⟩ := List.mem_map.mp h5
                  rw [hw1] at hz
                  cases hz
              rcases hpend f with h | h | h
              · exact .inl h
              · exact .inr (h1 ▸ h)
              · rw [hws, hw1] at h
                simp at h
            · rw [hp, List.concat_eq_append, ← List.cons_append, ← List.append_assoc] at hb
              exact hI.fifo u pre v post' (List.append_inj' hb rfl).1 f
          · dsimp only at hb
            rw [show updN s.buf t (s.buf t ++ [w]) u = s.buf u from updN_ne _ _ hu] at hb
            exact hI.fifo u pre v post hb f
        · intro u ws2 h
          by_cases hu : u = t
          · subst hu
            dsimp only at h
            rw [show updN s.pc u (.store ws) u = .store ws from updN_self _ _ _] at h
            cases h
            refine ⟨⟨pre0 ++ [w], by rw [hpre0]; simp⟩, fun f => ?_⟩
            dsimp only
            rw [show updN s.buf u (s.buf u ++ [w]) u = s.buf u ++ [w] from updN_self _ _ _, List.map_append]
            rcases hpend f with h | h | h
            · exact .inl h
            · exact .inr (.inl (List.mem_append_left _ h))
            · rw [List.map_cons, List.mem_cons] at h
              rcases h with h | h
              · exact .inr (.inl (List.mem_append_right _ (by simp [h])))
              · exact .inr (.inr h)
          · dsimp only at h
            rw [show updN s.pc t (.store ws) u = s.pc u from updN_ne _ _ hu] at h
            show _ ∧ ∀ f, _ ∨ some f ∈ (updN s.buf t (s.buf t ++ [w]) u).map Prod.fst ∨ _
            rw [updN_ne _ _ hu]
            exact hI.pend u ws2 h
        · intro u h
          by_cases hu : u = t
          · subst hu
            dsimp only at h
            rw [show updN s.pc u (.store ws) u = .store ws from updN_self _ _ _] at h
            cases h
            right
            show (none, true) ∈ updN s.buf u (s.buf u ++ [w]) u
            rw [updN_self]
            unfold allWrites at hpre0
            have := (List.append_inj' hpre0 rfl).2
            simp only [List.cons.injEq, and_true] at this
            rw [this]; simp
          · dsimp only at h
            rw [show updN s.pc t (.store ws) u = s.pc u from updN_ne _ _ hu] at h
            show _ ∨ (none, true) ∈ updN s.buf t (s.buf t ++ [w]) u
            rw [updN_ne _ _ hu]
            exact hI.last u h
        · intro u view todo h
          by_cases hu : u = t
          · subst hu
            dsimp only at h
            rw [show updN s.pc u (.store ws) u = .store ws from updN_self _ _ _] at h
            cases h
          · dsimp only at h
            rw [show updN s.pc t (.store ws) u = s.pc u from updN_ne _ _ hu] at h
            show (_ ∨ (none, true) ∈ updN s.buf t (s.buf t ++ [w]) u) ∧ _
            rw [updN_ne _ _ hu]
            exact hI.read u view todo h
    | read view todo =>
      obtain ⟨hd, hv⟩ := hI.read t view todo hpc
      cases todo with
      | nil =>
        refine hI.pcStep (fun _ h => nomatch h) (fun _ _ h => nomatch h) ?_
        intro x hx
        rcases List.mem_cons.mp hx with rfl | hx
        · have hv' : ∀ f ∈ dispatchFlags, view f = final hw f := fun f hf => (hv f hf).resolve_left (by simp)
          show viewCpu view = viewCpu (final hw)
          unfold viewCpu
          rw [hv' .sse2 (by decide), hv' .ssse3 (by decide), hv' .sse41 (by decide), hv' .avx (by decide), hv' .avx2 (by decide),
            hv' .avx512F (by decide)]
        · exact hI.log x hx
      | cons f fs =>
        refine hI.pcStep (fun _ h => nomatch h) ?_ hI.log
        intro view2 todo2 h
        cases h
        refine ⟨hd, fun g hg => ?_⟩
        show g ∈ fs ∨ (if g = f then s.load t (some f) else view g) = final hw g
        by_cases hgf : g = f
        · subst hgf
          rw [if_pos rfl]
          exact .inr (hI.load hd g)
        · rw [if_neg hgf]
          rcases hv g hg with h | h
          · exact .inl ((List.mem_cons.mp h).resolve_left hgf)
          · exact .inr h
  | flush t =>
    unfold Tso.step
    simp only
    cases hb : s.buf t with
    | nil => exact hI
    | cons w r =>
      simp only
      have hwv := hI.val t w (by rw [hb]; simp)
      -- memory only gets closer to the final values
      have hup : ∀ l, s.mem l = finalL hw l → (if l = w.1 then w.2 else s.mem l) = finalL hw l := by
        intro l h
        by_cases hl : l = w.1
        · rw [if_pos hl, hwv, hl]
        · rw [if_neg hl]; exact h
      have hgone : ∀ f, some f ∈ (s.buf t).map Prod.fst → (if (some f : Loc) = w.1 then w.2 else s.mem (some f)) = final hw f ∨
          some f ∈ r.map Prod.fst := by
        intro f h
        rw [hb, List.map_cons, List.mem_cons] at h
        rcases h with h | h
        · left; rw [if_pos h, hwv, ← h]; rfl
        · exact .inr h
      have hmark : ∀ u, (s.mem none = true ∨ (none, true) ∈ s.buf u) →
          (if (none : Loc) = w.1 then w.2 else s.mem none) = true ∨ (none, true) ∈ updN s.buf t r u := by
        intro u h
        rcases h with h | h
        · exact .inl (hup none h)
        · by_cases hu : u = t
          · subst hu
            rw [updN_self]
            rw [hb] at h
            rcases List.mem_cons.mp h with h | h
            · left; rw [← h]; rfl
            · exact .inr h
          · rw [updN_ne _ _ hu]; exact .inr h
      refine ⟨?_, ?_, ?_, ?_, ?_, ?_, ?_, hI.log⟩
      · intro u x hx
        by_cases hu : u = t
        · subst hu
          dsimp only at hx
          rw [show updN s.buf u r u = r from updN_self _ _ _] at hx
          exact hI.val u x (by rw [hb]; exact List.mem_cons_of_mem _ hx)
        · dsimp only at hx
          rw [show updN s.buf t r u = s.buf u from updN_ne _ _ hu] at hx
          exact hI.val u x hx
      · intro l
        show (if l = w.1 then w.2 else s.mem l) = _ ∨ (if l = w.1 then w.2 else s.mem l) = _
        by_cases hl : l = w.1
        · rw [if_pos hl, hl]; exact .inl hwv
        · rw [if_neg hl]; exact hI.mem l
      · intro h f
        show (if (some f : Loc) = w.1 then w.2 else s.mem (some f)) = final hw f
        by_cases hl : (none : Loc) = w.1
        · have hw1 : w = (none, w.2) := Prod.ext hl.symm rfl
          have := hI.fifo t [] w.2 r (by rw [hb, List.nil_append, ← hw1]) f
          exact hup (some f) (this.resolve_right (by simp))
        · have h2 : (if (none : Loc) = w.1 then w.2 else s.mem none) = true := h
          rw [if_neg hl] at h2
          exact hup (some f) (hI.det h2 f)
      · intro u pre v post hbu f
        show (if (some f : Loc) = w.1 then w.2 else s.mem (some f)) = final hw f ∨ _
        by_cases hu : u = t
        · subst hu
          dsimp only at hbu
          rw [show updN s.buf u r u = r from updN_self _ _ _] at hbu
          rcases hI.fifo u (w :: pre) v post (by rw [hb, hbu]; rfl) f with h | h
          · exact .inl (hup (some f) h)
          · rw [List.map_cons, List.mem_cons] at h
            rcases h with h | h
            · left; rw [if_pos h, hwv, ← h]; rfl
            · exact .inr h
        · dsimp only at hbu
          rw [show updN s.buf t r u = s.buf u from updN_ne _ _ hu] at hbu
          exact (hI.fifo u pre v post hbu f).imp_left (hup (some f))
      · intro u ws h
        obtain ⟨h1, h2⟩ := hI.pend u ws h
        refine ⟨h1, fun f => ?_⟩
        show (if (some f : Loc) = w.1 then w.2 else s.mem (some f)) = final hw f ∨ some f ∈ (updN s.buf t r u).map Prod.fst ∨ _
        rcases h2 f with h3 | h3 | h3
        · exact .inl (hup (some f) h3)
        · by_cases hu : u = t
          · subst hu
            rw [updN_self]
            exact (hgone f h3).imp_right .inl
          · rw [updN_ne _ _ hu]; exact .inr (.inl h3)
        · exact .inr (.inr h3)
      · intro u h
        exact hmark u (hI.last u h)
      · intro u view todo h
        obtain ⟨h1, h2⟩ := hI.read u view todo h
        exact ⟨hmark u h1, h2⟩

theorem tso0_inv (hw : Hw) : TsoInv hw tso0 where
  val := by intro t w h; exact absurd h (List.not_mem_nil)
  mem := fun _ => .inr rfl
  det := fun h => nomatch h
  fifo := by intro t pre v post h; exact absurd h (by simp [tso0])
  pend := fun _ _ h => nomatch h
  last := fun _ h => nomatch h
  read := fun _ _ _ h => nomatch h
  log := by intro x h; exact absurd h (List.not_mem_nil)

theorem Tso.run_inv (hw : Hw) (sched : List Ev) : TsoInv hw (Tso.run hw sched) := by
  unfold Tso.run
  suffices ∀ (l : List Ev) s, TsoInv hw s → TsoInv hw (l.foldl (Tso.step hw) s) from this sched _ (tso0_inv hw)
  intro l
  induction l with
  | nil => intro s h; exact h
  | cons e l ih => intro s h; exact ih _ (h.step e)

/-- What holds in a memory without order. -/
structure WkInv (hw : Hw) (s : Wk) : Prop where
  hist : ∀ l, ∀ v ∈ s.hist l, v = finalL hw l
  pend : ∀ t ws, s.pc t = .store ws → ∀ w ∈ ws, w ∈ allWrites hw
  read : ∀ t view todo, s.pc t = .read view todo → ∀ f, view f = true → final hw f = true
  log : ∀ x ∈ s.log, ∃ view : Feat → Bool, x.2 = viewCpu view ∧ ∀ f, view f = true → final hw f = true

theorem WkInv.pcStep {hw : Hw} {s : Wk} (hI : WkInv hw s) {t : Nat} {p : CPc}
    (hp : ∀ ws, p = .store ws → ∀ w ∈ ws, w ∈ allWrites hw)
    (hr : ∀ view todo, p = .read view todo → ∀ f, view f = true → final hw f = true) :
    WkInv hw { s with pc := updN s.pc t p } where
  hist := hI.hist
  pend := by
    intro u ws h
    by_cases hu : u = t
    · subst hu
      dsimp only at h
      rw [show updN s.pc u p u = p from updN_self _ _ _] at h
      exact hp ws h
    · dsimp only at h
      rw [show updN s.pc t p u = s.pc u from updN_ne _ _ hu] at h
      exact hI.pend u ws h
  read := by
    intro u view todo h
    by_cases hu : u = t
    · subst hu
      dsimp only at h
      rw [show updN s.pc u p u = p from updN_self _ _ _] at h
      exact hr view todo h
    · dsimp only at h
      rw [show updN s.pc t p u = s.pc u from updN_ne _ _ hu] at h
      exact hI.read u view todo h
  log := hI.log

theorem WkInv.step {hw : Hw} {s s' : Wk} (hI : WkInv hw s) (h : Wk.Step hw s s') : WkInv hw s' := by
  cases h with
  | @test t v hpc hv =>
    refine hI.pcStep ?_ ?_
    · intro ws h w hw'
      split at h
      · exact nomatch h
      · cases h; exact hw'
    · intro view todo h f hf
      split at h
      · cases h; exact nomatch hf
      · exact nomatch h
  | @store t w ws hpc hw' =>
    have h1 := hI.pcStep (t := t) (p := .store (ws.erase w))
      (fun ws2 h x hx => by cases h; exact hI.pend t ws hpc x (List.mem_of_mem_erase hx)) (fun _ _ h => nomatch h)
    refine ⟨?_, h1.pend, h1.read, h1.log⟩
    intro l v hv
    by_cases hl : l = w.1
    · dsimp only at hv
      rw [if_pos hl] at hv
      rcases List.mem_cons.mp hv with rfl | hv
      · rw [hl]; exact allWrites_final (hI.pend t ws hpc w hw')
      · exact hI.hist l v hv
    · dsimp only at hv
      rw [if_neg hl] at hv
      exact hI.hist l v hv
  | @stored t hpc => exact hI.pcStep (fun _ h => nomatch h) (fun view todo h f hf => by cases h; exact nomatch hf)
  | @read t view f fs v hpc hv =>
    refine hI.pcStep (fun _ h => nomatch h) ?_
    intro view2 todo h g hg
    cases h
    by_cases hgf : g = f
    · subst hgf
      dsimp only at hg
      rw [show (if g = g then v else view g) = v from if_pos rfl] at hg
      rcases hv with hv | ⟨-, hv⟩
      · exact (hI.hist _ v hv).symm.trans hg
      · rw [hg] at hv; exact nomatch hv
    · dsimp only at hg
      rw [show (if g = f then v else view g) = view g from if_neg hgf] at hg
      exact hI.read t view _ hpc g hg
  | @ret t view hpc =>
    have h1 := hI.pcStep (t := t) (p := .test) (fun _ h => nomatch h) (fun _ _ h => nomatch h)
    refine ⟨h1.hist, h1.pend, h1.read, ?_⟩
    intro x hx
    rcases List.mem_cons.mp hx with rfl | hx
    · exact ⟨view, rfl, hI.read t view [] hpc⟩
    · exact hI.log x hx

theorem Wk.Reach.inv {hw : Hw} {s : Wk} (h : Wk.Reach hw s) : WkInv hw s := by
  induction h with
  | init =>
    exact ⟨by intro l v h; exact absurd h List.not_mem_nil, (fun _ _ h => nomatch h), (fun _ _ _ h => nomatch h),
      by intro x h; exact absurd h List.not_mem_nil⟩
  | step _ h ih => exact ih.step h

end Hrk
