import Verif.PropsRle8m

/-
The OpenCL decoder of `rle8m` (src/rle8_ocl_kernel.h, src/rle8_ocl.c:265-413). Not modelled: the OpenCL runtime itself
(compiling the kernels, moving buffers), which either fails or works; and the logging.
-/

namespace Hrk

/-- The private variables of a work-group: `pStart`, `pOut` as offsets into the buffers, the number of run bytes that are still to
be stored (`count - i`), and `b` (src/rle8_ocl_kernel.h:11-24). -/
structure KS where
  pos : Nat
  o : Nat
  left : Nat
  b : Byte

/-- What a work-group does up to and including its next store (src/rle8_ocl_kernel.h:26-44, 61-79); after its last store it does
nothing. Input buffers are not written by any kernel, so reading them needs no step of its own; `rle` is the copied flag table, or
`b == symbol` for the single symbol kernel. `none`: an access outside a buffer. -/
def kStep (rle : Byte → Bool) (cnt : Byte → Nat) (buf : List Byte) (cap pEnd : Nat) (s : KS) (m : Mem) : Option (KS × Mem) :=
  if 0 < s.left then
    if s.o < cap then some (⟨s.pos, s.o + 1, s.left - 1, s.b⟩, wr m s.o 1 fun _ => s.b) else none
  else if s.pos < pEnd then
    if s.pos < buf.length ∧ s.o < cap then
      let b := buf.getD s.pos 0
      if rle b then
        if s.pos + 1 < buf.length then
          some (⟨s.pos + 2, s.o + 1, cnt (buf.getD (s.pos + 1) 0), b⟩, wr m s.o 1 fun _ => b)
        else none
      else some (⟨s.pos + 1, s.o + 1, 0, b⟩, wr m s.o 1 fun _ => b)
    else none
  else some (s, m)

/-- All work-groups and the output buffer they share (src/rle8_ocl_kernel.h:1-80). -/
structure GS where
  gs : Nat → KS
  m : Mem

/-- State when the kernel starts: work-group `i` reads from `off i` on and writes from `i * sz` on (src/rle8_ocl_kernel.h:11-18, 50-56).
`subSectionIndex * subSectionSize` is `uint` arithmetic. -/
def kInit (off : Nat → Nat) (sz : Nat) (m : Mem) : GS := ⟨fun i => ⟨off i, i * sz % 4294967296, 0, 0⟩, m⟩

/-- Run under a schedule: a list of work-group numbers, each making one step. `none`: some work-group left the buffers
(src/rle8_ocl_kernel.h:1-80). -/
def kRun (rle : Byte → Bool) (cnt : Byte → Nat) (buf : List Byte) (cap k : Nat) (off : Nat → Nat) : List Nat → GS → Option GS
  | [], g => some g
  | i :: σ, g =>
    if i < k then
      match kStep rle cnt buf cap (off (i + 1)) (g.gs i) g.m with
      | none => none
      | some (s, m) => kRun rle cnt buf cap k off σ ⟨fun j => if j = i then s else g.gs j, m⟩
    else kRun rle cnt buf cap k off σ g

/-- Work-group `i` has returned (src/rle8_ocl_kernel.h:20-24). -/
def kDone (off : Nat → Nat) (g : GS) (i : Nat) : Prop := (g.gs i).left = 0 ∧ off (i + 1) ≤ (g.gs i).pos

instance (off : Nat → Nat) (g : GS) (i : Nat) : Decidable (kDone off g i) := by unfold kDone; infer_instance

/-- Host side state: `none` before `rle8m_opencl_init`, else the sizes it was called with
(`_initialized_inputDataSize`, `_initialized_outputDataSize`, `_initialized_maxSubsectionCount`)
(src/rle8_ocl.c:52-54). -/
abbrev OclSt := Option (Nat × Nat × Nat)

/-- `rle8m_opencl_init` (src/rle8_ocl.c:56-183); `ok` is whether the OpenCL calls and the allocations succeed. The last component tells
whether `pSubSectionOffsets` is a new allocation. The objects it takes and gives back one by one are the subject of `OclHost`. -/
def oclInit (ok : Bool) (st : OclSt) (i o s : Nat) : OclSt × Bool × Bool :=
  match st with
  | some (i', o', s') =>
    if i ≤ i' ∧ o ≤ o' ∧ s ≤ s' then (st, true, false)
    else if ok then (some (i, o, s), true, true) else (none, false, true)
  | none => if ok then (some (i, o, s), true, true) else (none, false, true)

/-- What the environment decides: whether (re)initialisation works, whether the remaining OpenCL calls work, the schedule, the
contents of the GPU buffer before the kernel runs, and the contents of a new allocation
(src/rle8_ocl.c:56-183, 315-396). -/
structure OclEnv where
  initOk : Bool
  callsOk : Bool
  sched : List Nat
  gpu : Mem
  junk : Nat → Nat

/-- The offsets written to `pSubSectionOffsets` (src/rle8_ocl.c:293-298). -/
def oclOffsets (src : List Byte) (k index expIn : Nat) (i : Nat) : Nat :=
  if i = 0 then 0
  else if i < k then ((u32At src (12 + 4 * (i - 1))).getD 0 + 4294967296 - index % 4294967296) % 4294967296
  else (expIn + 4294967296 - index % 4294967296) % 4294967296

/-- Exactly one run symbol (src/rle8_ocl.c:300-313). -/
def oclSingle (rle : Byte → Bool) : Bool := ((List.range 256).filter fun i => rle (b8 i)).length == 1

/-- The flags the chosen kernel works with (src/rle8_ocl.c:338-396). -/
def oclFlags (rle : Byte → Bool) : Byte → Bool :=
  if oclSingle rle then fun b => b == firstRle rle else rle

/-- `rle8m_opencl_decompress` (src/rle8_ocl.c:265-413). Reading or uploading bytes behind the readable ones, storing through
`pSubSectionOffsets` when it is NULL or too short, and kernel accesses outside the buffers are `ub`. A schedule that does not run every
work-group to its end is `hang`: `clFinish` does not return. -/
def oclDecompress (e : OclEnv) (st : OclSt) (a : DArgs) : OclSt × DRes :=
  match a.pIn, a.pOut with
  | none, _ => (st, .fail)
  | _, none => (st, .fail)
  | some src, some m =>
    if a.inSize = 0 ∨ a.outSize = 0 then (st, .fail)
    else
      match rdU32 src with
      | none => (st, .ub)
      | some (expIn, r) =>
        match rdU32 r with
        | none => (st, .ub)
        | some (expOut, r) =>
          if expOut > a.outSize ∨ expIn > a.inSize then (st, .fail)
          else
            match rdU32 r with
            | none => (st, .ub)
            | some (k, r) =>
              if k = 0 then (st, .fail)
              else if r.length < 4 * (k - 1) then (st, .ub)
              else
                match readInfo (r.drop (4 * (k - 1))) with
                | none => (st, .ub)
                | some (x, r') =>
                  let index := src.length - r'.length
                  match st with
                  | none => (st, .ub)
                  | some (_, _, maxSub) =>
                    if maxSub < k then (st, .ub)
                    else
                      let up := (expIn + 18446744073709551616 - index) % 18446744073709551616
                      match oclInit e.initOk st up expOut k with
                      | (st', false, _) => (st', .fail)
                      | (st', true, fresh) =>
                        if e.callsOk = false then (st', .fail)
                        else if r'.length < up then (st', .ub)
                        else
                          let off := if fresh then e.junk else oclOffsets src k index expIn
                          let gpuCap := match st' with | some (_, o, _) => o | none => 0
                          match kRun (oclFlags x.rle) x.toCount (r'.take up) gpuCap k off e.sched (kInit off (expOut / k) e.gpu) with
                          | none => (st', .ub)
                          | some g =>
                            if ∀ i, i < k → kDone off g i then
                              if expOut ≤ a.cap then (st', .ok expOut (wr m 0 expOut fun j => g.m j)) else (st', .ub)
                            else (st', .hang)

end Hrk
