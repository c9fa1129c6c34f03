import Verif.Basic

/-
The objects the OpenCL functions hold (src/rle8_ocl.c:36-413): `rle8m_opencl_init`, `rle8m_opencl_destroy` and the calls
`rle8m_opencl_decompress` makes. Every call of the driver and every allocation may fail.
-/

namespace Hrk

/-! ### Specification: what a sequence of driver calls may do -/

/-- The functions objects come from; each has its own function to give them back. -/
inductive OclKind where
  | heap | device | context | queue | mem | program | kernel
  deriving DecidableEq, Repr

/-- What the driver and the heap see. -/
inductive OclEv where
  /-- An object is handed out. -/
  | acquire (k : OclKind) (h : Nat)
  /-- It is given back. -/
  | release (k : OclKind) (h : Nat)
  /-- It is an argument of a call, or memory that is written. -/
  | use (k : OclKind) (h : Nat)
  /-- The same with a null pointer, or behind the end of an allocation. -/
  | stray
  /-- A transfer out of memory of the caller has been started and not awaited. -/
  | send
  /-- All transfers have been awaited. -/
  | finish
  /-- The library returns to its caller. -/
  | leave
  deriving DecidableEq, Repr

/-- The objects handed out and not given back at the end; `none`: something was given back or used that was not there. -/
def heldFrom : List (OclKind × Nat) → List OclEv → Option (List (OclKind × Nat))
  | L, [] => some L
  | L, .acquire k h :: es => heldFrom ((k, h) :: L) es
  | L, .release k h :: es => if (k, h) ∈ L then heldFrom (L.erase (k, h)) es else none
  | L, .use k h :: es => if (k, h) ∈ L then heldFrom L es else none
  | _, .stray :: _ => none
  | L, .send :: es => heldFrom L es
  | L, .finish :: es => heldFrom L es
  | L, .leave :: es => heldFrom L es

/-- Nothing is given back twice, or used before or after its time. -/
def Sound (log : List OclEv) : Prop := heldFrom [] log ≠ none

/-- As `Sound`, and all that was handed out has been given back. -/
def AllGiven (log : List OclEv) : Prop := heldFrom [] log = some []

/-- Does the library return while a transfer out of the caller's memory is going on? -/
def leavesPending : Bool → List OclEv → Bool
  | _, [] => false
  | _, .send :: es => leavesPending true es
  | _, .finish :: es => leavesPending false es
  | p, .leave :: es => p || leavesPending p es
  | p, .acquire _ _ :: es => leavesPending p es
  | p, .release _ _ :: es => leavesPending p es
  | p, .use _ _ :: es => leavesPending p es
  | p, .stray :: es => leavesPending p es

/-! ### The code -/

/-- The global variables that hold objects (src/rle8_ocl.c:38-50). -/
inductive Slot where
  | offsets | platforms | device | context | queue | inBuf | outBuf | rle | counts | starts | program | multi | single
  deriving DecidableEq, Repr

/-- The type of each variable (src/rle8_ocl.c:38-50). -/
def Slot.kind : Slot → OclKind
  | .offsets => .heap
  | .platforms => .heap
  | .device => .device
  | .context => .context
  | .queue => .queue
  | .inBuf => .mem
  | .outBuf => .mem
  | .rle => .mem
  | .counts => .mem
  | .starts => .mem
  | .program => .program
  | .multi => .kernel
  | .single => .kernel

/-- The global variables (src/rle8_ocl.c:36-54) and what has happened so far. -/
structure Host where
  ready : Bool
  sizes : Nat × Nat × Nat
  v : Slot → Option Nat
  log : List OclEv

/-- The initial values (src/rle8_ocl.c:36-54). -/
def host0 : Host := ⟨false, (0, 0, 0), fun _ => none, []⟩

/-- How the calls of one `rle8m_opencl_init` turn out (src/rle8_ocl.c:71-165): `got s`: an object is returned, `ret s`: the return value is
`CL_SUCCESS` (the two need not agree), `count`: line 76 finds a platform, `ids`: line 84 succeeds, `build`: line 130 succeeds. `addr` is where objects end
up, given what happened so far; nothing is assumed about it, so addresses may be used again. -/
structure InitEnv where
  got : Slot → Bool
  ret : Slot → Bool
  count : Bool
  ids : Bool
  build : Bool
  addr : List OclEv → Nat

/-- One more event. -/
def Host.emit (h : Host) (e : OclEv) : Host := { h with log := h.log ++ [e] }

/-- Assignment of a variable (src/rle8_ocl.c:38-50). -/
def Host.set (h : Host) (s : Slot) (x : Option Nat) : Host := { h with v := fun t => if t = s then x else h.v t }

/-- A variable is passed to a call, or memory it points to is written (src/rle8_ocl.c:90-165, 293-406). -/
def Host.use (h : Host) (s : Slot) : Host :=
  match h.v s with
  | some x => h.emit (.use s.kind x)
  | none => h.emit .stray

/-- `variable = create…(…)` (src/rle8_ocl.c:71, 79, 90, 95, 100-120, 125, 160, 165). -/
def Host.create (h : Host) (e : InitEnv) (s : Slot) : Host :=
  if e.got s then (h.emit (.acquire s.kind (e.addr h.log))).set s (some (e.addr h.log)) else h.set s none

/-- `if (variable) { release…(variable); variable = NULL; }` (src/rle8_ocl.c:192-262). -/
def Host.drop (h : Host) (s : Slot) : Host :=
  match h.v s with
  | some x => (h.emit (.release s.kind x)).set s none
  | none => h

/-- The variables `rle8m_opencl_destroy` looks at, in its order (src/rle8_ocl.c:192-262). -/
def destroyOrder : List Slot :=
  [.multi, .single, .program, .inBuf, .outBuf, .rle, .counts, .starts, .queue, .device, .context, .offsets]

/-- `rle8m_opencl_destroy` (src/rle8_ocl.c:185-263). -/
def Host.destroy (h : Host) : Host :=
  destroyOrder.foldl Host.drop { h with ready := false, sizes := (0, 0, 0) }

/-- `free(pPlatforms)` (src/rle8_ocl.c:180). The variable keeps its value. -/
def Host.freePlatforms (h : Host) : Host :=
  match h.v .platforms with
  | some x => h.emit (.release .heap x)
  | none => h

/-- Run steps until one says stop (`goto epilogue`) (src/rle8_ocl.c:71-168). -/
def untilFalse : List (Host → Host × Bool) → Host → Host × Bool
  | [], h => (h, true)
  | f :: fs, h => if (f h).2 then untilFalse fs (f h).1 else ((f h).1, false)

/-- `x = clCreate…(y, …, &ret); if (ret != CL_SUCCESS || x == NULL) goto epilogue;` (src/rle8_ocl.c:90-128, 160-168). -/
def Host.make (e : InitEnv) (args : List Slot) (s : Slot) (h : Host) : Host × Bool :=
  ((args.foldl Host.use h).create e s, e.ret s && e.got s)

/-- The steps of `rle8m_opencl_init` (src/rle8_ocl.c:71-168). Simplified: a device handed out by `clGetDeviceIDs` counts as an object that
has to be given back, as `rle8m_opencl_destroy` does; what line 85 reads from the list when line 84 failed is not modelled, and the log of a
failing build (lines 132-155, debug builds) is left out. -/
def initSteps (e : InitEnv) : List (Host → Host × Bool) :=
  [fun h => (h.create e .offsets, e.got .offsets),
   fun h => (h, e.count),
   fun h => (h.create e .platforms, e.got .platforms),
   fun h => ((h.use .platforms).create e .device, e.ids && e.ret .device),
   Host.make e [.device] .context,
   Host.make e [.context, .device] .queue,
   Host.make e [.context] .inBuf,
   Host.make e [.context] .outBuf,
   Host.make e [.context] .rle,
   Host.make e [.context] .counts,
   Host.make e [.context] .starts,
   Host.make e [.context] .program,
   fun h => ((h.use .program).use .device, e.build),
   Host.make e [.program] .multi,
   Host.make e [.program] .single]

/-- Are the present buffers large enough (src/rle8_ocl.c:60). -/
def Host.enough (h : Host) (i o s : Nat) : Bool := h.ready && (i ≤ h.sizes.1 && o ≤ h.sizes.2.1 && s ≤ h.sizes.2.2)

/-- `rle8m_opencl_init` (src/rle8_ocl.c:56-183). -/
def Host.init (e : InitEnv) (i o s : Nat) (h : Host) : Host × Bool :=
  if h.enough i o s then (h, true)
  else
    let h := if h.ready then h.destroy else h
    let r := untilFalse (initSteps e) h
    let h := if r.2 then { r.1 with ready := true, sizes := (i, o, s) } else r.1.destroy
    (h.freePlatforms, r.2)

/-- A call of the driver with variables as arguments; `snd` is set for `clEnqueueWriteBuffer` with `CL_FALSE`, which starts a transfer if it succeeds
(src/rle8_ocl.c:335-395). -/
def Host.call (args : List Slot) (snd ok : Bool) (h : Host) : Host × Bool :=
  let h := args.foldl Host.use h
  (if snd && ok then h.emit .send else h, ok)

/-- `clFinish` and the blocking `clEnqueueReadBuffer`, which both wait (src/rle8_ocl.c:399, 406). -/
def Host.await (args : List Slot) (ok : Bool) (h : Host) : Host × Bool :=
  ((args.foldl Host.use h).emit .finish, ok)

/-- The calls after a successful initialisation (src/rle8_ocl.c:335-407). `ok i`: call number `i` succeeds; `one`: there is one run symbol. Arguments of
`clSetKernelArg` count as used. -/
def runCalls (ok : Nat → Bool) (one : Bool) : List (Host → Host × Bool) :=
  let kern : Slot := if one then .single else .multi
  [Host.call [.queue, .inBuf] true (ok 0)] ++
  (if one then [] else [Host.call [.queue, .rle] true (ok 1)]) ++
  [Host.call [.queue, .counts] true (ok 2),
   Host.call [.queue, .starts, .offsets] true (ok 3),
   Host.call [kern, .outBuf] false (ok 4),
   Host.call [kern, .inBuf] false (ok 5),
   Host.call (if one then [kern] else [kern, .rle]) false (ok 6),
   Host.call [kern, .counts] false (ok 7),
   Host.call [kern, .starts] false (ok 8),
   Host.call [kern] false (ok 9),
   Host.call [.queue, kern] false (ok 10),
   Host.await [.queue] true,
   Host.await [.queue, .outBuf] (ok 11)]

/-- `pSubSectionOffsets[0]` to `pSubSectionOffsets[k]` are written (src/rle8_ocl.c:293-298); the allocation has room for as many
sections as the last `rle8m_opencl_init` was asked for, plus one. -/
def Host.fillOffsets (h : Host) (k : Nat) : Host :=
  if h.v .offsets ≠ none ∧ h.sizes.2.2 < k then h.emit .stray else h.use .offsets

/-- `rle8m_opencl_decompress` from line 293 on, for a stream with `k` sections that needs buffers of `i` and `o` bytes
(src/rle8_ocl.c:293-412). The guards before it return without any effect. -/
def Host.decompress (e : InitEnv) (ok : Nat → Bool) (one : Bool) (i o k : Nat) (h : Host) : Host × Bool :=
  let r := (h.fillOffsets k).init e i o k
  if r.2 then untilFalse (runCalls ok one) r.1 else r

/-- The calls a program can make (src/rle.h, declarations of the three functions). -/
inductive OclOp where
  | init (e : InitEnv) (i o s : Nat)
  | destroy
  | decompress (e : InitEnv) (ok : Nat → Bool) (one : Bool) (i o k : Nat)

/-- One call, from entry to return (src/rle8_ocl.c:56-413). -/
def OclOp.run (h : Host) : OclOp → Host
  | .init e i o s => (h.init e i o s).1.emit .leave
  | .destroy => h.destroy.emit .leave
  | .decompress e ok one i o k => (h.decompress e ok one i o k).1.emit .leave

/-- A history of calls (src/rle8_ocl.c:36-413). -/
def hostRun (ops : List OclOp) : Host := ops.foldl OclOp.run host0

end Hrk
