import Verif.Fuzz
import Verif.Compare
import Verif.Tool

/-
The loop of the fuzzer (src/rle_fuzz.c:533-757): every input of the generator is compressed, decompressed and compared with every
codec; the first failure stops the process.
-/

namespace Hrk.Fuzz

open Hrk.Cli (CodecT)

/-- What a run depends on. `comp c inp n buf cap` is what `compress_func` of the codec returns and leaves in `pCompressed`,
`dec c buf size out n` what `decompress_func` returns and leaves in `pDecompressed`; `aIn` and `aOut` are the addresses of the two
buffers that are compared; `fillQ i` and `advQ i` are the draws of round `i` (src/rle_fuzz.c:533-757). -/
structure RunEnv where
  comp : CodecT → Mem → Nat → Mem → Nat → Nat × Mem
  dec : CodecT → Mem → Nat → Mem → Nat → Nat × Mem
  aIn : Nat
  aOut : Nat
  fillQ : Nat → Draws
  advQ : Nat → Draws

/-- How a run stands: it has returned, it has stopped at `__debugbreak`, something undefined happened, or it has made as many rounds
as asked for (src/rle_fuzz.c:533-757). -/
inductive FuzzEnd where
  | returns (r : Bool)
  | trap
  | ub
  | running
deriving DecidableEq

/-- `compressedBufferSize` (src/rle_fuzz.c:563-569), with `n` as `inputBufferCapacity`. -/
def fuzzBuffer (n : Nat) : Nat :=
  let n := n % 4294967296
  let b := bounds n
  let b := max b (mmtfBounds n)
  let b := max b (shBounds n)
  let b := max b (mmBounds n)
  let b := max b (mmBounds n)
  let b := max b (leBounds n)
  max b (leBounds n)

/-- `for (codec_t codec = 0; codec < MemCopy; codec++)` (src/rle_fuzz.c:609). -/
def fuzzCodecs : List CodecT := (List.range 120).map CodecT.ofNat

/-- What happens with one codec (src/rle_fuzz.c:611-743) for the `n` bytes of `inp`; `b` are `pCompressed`, with room for `room` bytes, and
`pDecompressed`, with room for `outRoom` bytes. `ub`: scrambling or clearing leaves a buffer. What is printed and written to `fuzz-failure.bin` before the process stops is left out; so is the part that is only
compiled with `INPUT_BUFFER_VALIDATE`, which is not defined. -/
def testOne (e : RunEnv) (room outRoom : Nat) (inp : Mem) (n : Nat) (c : CodecT) (b : Mem × Mem) : Except FuzzEnd (Mem × Mem) :=
  let r := e.comp c inp (n % 4294967296) b.1 (room % 4294967296)
  if r.1 = 0 then .error .trap
  else
    let stop := min room (n + 64)
    let buf : Mem := fun i => if r.1 ≤ i ∧ i < stop then ~~~(r.2 i) else r.2 i
    let out : Mem := fun i => if i < n then 0 else b.2 i
    let d := e.dec c buf r.1 out (n % 4294967296)
    if (r.1 < stop ∧ room < stop) ∨ outRoom < n then .error .ub
    else if d.1 ≠ n then .error .trap
    else
      match CmpArgs.memoryEquals ⟨e.aIn, e.aOut, inp, d.2, n⟩ with
      | none => .error .ub
      | some false => .error .trap
      | some true => .ok (buf, d.2)

/-- The loop over the codecs (src/rle_fuzz.c:609-744). -/
def testAll (e : RunEnv) (room outRoom : Nat) (inp : Mem) (n : Nat) : List CodecT → Mem × Mem → Except FuzzEnd (Mem × Mem)
  | [], b => .ok b
  | c :: cs, b =>
    match testOne e room outRoom inp n c b with
    | .error x => .error x
    | .ok b => testAll e room outRoom inp n cs b

/-- `do { … } while (fuzz_state_advance(pState))` (src/rle_fuzz.c:585-746): at most `k` rounds, the first with number `i`. `cap` is
`inputBufferCapacity`; `pDecompressed` has `rle_decompress_additional_size()` bytes more (src/rle_fuzz.c:558). -/
def fuzzLoop (e : RunEnv) (cap : Nat) : Nat → Nat → State → Mem → Mem × Mem → FuzzEnd
  | 0, _, _, _, _ => .running
  | k + 1, i, s, inp, b =>
    match s.fill (e.fillQ i) cap inp with
    | none => .ub
    | some (n, inp) =>
      match testAll e (fuzzBuffer cap) (cap + addSize) inp n fuzzCodecs b with
      | .error x => x
      | .ok b =>
        match s.advance (e.advQ i) with
        | none => .ub
        | some (false, _) => .returns true
        | some (true, s) => fuzzLoop e cap k (i + 1) s inp b

/-- `fuzz` (src/rle_fuzz.c:533-757), watched for `k` rounds. `q` are the draws of `fuzz_create`, `allocs` tells whether the allocations
succeed, `inp` and `b` are what the buffers hold at first. -/
def fuzz (e : RunEnv) (allocs : Bool) (q : Draws) (n : Nat) (iterative : Bool) (inp : Mem) (b : Mem × Mem) (k : Nat) : FuzzEnd :=
  if !allocs then .returns false
  else fuzzLoop e (create q n iterative).capacity k 0 (create q n iterative) inp b

end Hrk.Fuzz
