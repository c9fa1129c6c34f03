import Verif.FuzzRun
import Verif.Report

/-
What the fuzzer leaves behind when it stops: the file `fuzz-failure.bin` and the report of the first wrong byte
(src/rle_fuzz.c:582-583, 645-743). The same loops as in `Verif.FuzzRun`, with what has been written carried along.
-/

namespace Hrk.Fuzz

open Hrk.Cli (CodecT)
open Hrk.Report (findFirst)

/-- How a run stands, what is in `fuzz-failure.bin`, and what was printed about the first wrong byte. -/
structure Left where
  how : FuzzEnd
  file : List Byte
  text : List Char

/-- `testOne` (src/rle_fuzz.c:611-743) with what it leaves. The file was opened (and emptied) before the first round (line 582); `opened`
tells whether that worked. It is written in one place (lines 658-662), before the report. The names of codec and state and the one line
messages of the other two failures are left out. -/
def testOneL (opened : Bool) (e : RunEnv) (room outRoom : Nat) (inp : Mem) (n : Nat) (c : CodecT) (b : Mem × Mem) : Except Left (Mem × Mem) :=
  let r := e.comp c inp (n % 4294967296) b.1 (room % 4294967296)
  if r.1 = 0 then .error ⟨.trap, [], []⟩
  else
    let stop := min room (n + 64)
    let buf : Mem := fun i => if r.1 ≤ i ∧ i < stop then ~~~(r.2 i) else r.2 i
    let out : Mem := fun i => if i < n then 0 else b.2 i
    let d := e.dec c buf r.1 out (n % 4294967296)
    if (r.1 < stop ∧ room < stop) ∨ outRoom < n then .error ⟨.ub, [], []⟩
    else if d.1 ≠ n then .error ⟨.trap, [], []⟩
    else
      match CmpArgs.memoryEquals ⟨e.aIn, e.aOut, inp, d.2, n⟩ with
      | none => .error ⟨.ub, [], []⟩
      | some false =>
        let file := if opened then rd inp 0 n else []
        match findFirst (rd inp 0 n) (rd d.2 0 n) n 0 n with
        | none => .error ⟨.ub, file, []⟩
        | some text => .error ⟨.trap, file, text⟩
      | some true => .ok (buf, d.2)

/-- The loop over the codecs (src/rle_fuzz.c:609-744). -/
def testAllL (opened : Bool) (e : RunEnv) (room outRoom : Nat) (inp : Mem) (n : Nat) : List CodecT → Mem × Mem → Except Left (Mem × Mem)
  | [], b => .ok b
  | c :: cs, b =>
    match testOneL opened e room outRoom inp n c b with
    | .error x => .error x
    | .ok b => testAllL opened e room outRoom inp n cs b

/-- The loop over the inputs (src/rle_fuzz.c:585-746). -/
def fuzzLoopL (opened : Bool) (e : RunEnv) (cap : Nat) : Nat → Nat → State → Mem → Mem × Mem → Left
  | 0, _, _, _, _ => ⟨.running, [], []⟩
  | k + 1, i, s, inp, b =>
    match s.fill (e.fillQ i) cap inp with
    | none => ⟨.ub, [], []⟩
    | some (n, inp) =>
      match testAllL opened e (fuzzBuffer cap) (cap + addSize) inp n fuzzCodecs b with
      | .error x => x
      | .ok b =>
        match s.advance (e.advQ i) with
        | none => ⟨.ub, [], []⟩
        | some (false, _) => ⟨.returns true, [], []⟩
        | some (true, s) => fuzzLoopL opened e cap k (i + 1) s inp b

/-- `fuzz` (src/rle_fuzz.c:533-757), watched for `k` rounds. -/
def fuzzL (opened : Bool) (e : RunEnv) (allocs : Bool) (q : Draws) (n : Nat) (iterative : Bool) (inp : Mem) (b : Mem × Mem) (k : Nat) : Left :=
  if !allocs then ⟨.returns false, [], []⟩
  else fuzzLoopL opened e (create q n iterative).capacity k 0 (create q n iterative) inp b

end Hrk.Fuzz
