import Verif.Cli
import Verif.Spec
import Verif.LowEntropy
import Verif.Mmtf
import Verif.Rle8Mmtf
import Verif.RleSh

/-
The benchmark loop of the command line tool (src/main.c), as far as it decides the exit code: for
every codec the tool compresses, decompresses and compares.
-/

namespace Hrk.Cli

/-- What the run depends on besides the command line. `comp c n cap buf` is what `compress_func` of the
codec returns and leaves in `pCompressedData` when called with `n` and `cap` as sizes, `dec c size buf cap
out` what `decompress_func` returns and leaves in `pDecompressedData`. The file is fixed, so the input is
not an argument (src/main.c:693-1092). -/
structure Env where
  /-- `none`: `fopen`, `fread` or an allocation failed. -/
  file : Option (List Byte)
  comp : CodecT → Nat → Nat → Mem → Nat × Mem
  dec : CodecT → Nat → Mem → Nat → Mem → Nat × Mem
  /-- How many more rounds than the smallest number of runs the clock asks for
  (`TicksToNs(…) < 1000000000 * minSeconds`). -/
  moreComp : CodecT → Nat
  moreDec : CodecT → Nat
  /-- The processor flags after the codecs have run. -/
  on : Feat → Bool
  /-- What `fuzz` returns. -/
  fuzz : Bool → Bool

/-- `compressedBufferSize` (src/main.c:722-729). -/
def toolBuffer (n : Nat) : Nat :=
  let b := bounds n
  let b := max b (mmtfBounds n)
  let b := max b (shBounds n)
  let b := max b (mmBounds n)
  let b := max b (mmBounds n)
  let b := max b (leBounds n)
  max b (leBounds n)

/-- All codecs in the order of the loop (src/main.c:803). -/
def codecs : List CodecT := (List.range 121).map CodecT.ofNat

/-- A loop that repeats a call until it returns 0 or all rounds are done; the size is 0 before
(src/main.c:828-887, 963-1027). -/
def rounds (f : Mem → Nat × Mem) : Nat → Mem → Nat × Mem
  | 0, m => (0, m)
  | 1, m => f m
  | k + 2, m => let r := f m; if r.1 = 0 then r else rounds f (k + 1) r.2

/-- The number of rounds: the counter starts at -1, or at 0 without delays, and the loop goes on while it
is below `runs` or the time is not over (src/main.c:815, 822-828, 933, 950-951, 963). -/
def roundCount (s : St) (more : Nat) : Nat := (s.runs + if s.noDelays then 0 else 1).toNat + more

/-- One call of the compressor (src/main.c:832-841). -/
def callComp (e : Env) (data : List Byte) (c : CodecT) (buf : Mem) : Nat × Mem :=
  if c = .MemCopy then (data.length % 4294967296, fun i => if i < data.length then data.getD i 0 else buf i)
  else e.comp c (data.length % 4294967296) (toolBuffer (data.length % 4294967296)) buf

/-- One call of the decompressor (src/main.c:967-977). -/
def callDec (e : Env) (data : List Byte) (c : CodecT) (size : Nat) (buf out : Mem) : Nat × Mem :=
  if c = .MemCopy then (data.length % 4294967296, fun i => if i < data.length then buf i else out i)
  else e.dec c size buf (toolBuffer (data.length % 4294967296)) out

/-- `Validate` (src/main.c:1132-1219). -/
def validateData (data : List Byte) (out : Mem) : Bool :=
  (List.range data.length).all fun i => out i == data.getD i 0

/-- What happens with one codec: the two buffers afterwards, or `none` for `return -1`
(src/main.c:808-1075). -/
def oneCodec (e : Env) (s : St) (data : List Byte) (c : CodecT) (b : Mem × Mem) : Option (Mem × Mem) :=
  let r := rounds (callComp e data c) (roundCount s (e.moreComp c)) b.1
  if r.1 = 0 then
    if !e.on .avx && c == .MultiMTF256 then some (r.2, b.2)
    else if !e.on .sse2 && (c == .MultiMTF128 || c == .MultiMTF256) then some (r.2, b.2)
    else if s.isTestRun then none
    else some (r.2, b.2)
  else
    -- the compressed buffer behind the stream is inverted; `memset(…, decompressedSize)` clears
    -- nothing, because `decompressedSize` is still 0
    let buf : Mem :=
      if s.isTestRun || (!s.isTestRun && !s.noDelays) then
        fun i => if r.1 ≤ i ∧ i < toolBuffer (data.length % 4294967296) then ~~~(r.2 i) else r.2 i
      else r.2
    let d := rounds (fun out => callDec e data c r.1 buf out) (roundCount s (e.moreDec c)) b.2
    if d.1 = 0 then
      if s.isTestRun then
        if !e.on .sse2 && (c == .MultiMTF128 || c == .MultiMTF256) then some (buf, d.2) else none
      else some (buf, d.2)
    else if !validateData data d.2 then
      if s.isTestRun then none else some (buf, d.2)
    else some (buf, d.2)

/-- The loop over the codecs (src/main.c:803-1076). -/
def benchLoop (e : Env) (s : St) (data : List Byte) : List CodecT → Mem × Mem → Bool
  | [], _ => true
  | c :: cs, b =>
    if !selected s.args c then benchLoop e s data cs b
    else
      match oneCodec e s data c b with
      | none => false
      | some b => benchLoop e s data cs b

/-- Everything after the command line (src/main.c:693-1092): the exit code. -/
def exitCode (e : Env) (s : St) (b : Mem × Mem) : Int :=
  if s.fuzzing then (if e.fuzz s.fuzzingIterative then 0 else 1)
  else
    match e.file with
    | none => 0
    | some data => if data.length = 0 then 0 else if benchLoop e s data codecs b then 0 else -1

/-- `main` with a file name and the words `ws` behind it: the exit code. `b` is what the two buffers hold
after they were allocated. Simplified: the allocations of `--sd` succeed, and nothing is printed
(src/main.c:94-1092). -/
def tool (e : Env) (hw : Hw) (atoi : String → Int) (ws : List String) (b : Mem × Mem) : Int :=
  match commandLine hw atoi ws with
  | none => 1
  | some s => exitCode e s b

end Hrk.Cli
