# Design: a Lean 4 model of hypersonic-rle-kit

## Trusted base

* Lean 4.33.0's kernel. Every theorem depends at most on `propext`,
  `Classical.choice` and `Quot.sound`; no axiom is added, there is no `sorry`,
  no `native_decide`, no `bv_decide`.
* The reading of the C sources. The model is written by hand from `/repo/src`;
  each definition cites the lines it models. Nothing is extracted
  mechanically.
* The meaning given here to the C memory model and to the SSE/AVX intrinsics
  (see *Modelling conventions*).
* The specification in `Verif/Spec.lean` (about 300 lines): the outcomes of a
  `compress`/`decompress` call, and the predicates `RoundTrip`, `FitsBounds`,
  `StaysInside`, `TrailingIgnored`, … the theorems are stated with. It mentions
  no stream format, scanner or vector code.

## What is modelled

| source | Lean module | what |
|--------|-------------|------|
| `rleX_extreme_common.h`, `rleX_extreme_cpu*.h/.c`, `rle24_*`, `rle48_*` | `Codec`, `Bits`, `Scan`, `ScanX`, `ScanXI`, `RleX` | emission rules, scanners (scalar, SSE2, SSSE3, AVX2), tails, headers, SSE2/SSSE3/SSE4.1/AVX/AVX2/AVX-512 decoders, dispatch |
| `rle128_extreme_cpu.c/.h` | `Rle128` | encoder, decoders |
| `rle8_extreme_cpu.c/.h` | `Scan8`, `ScanW`, `Masks`, `Pick`, `Rle8` | multi and single, plain and packed; SSE2/AVX2 scans, choice of the single symbol, decoders, mode dispatch |
| `rleX_Xsl.c/.h`, `rleX_Xsl_multibyte_encoder.h` | `Parser`, `Symlut` | 3 and 7 entry move-to-front table codecs |
| `rleX_Xsl_short.c/.h`, `rleX_Xsl_short_multibyte_encoder.h` | `Short`, `Greedy` | short codecs with 0, 1, 3, 7 entries, single, greedy |
| `mmtf.c`, `bit_mmtf.c` | `Vec`, `Mmtf`, `BitMmtf`, `Publish`, `InPlace`, `MmtfPtr` | scalar, SSE2, SSSE3, AVX2 (and AVX-512) paths, lane by lane; the stores in their order on a machine with store buffers; the loops on one memory for both buffers |
| `bitpack.h` | `Bitpack`, `BitpackStep` | 1, 2, 3, 4 bit packers, byte and `__m128i` versions |
| `rle8_mmtf.c` | `Rle8Mmtf*`, `MmWords` | `rle8_mmtf128`, including the uninitialised register; `MmWords` is a grammar of its streams written without the decoder |
| `rle8_low_entropy_cpu.c`, `rle8_low_entropy_short_cpu.c` | `LowEntropy*`, `Rle8m`, `WithInfo` | info block, encoders, decoders, rle8m sections; the published pieces with their own checks |
| `rle8_ocl.c`, `rle8_ocl_kernel.h` | `Ocl`, `OclHost` | host state (init, decompress, destroy) and the kernels as small step machines under an arbitrary schedule; every object the host code takes and gives back, with every driver call able to fail |
| `rle_sh.c` | `RleSh*`, `ShWords` | mode machine, bit and byte stream growing towards each other; `ShWords` is a grammar of its streams written without the decoder |
| `simd_platform.c` | `Detect`, `Threads` | `cpuid`/`xgetbv` detection, with and without threads; two weaker memories |
| `codec_funcs.h` | `Table` | the table that pairs compressors and decompressors |
| dispatchers and `target` attributes of all files | `Isa` | which functions a call runs, and which extensions they were compiled for |
| `main.c` | `Cli`, `CliSpec`, `Tool`, `Analyze`, `Info`, `Timing` | `GetInformationRatio` over exact real numbers; the measuring loops, with the clock as an arbitrary input, and the throughput columns over exact real numbers; the statistics of `--analyze`; the words of the command line, `CodecMatchesArgs`, `--max-simd`; the loop over the codecs as far as it decides the exit code, with arbitrary codecs and an arbitrary clock |
| `rle_fuzz.c` | `Compare`, `Fuzz`, `FuzzRun`, `FuzzFile`, `Report`, `Rand` | `MemoryEquals`; the report of a mismatch (also `Validate` of `main.c`), the file written before it; states of the generator, iteration, random mode, filling the buffer; the loop over inputs and codecs; the two random number generators |

Not modelled: the rest of `main.c` (pauses, the text that is printed except the report of a mismatch); what the AES instruction
in `rle_fuzz.c` computes (C49 holds for any function; C40 and C41 hold for any sequence of draws);
`rle8_mmtf256_compress` and `rle8_mmtf256_decompress`, which `rle.h` declares and nothing defines; the OpenCL driver itself (its calls succeed or fail, and run work-items in any
order); printing; the
Windows/other-architecture branches of `#if`s.

## Modelling conventions

* A byte is `UInt8`. The encoder input is a memory `inp : Nat → Byte` and a
  length `n`; bytes at `n` and above are whatever lies behind the buffer, so a
  theorem for all `inp` covers every over-read result.
* The encoder output is an append-only byte list. A write past the caller's
  buffer is the outcome `ub`, never silently ignored. An overlong intermediate
  write that is later cut back counts as well where the code can do that
  (`rle8_sh`, `rle8_mmtf128`).
* A refusal (`fail`: returned 0, wrote nothing) is distinguished from giving up
  after a partial write (`giveUp`).
* Decoders exist twice. The reference decoder works over lists (a `Parser` for
  one record, iterated). The memory decoder is the code as written: vector
  sized block stores into a memory with a capacity, a source with a length, a
  base address for the alignment tests; any store or load outside is `ub`. A
  refinement theorem links them, so SIMD level and alignment are universally
  quantified.
* A symbol of `S` bytes is a list of length `S`. The vector scanners are
  modelled instruction by instruction: loads, `set1`, byte shifts and shuffles
  that build the symbol register, `cmpeq`, `movemask`, the AND-folded search
  masks, `~`, `ctz`, `clz`, `popcnt` (`Bits`, `ScanXI`, `Masks`, `Rle128`,
  `Pick`). `ctz(0)` and `clz(0)` are undefined, and `runXI_eq`, `run8TI_eq`,
  `runS8I_eq`, `runWI_eq`, `run128I_eq`, `runGI_eq`, `pickO_eq` and
  `maskHit_eq` prove that this never happens and that the result is the
  position the byte by byte scanner finds. The registers the 24 and 48 bit
  decoders fill runs from are built from the same instructions, with the masks
  and shuffle tables of each build (`Fill`, `fillReg_lane`). The
  shuffle tables of mmtf are modelled as tables and checked entry by entry by
  the kernel.
* Encoder loops are goto machines with a `pc` where the C code jumps between
  scalar and vector loops. `Basic.loop` runs a body with fuel; each codec
  proves that the fuel it passes always suffices, so a missing result (`hang`)
  is impossible. That is property C36.
* `size_t` and `int64_t` values stay below 2^32 in all modelled encoders
  because `n ≤ 2^30`; they are `Nat`. Truncation to 8/16/32 bits on output is
  explicit (`le16`, `le32`, `b8`). Where the C code relies on wrap around the
  model does so explicitly (rle8m bounds, mmtf arithmetic, rle8_sh).
* Addresses are flat. Computing or comparing a pointer outside its buffer (such
  as `pEnd - 256` in the low entropy decoders) is plain arithmetic, only loads
  and stores outside are `ub`. A cast access like `*(uint32_t *)p` is the access
  to its bytes in little endian order: the alignment and strict aliasing rules of
  C are not modelled.

## Structure of the proofs

`Codec.lean` has a record `Cdc` (symbol size, state, emission rule, run of the
scanner, record parser, header) and a predicate `OK` that collects the proof
obligations of one codec: the scanner reaches the end, it consumes the input
exactly, each record it emits is parsed back to the same symbol, count and
literals with the same next state. From `OK` the generic theorems of
`Stream`, `Api`, `Portable`, `Depend`, `Const`, `ApiProps` follow: round trip,
bounds, extents, headers, guards, trailing bytes, portability, dependence on a
prefix, constant inputs, termination. Each extreme codec family then only
provides its `OK` proof. Size theorems use a per-record growth rule
(`EmitGrow`, `Grow.lean`); the negations use inputs made of equal blocks
(`Blocks.lean`), and an induction over the number of blocks.

`Cases.lean` and `CasesMore.lean` apply the round trip theorems and others to concrete inputs where
the file of the theorem has no such case itself.

Property theorems are in the `Props*` and `*Api` files (and the size files);
helper lemmas in the others. Every property theorem is named `Cnn_…`, the
suffix `_partial` marks the part of a property that holds, `_violated` a
proof that the unchanged code breaks it. `MANIFEST.json` lists them, with a
note on what is missing.

## Properties and plan

| id | modelled | proof |
|----|----------|-------|
| C01 | rleX/24/48 encoders (base + SIMD scan, emission, tail), decoders, dispatch | scanner invariant "decoding the output so far yields the input up to lastRLE", then the memory decoder refines the list decoder |
| C02 | rle128 encoder and decoders | same, with its own scanner |
| C03 | rle8 multi/single, packed, SSE2/AVX2 scans, decoders | same |
| C04 | symlut codecs | same, format state = move-to-front LUT |
| C05 | short codecs | same |
| C06 | greedy encoders | same, against the decoder of C05 |
| C07 | low-entropy codec | false on the unchanged code (all 256 symbols flagged): negation by witness; partial theorem for fewer flagged symbols; exactly when the round trip succeeds, by the pieces of the runs (`PropsLowExact.lean`) |
| C08 | low-entropy-short | as C07 |
| C09 | rle8m | induction over sections; partial (needs C07's side condition) |
| C10 | OpenCL kernel and host | per-work-group machine, invariant over every schedule, disjoint writes |
| C11, C12 | mmtf | lane-wise refinement to textbook move-to-front |
| C13 | bitmmtf | xor prefix sums |
| C14 | rle8_mmtf128 | section-wise induction, for every content of the uninitialised register |
| C15 | rle8_sh | mode machine invariant, two streams in one buffer |
| C16 | same encoders as C01/C02 | scanner invariant on the length of the output |
| C17, C18, C19, C20 | same encoders | false for several codecs: negation by an input of many equal blocks; proved for the others; growth bounds for all |
| C21 | memory decoders of the extreme codecs | refinement theorem with capacities |
| C22 | headers | direct |
| C23, C24, C25 | guards | case analysis; C24 is false on the unchanged code, C25 for rle8 if nothing can be read behind the two sizes |
| C26 | list decoders | decoding is independent of the suffix; false for rle8m |
| C27 | all decoder variants | all refine the same list decoder; for rle8_sh and rle8_mmtf128 an exact characterisation on arbitrary byte strings (`C27_sh_meaning`, `C27_mmtf128_meaning`) against grammars written without the decoders (`ShWords`, `MmWords`): the decoder returns the bytes the grammar spells, and has undefined behaviour when it spells nothing that fits |
| C28 | decoders | false: concrete malformed streams; partial: every byte string that stands for something is decoded safely |
| C29 | encoders | two-memory relational invariant |
| C30 | bitpack | list induction |
| C31 | mode dispatch | case analysis |
| C32, C35 | feature detection | direct; C35 false on the unchanged code |
| C33 | X encoders | invariant on constant inputs |
| C34 | info block | list lemmas |
| C36 | all loops | fuel bounds from measures |
| C37 | low-entropy, rle8m, rle8_mmtf128, rle8_sh decoders | as C21; false for 256 run symbols |
| C38 | table of codecs | every row, from the family theorems |
| C39 | `MemoryEquals` | loop invariants: the accumulated vectors are clear in their top bits iff the bytes seen agree there; exact answer, negation beyond 32 bytes |
| C40 | iterative mode of the fuzzer | a state stands for a number in a mixed radix system, an increment adds one; the numbers of the states visited are 0, 1, 2, ... |
| C41 | filling the fuzzer's buffer, random mode | invariant of all states for every sequence of draws; loop invariants for the writes |
| C42 | command line | every option is read as a unit; the state after the options is a conjunction of tests of features; one table lookup per filter over all 121 codecs |
| C43 | `--max-simd` | the flags after each option, induction over the options |
| C44 | the statistics of `--analyze` | the loop over the file for one symbol length, with array accesses and `__builtin_clz(0)` as undefined; the numbers are those of the maximal groups of the match bits, by induction with the unfinished group |
| C45 | exit code of `--test` | the loop with arbitrary functions as codecs and arbitrary contents of the buffers; one pass is one attempt, induction over the list of codecs |
| C46 | the tool with the library's codecs | C45 with the codec table as the codecs: the tool's buffer has room for the slack the decoders need, so that C38 applies; C01, C02, C17 to C19 say that compression succeeds. `PropsToolAll.lean` adds the other codecs: C20 for the sizes, C07 and C08 for the low entropy codecs, C11 and C13 for the transforms |
| C47 | output independent of the processor | the scanner with vectors of any width and the one without visit the same positions whenever something can be emitted: a step of the one is matched by steps of the other (`Same.lean`, simulation on the positions where a run ends) |
| C48 | size bounded by the number of changes | a potential that grows at every change: each literal and each end of a run is charged to a position where the input differs from what comes one symbol behind it (`Changes.lean`, `ChangesG.lean`); the vector scanners are reduced to the scalar one by C47. For rle8_mmtf128 (`ChangesMmtf.lean`) the potential counts the bytes that move to front does not map to 0; for the low entropy codecs and rle8m (`ChangesLow.lean`) runs of a flagged symbol are counted, and an unflagged symbol has few runs longer than one; for rle8_sh (`ChangesSh.lean`) all but the last run |
| C49 | random numbers of the fuzzer | the linear congruence has full period (a power of two divides `1 + a + … + a^(d-1)` exactly if it divides `d`), the output function hits every value from exactly 2^32 states (explicit inverse); the clock seeded generator is modelled with arbitrary clocks and an arbitrary AES step and shown to be reseeded at every call |
| C50 | output independent of the output buffer | case analysis of the guards; for rle8_mmtf128 two runs on different buffers agree wherever something has been written (`Rle8MmtfBuf.lean`); rle8_sh by its closed form |
| C51 | streams are self-delimiting | from C22 and C38 by induction over the list of streams |
| C52 | one run symbol, nearly constant input | `Single.lean`: the potential of C48 with the number of bytes that differ from the run symbol; `PickBest.lean`: the invariant of the heuristic says how much of the input is accounted for, so that a symbol with enough occurrences wins; `OthersLow.lean`: the same for the exact statistics of the low entropy codecs. The lower bound is an invariant of all emission rules |
| C53 | threads | `Threads.lean`: a machine with a store buffer per thread; invariant: whoever sees the mark, in memory or in its own buffer, sees final flags, because the stores before it left the buffer first. A second machine whose loads return any value stored so far and whose stores happen in any order; there every flag is false or final, and C47 and C38 do the rest |
| C54 | information column | the loop over the counters is the entropy over the bytes that occur; Gibbs' inequality from log x ≤ x - 1, strict unless x = 1; real numbers instead of `double` |
| C55 | OpenCL host code, object by object, log of driver events | ownership invariant: the objects held are those of the variables; exact characterisation of the histories that go wrong |
| C56 | the loop of `fuzz` for arbitrary codecs | per round: a try of every codec passes or the process stops; rounds by induction, the visited states from C40, the inputs from C41, the comparison from C39 |
| C57 | throughput columns | induction over the calls: the variables are the sum, minimum and list of the times so far, and the array holds them; the columns by field arithmetic; real numbers instead of `double` |
| C58 | nothing old in the output | every loop round of every decoder is shown to lay bytes over the buffer that do not depend on it (`Overlay`), composed by induction over the loop; which bytes are below the returned size from the meaning theorems of C27; the stale case per row of the table by evaluation of what the stream stands for, and over all buffers by the overlay theorem |
| C59 | no misaligned vector access | a second model of the decoders' copies and fills (`Align`) in which an aligned load or store at another address is a fault of its own; the loops keep `address % width = 0`, so the checked decoder equals the plain one, for every call |
| C60 | decompression work is linear | the loops of the decoders counted (`Work`: one per round plus one per vector or byte stored); an amortised bound by induction over the loop (bytes of the stream left, room left in the buffer); for rle8m the product bound and a family of streams that attains it up to a constant |
| C61 | inputs above 2^30 bytes | the same model; writer and parser of a record are inverse up to a limit per format (`lim`), and the round trip holds up to that limit; a striped input of 2^31 bytes for the formats with 31 bit literal counts |
| C62 | compression work is linear | the loops of the scanners counted (`EncWork`: one per round plus what the round appends to the output); the scanners end within `12 n + 12` rounds (an amortised measure for the one that goes back), and what they have appended is part of a stream whose size is bounded by C17-C20 |
| C63 | compressors read nothing outside the input | the scanners with every round guarded by the end of what it reads (`Reads`: vector loads, symbol loads, literal copies); a round that reads behind the limit is `ub`. With the limit behind the input by one symbol load the guarded scanners are the scanners (their invariants bound every address); with less, inputs in which nothing repeats lead to `ub` (`ReadsOut`). The low entropy compressors, `rle8_sh` and `rle8_mmtf128` are guarded in the same way (`ReadsLow`) and need no byte behind the input |
| C64 | compressors store nothing behind their output | every store of the records and terminators with its own width and advance (`Stores`: 3 and 6 byte symbols are stored as 4 and 8 bytes), carried through the scanners with a memory and the highest address stored to. The memory is the stream below the index, the old memory from the highest address on, and the distance is at most the padding of a symbol (`StoresOut`); the terminators bring it to 0. `rle8_sh` and `rle8_mmtf128` use the buffer behind the output as scratch memory |
| C65 | decompressors read nothing behind the stream | the decoders of C01-C06 with the end of the readable bytes as a bound: a load behind it is `.ub`. Sufficient: the decoding theorem with `copyW` bytes of slack in place of 64. Necessary: the stream of one byte, computed for every row and processor, whose last literal is copied with a whole vector. |
| C66 | output handed to another thread is complete | `Publish`: the x86 memory as a list of stores that are not visible yet; ordinary stores leave it in order, non-temporal ones in any order, stores to one place in order. The stores of the `mmtf` functions, tagged ordinary or non-temporal, from the loops of C11.: invariant over all executions: what is visible plus what is not gives the effect of the program, and with ordinary stores (or a fence) the list is empty once the variable is seen. Partial: false on the aligned paths |
| C67 | transforms work in place | the loops of C11 and C13 once more, on one memory that holds both buffers (`InPlace`): every block is loaded from `pIn` when its turn comes, after the stores of the blocks before it. Simulation of the list loops: what was written so far does not reach what is still to be read if `pOut <= pIn` or `pIn + n <= pOut`. |
| C68 | a table made from one input serves for any other | the published pieces of the low entropy codecs with the checks each makes for itself (`WithInfo`), around the loops of C07 and C34. The encoder lemma holds for every table whose counts are inverted by the reading side, the decoder lemma for every table that does not flag all 256 values; neither mentions where the table came from. |
| C69 | the report of a failure | `Validate` and the part of the fuzzer like it as functions from two buffers to text, a read outside a buffer being an outcome of its own (`Report`); the specification gives each character by its column. The loops of C56 once more, with the contents of the file and the text carried along (`FuzzFile`); forgetting these gives the run of C56. |
| C70 | a stream that was cut off | from C22 (the header holds the size of the stream), C25 (a stored size above `inSize` is refused) and the size of the output; the header reads themselves for less than a header (eight bytes, nine for rle8). False there: negation for every decompressor. |
| C71 | which functions a call runs, with their `target` attributes (`Isa.lean`) | the picks are those of the modelled scanners and decoders (`*_at` lemmas); every pick is guarded by the flag of its target, C35 says what a flag means, C43 what `--max-simd` leaves, the invariant of C53 what a thread can read. False for the fuzzer: negation. |
| C72 | entry points of the move-to-front functions with their pointers (`MmtfPtr.lean`) | by cases; NULL pointers and the missing test for SSE2 in rle8_mmtf128: negation for all inputs |
| C73 | the tables of `LowEntropy.lean` against the runs of the input (`RunsSpec.lean`) | the tally equals the number of pieces by induction over the input (`Runs.lean`); the choice of the most frequent symbol picks the first maximum, so the list is sorted; flags by arithmetic. The last run and the single symbol choice: negation with witnesses |
| C74 | the emission rules of all extreme codecs against records with a history of symbols (`RecentSpec.lean`) | every emission rule keeps the table equal to the first N different symbols of the history (`Recent.lean`), then the invariant of the scanners. rle8_packed_multi: negation with a witness |
| C75 | the README program (`readme` in `PropsReadme.lean`) on top of the guarded compressors of C63 and the decompressors of C65 | size bounds leave 64 bytes behind the stream, so C65 applies; larger sizes and over-reads by C17 to C19 and C63 |
| C76 | the compressor of C14 against the grammar of C27 (`MmWords.lean`), what it means to be economic in `MmTightSpec.lean` | decoding is injective, so each section the invariant of C14 closes is the one of the grammar with the same blocks (`MmTight.lean`); the register is the or of the blocks of the open section (`MmTightInv.lean`); a stream has one reading (`MmTightEnd.lean`). First section: negation with a witness |
| C77 | the scanners of C01-C06 and the header parsers of their decompressors; what it means in `WholeSpec.lean` | an invariant over every scanner (`Whole.lean`): the stream so far is read as records whose runs all end where the input does not go on; every round that stores a run does so at such a place. 128 bit codecs, one symbol left: negation with a witness |
| C78 | the scanners and emission rules of C01-C06 and the header parsers of their decompressors; what it means in `PaysSpec.lean` | an invariant over every scanner: the stream so far is read as records that pay; every emission rule compares the cost of its record with its run. Where it does not hold: how much a run may cost on top, and witnesses |
| C79 | the transforms of C11-C13; `rank` and `before` (`RankSpec.lean`) say what a written byte means without a table | induction over the lane: who is in front of a byte in the table is who came after it; counting gives its place. Inverse: the table is a permutation |
| C80 | a program that sends all blocks through the same two buffers (`session`); what lies behind a stream after a call is arbitrary | induction over the blocks from C50 (the buffer has no effect), C65 (what is read) and the round trips; monotonicity by cases |
| C81 | a list of stages, each a transform or a codec with everything its calls have around them (`Stage`, `Around`), applied in order and undone in the opposite order | induction over the stages from C11, C13, C51 (a stream tells its sizes), C50 and the size bounds of C20 and C75 |
| C82 | two calls of a compressor with the same bytes and different surroundings; the second one may start from the decompressed bytes | from C29 (made exact for 8 bit symbols), C47, C50 and the round trips; the exceptions by one witness for all codecs of wider symbols, decided for the whole table |

## Where the theorems are

Modules under `lean/Verif`; the third column has the specification modules the statements use besides
definitions given at the head of the module itself. Written by `tools/where.py`.

| property | theorems | specification |
|---|---|---|
| C01 | `PropsX` | `Spec` |
| C02 | `Props128` | `Spec` |
| C03 | `PropsRle8` | `Spec` |
| C04 | `PropsSymlut` | `Spec` |
| C05 | `PropsShort` | `Spec` |
| C06 | `PropsShort` | `Spec` |
| C07 | `PropsLowEntropy`, `PropsLowExact` | `RunsSpec`, `Spec` |
| C08 | `PropsLowEntropy`, `PropsLowExact` | `RunsSpec`, `Spec` |
| C09 | `PropsRle8m`, `Rle8mApi` | `Spec` |
| C10 | `PropsOcl` | `Spec` |
| C11 | `PropsMtf` | `Spec` |
| C12 | `PropsMtf` | `Spec` |
| C13 | `PropsMtf` | `Spec` |
| C14 | `PropsRle8Mmtf` | `Spec` |
| C15 | `PropsRleSh` | `Spec` |
| C16 | `Props128`, `PropsX` | `Spec` |
| C17 | `PropsBlocks`, `PropsRle8`, `PropsSingleFits`, `PropsSingleSize` | `Spec` |
| C18 | `PropsBlocks`, `PropsSize` | `Spec` |
| C19 | `PropsBlocks`, `PropsGreedySize`, `PropsSingleSize`, `PropsSize` | `Spec` |
| C20 | `LowEntropySize`, `LowEntropyTight`, `PropsToolAll`, `Rle8MmtfApi`, `Rle8mApi`, `RleShApi`, `RleShTight` | `CliSpec`, `Spec` |
| C21 | `Props128`, `PropsRle8`, `PropsShort`, `PropsSymlut`, `PropsX` | `Spec` |
| C22 | `LowEntropyApi`, `Props128`, `PropsRle8`, `PropsShort`, `PropsSymlut`, `PropsX`, `Rle8MmtfApi`, `Rle8mApi`, `RleShApi` | `Spec` |
| C23 | `LowEntropyApi`, `Props128`, `PropsMtf`, `PropsRle8`, `PropsShort`, `PropsSymlut`, `PropsX`, `Rle8MmtfApi`, `Rle8mApi`, `RleShApi` | `Spec` |
| C24 | `Props128`, `PropsRle8`, `PropsShort`, `PropsSymlut`, `PropsX`, `Rle8MmtfApi`, `RleShApi` | `Spec` |
| C25 | `LowEntropyApi`, `Props128`, `PropsOcl`, `PropsRle8`, `PropsShort`, `PropsSymlut`, `PropsX`, `Rle8MmtfApi`, `Rle8mApi`, `RleShApi` | `Spec` |
| C26 | `LowEntropyApi`, `Props128`, `PropsRle8`, `PropsShort`, `PropsSymlut`, `PropsX`, `Rle8MmtfApi`, `Rle8mApi`, `RleShApi` | `Spec` |
| C27 | `LowEntropyApi`, `Props128`, `PropsMmWords`, `PropsRle8`, `PropsRle8m`, `PropsShWords`, `PropsShort`, `PropsSymlut`, `PropsX` | `Spec` |
| C28 | `LowEntropyApi`, `Props128`, `PropsMmWords`, `PropsRle8`, `PropsSafe`, `PropsShWords`, `PropsShort`, `PropsSymlut`, `PropsX`, `Rle8MmtfApi`, `Rle8mApi`, `RleShApi` | `Spec` |
| C29 | `LowEntropyApi`, `Props128`, `PropsRepro`, `PropsRle8`, `PropsShort`, `PropsSymlut`, `PropsX`, `Rle8MmtfApi`, `Rle8MmtfBuf`, `Rle8mApi`, `RleShApi` | `Spec` |
| C30 | `PropsBitpack` | — |
| C31 | `PropsRle8` | `Spec` |
| C32 | `PropsDetect` | — |
| C33 | `PropsX` | `Spec` |
| C34 | `PropsLowEntropy` | — |
| C35 | `PropsDetect` | — |
| C36 | `LowEntropyApi`, `Props128`, `PropsRle8`, `PropsShort`, `PropsSymlut`, `PropsX`, `Rle8MmtfApi`, `Rle8mApi`, `RleShApi` | `Spec` |
| C37 | `LowEntropyApi`, `Rle8MmtfApi`, `Rle8mApi`, `RleShApi` | `Spec` |
| C38 | `Table` | `Spec` |
| C39 | `PropsCompare` | — |
| C40 | `PropsFuzz` | — |
| C41 | `PropsFuzzFill` | — |
| C42 | `PropsCli` | `CliSpec` |
| C43 | `PropsCli` | `CliSpec` |
| C44 | `PropsAnalyze` | — |
| C45 | `PropsTool` | `CliSpec`, `Spec` |
| C46 | `PropsToolAll`, `PropsToolReal` | `CliSpec`, `Spec` |
| C47 | `PropsSame` | `Spec` |
| C48 | `ChangesLow`, `ChangesMmtf`, `ChangesSh`, `PropsChanges` | `Spec` |
| C49 | `PropsRand` | — |
| C50 | `PropsRoom` | `Spec` |
| C51 | `PropsArchive` | — |
| C52 | `OthersLow`, `PropsOthers` | `Spec` |
| C53 | `PropsThreads` | `Spec` |
| C54 | `PropsInfo` | — |
| C55 | `PropsOclHost` | — |
| C56 | `PropsFuzzRun` | `Spec` |
| C57 | `PropsTiming` | — |
| C58 | `PropsStale` | `Spec` |
| C59 | `PropsAlign` | `Spec` |
| C60 | `PropsWork` | `Spec` |
| C61 | `PropsLarge` | `Spec` |
| C62 | `PropsEncWork` | `Spec` |
| C63 | `PropsReads` | `Spec` |
| C64 | `PropsStores` | `Spec` |
| C65 | `PropsAhead` | `Spec` |
| C66 | `PropsPublish` | `Spec` |
| C67 | `PropsInPlace` | `Spec` |
| C68 | `PropsWithInfo` | `Spec` |
| C69 | `PropsFuzzFile`, `PropsReport` | — |
| C70 | `PropsCut` | `Spec` |
| C71 | `PropsIsa` | `Spec` |
| C72 | `PropsRefuse` | `Spec` |
| C73 | `PropsDescribe` | `RunsSpec` |
| C74 | `PropsRecent` | `Spec` |
| C75 | `PropsReadme` | `Spec` |
| C76 | `PropsMmTight` | `MmTightSpec` |
| C77 | `PropsWhole` | `Spec`, `WholeSpec` |
| C78 | `PropsLoss`, `PropsPays` | `PaysSpec`, `Spec` |
| C79 | `PropsRank` | `RankSpec`, `Spec` |
| C80 | `PropsReuse` | `Spec` |
| C81 | `PropsPipeline` | `Spec` |
| C82 | `PropsRepro` | `Spec` |

## Defects of the unchanged code, as theorems

* `C07_violated`, `C08_violated`, `C09_violated`: when all 256 byte values
  become run symbols the stored symbol count wraps to 0 and the low-entropy
  codecs and rle8m do not give the input back. `C37_low_entropy_violated`: they
  then also read outside the stream.
* `C17_multi_violated`, `C17_packed_single_violated`, `C18_symlut*_violated`, `C19_*_violated`: the listed
  codecs grow by one to four bytes for each far away run, which adds up to more
  than the constant `rle_compress_bounds` allows: `compress` writes past a
  buffer of the advertised size. For C17 this is so at every size from 125052 (plain multi) or
  32126 (packed single) bytes on: `C17_multi_sizes_violated`, `C17_packed_single_sizes_violated`.
* `C20_low_entropy_violated`, `C20_rle8m_violated`, `C20_mmtf128_violated`,
  `C20_sh_violated`: the codecs' own bounds functions are too small.
* `C24_*_violated`: above 2^30 bytes `rle_compress_bounds` is 0, and a caller
  that passes any `outSize` gets past the guard.
* `C26_rle8m_violated`: rle8m decodes trailing bytes.
* `C27_symlut_malformed_differ`: the AVX-512 symlut decoders return on some
  malformed streams on which the others do not.
* `C28_*_violated`: malformed streams make every decoder leave its buffers.
* `C29_mmtf128_register_violated`: the output of `rle8_mmtf128_compress`
  depends on an uninitialised vector register.
* `C30_bitpack3_m128i_violated`: the three bit `__m128i` packer does not advance
  its input pointer in one branch.
* `C35_avx_violated`, `C35_avx2_violated`: AVX paths are selected without
  checking XCR0.
* `C10_uninitialised_violated`, `C10_reinit_violated`: the OpenCL host code
  dereferences NULL when not initialised, and leaks/loses its offsets buffer
  when initialised twice.
* `C55_double_free_violated`: `rle8m_opencl_init` frees `pPlatforms` and keeps
  its value, so a second initialisation that fails before it has a new list frees
  it again; `C55_transfers_violated`: `rle8m_opencl_decompress` returns while
  transfers out of the caller's buffer and its own stack are going on when a
  later driver call fails.

* `C39_compare_violated`: `MemoryEquals` looks at `movemask` of the accumulated
  differences, so a difference that leaves the top bit of a byte alone goes
  unnoticed in all but the last 1 to 32 bytes: the fuzzer accepts wrong output.
  `C56_missed_violated`: a whole run of `fuzz` with codecs that change the first
  byte of every longer input ends with success.
* `C41_random_one_section_violated`: `fuzz_rand_between(1, stateCount)` divides
  by zero for one section; `C41_random_last_section_unused`: for the same
  reason the last section is never used.
* `C44_bits_violated`: the tables of lengths by number of bits use `63 - __builtin_clz` on a 32 bit number, so
  that every count is 32 rows too far and rows 0 to 31 are empty for every file. `C44_first_run_violated`: a file
  that begins with a run (that ends) makes the analysis call `__builtin_clz(0)`; `C44_defined` says that this is
  the only undefined operation. `C44_overread_violated`: the last symbols are compared with bytes behind
  the file, and the numbers depend on them.
* `C47_packed_multi_violated`: the output of `rle8_packed_multi_compress` depends on whether the processor has
  AVX2, because its scalar tail takes only runs of at least 11 bytes, and where the tail begins depends on the width of
  the vectors (18 bytes: 24 bytes of output without AVX2, 25 with it). Both outputs decompress correctly.
* `C45_no_file_violated`, `C45_size_violated`, `C45_stale_violated`: `--test` exits with 0 when the file
  cannot be read; it does not compare the size the decompressor reports with the size of the file; it
  clears 0 bytes of the output buffer between codecs (`memset(…, decompressedSize)` with a variable that
  was just set to 0), so that a decompressor that writes nothing passes on the output of the codec before.
* `C48_sh_violated`: `rle8_sh_compress` copies the last run byte for byte unless it is a run of the symbol that is the
  run symbol at that time: a constant input of n bytes takes at least n + 15 bytes (src/rle_sh.c:451-490).
* `C52_rle8_single_violated`, `C52_single_short_violated`: the heuristic that picks the run symbol subtracts one from the
  number of runs of the symbol 0 when the input does not begin with 0. That corrects for a fictitious first run of
  zeros that the code no longer counts (its last symbol starts as the complement of the first byte). Zeros that form one
  run are therefore never picked: `1 1 1 1 0 0 0 ...` is not compressed at all, whatever its length
  (src/rle8_extreme_cpu.c:66-70).
* `C57_deviation_violated`, `C57_two_violated`: the benchmark's `-StdDev ~ +StdDev` columns keep the times only from the
  second call on, take their squared distances from the mean of all calls and divide by the number of kept times
  less one. This is the sample standard deviation only if the first call lies exactly one deviation from the
  mean (`C57_deviation_exact`); with `--runs 2` it is a division by 0 (src/main.c:855, 900).
* `C58_stale_violated`, `C58_rle8m_stale_violated`: every decompressor except rle8_mmtf128 returns the size in the header
  without comparing it with what it wrote. A stream whose header says 1000 bytes but whose records stand for a few is
  accepted, and the caller gets 1000 bytes of which most are what the buffer held before (for the command line tool and
  for embedders: uninitialised heap memory).
* `C61_multibyte_violated`, `C61_rle128_violated`, `C61_rle8_violated`: `rle_compress_bounds` is 0 above 2^30 bytes and
  `compress` only compares it with `outSize`, so such inputs are not refused. The packed byte granular codecs store
  literal counts in 31 bits: for 2^31 bytes without runs the count wraps around to 0, and decompression returns 2^31
  having written nothing behind the first 128 bytes.
* `C64_short48_violated`: the short 48 bit codecs without a table end with a symbol of 6 bytes that is stored as 8. If
  only one literal follows (any input of one byte), the byte behind the returned size is overwritten.
* `C64_sh_violated`, `C64_mmtf128_violated`: `rle8_sh` collects its headers at the end of the output buffer, whatever
  its size, and `rle8_mmtf128` packs its blocks in place. Both leave data behind the returned size.
* `C65_violated`: every extreme decompressor copies literals with whole vectors, so the stream of a single byte makes it
  read up to 63 bytes behind the stream. `pIn` of exactly `inSize` readable bytes is not enough; nothing in `rle.h` says so,
  `rle_decompress_additional_size` speaks about the output buffer.
* `C66_violated`: the aligned functions of `mmtf.c` write with `_mm_stream_si128` and `_mm256_stream_si256`, and neither they nor
  their callers execute `_mm_sfence`. A thread that sees a flag set after the call may still read the old bytes in every whole
  block. Setting the flag with a release store, which is an ordinary store on x86, does not help; a mutex does, as its
  exchange is a locked instruction. The `_aligned` functions of `bitpack.h` stream in the same way.
* `C68_room_violated`: `rle8_low_entropy_compress_with_info` and the short version ask for `outSize >= inSize`, and
  write up to two bytes for each input byte: with any table that flags a symbol `b`, the one byte block `b` overruns a
  buffer of one byte. `C68_read_violated`: `rle8_low_entropy_read_decompress_info` compares `inSize` with 0 only, and
  reads up to 288 bytes. `C68_violated`: with the table of `0 0 1 1 ... 255 255`, which flags all 256 values, blocks are
  not restored (the count of flagged symbols is a `uint8_t`, as in C07).
* `C69_file_violated`: the fuzzer writes `fuzz-failure.bin` only when the comparison fails. A codec that returns 0 or a
  wrong size stops it with the file empty.
* `C25_rle8_violated`: `rle8[_packed]_decompress` read the mode byte, the ninth byte, before they compare the sizes
  (src/rle8_extreme_cpu.h:709, 711). Eight bytes with sizes that do not fit are read past instead of refused.
* `C70_header_violated`, `C70_rle8m_header_violated`, `C70_success_violated`: the decompressors check `inSize == 0` and
  then read eight bytes. With one to seven bytes they read behind the buffer; if zeros follow the first four bytes most
  of them return the uncompressed size without having restored anything.
* `C71_fuzz_violated`, `C71_fuzz_max_simd_violated`: `--fuzz-iterative` and `--fuzz-random` run `MemoryEquals`, compiled
  for AVX2, and the latter `fuzz_read_rand`, compiled for AES, without asking whether the processor has them; `--max-
  simd` has no influence either.
* `C72_mmtf_null_violated`: `mmtf128_*` and `mmtf256_*` do not test their pointers. `C72_mmtf128_sse2_violated`:
  `rle8_mmtf128_*` do not test for SSE2 although `rle.h` says they do.
* `C73_last_run_violated`: the low entropy tables count the last run as one piece, so a value whose runs do not pay is
  flagged. `C73_best_violated`: the single symbol tables leave out values whose average run is 2.5 bytes (integer
  division), although flagging one would make the stream shorter (52 instead of 59 bytes).
* `C74_rle8_packed_multi_violated`: the scalar code at the end of rle8_packed_multi_compress stores the symbol of a run
  even if it is that of the run before, although the format has a bit for it.
* `C75_readme_violated`: the example program of the README overflows its heap buffer for some data of every size from
  125052 bytes on. `C75_reads_violated`: with a codec of larger symbols in its place it reads behind the data, for some
  data of every size.
* `C76_mmtf128_violated`: the first copy section of rle8_mmtf128 is stored with eight bits per index even if two would
  do, if the register `currentBitMask` (never initialised) happened to hold ones.
* `C77_128_violated`: the codecs of 128 bit symbols do not extend a run when exactly 16 bytes are left. 64 equal bytes
  become a run of 48 and 16 literal bytes, 16 bytes more than one run of 64 takes (and more than 65 equal bytes take).
* `C78_rle8_violated`, `C78_symlut_violated`, `C78_symlut_all_violated`, `C78_short_violated`: some runs are stored at a
  loss. Behind 255 literals rle8_multi stores a run of 6 in 7 bytes, rle8_single one of 4 in 6 and rle8_packed_single
  one of 2 in 6. The table codecs of 24 bit symbols store a run of two symbols, 6 bytes, in 7 bytes behind 126 literals
  (table of 3) or 62 (table of 7). The table codecs of 8, 16 and 32 bit symbols and the short codecs, except those of
  `C78_short_two`, do so behind about 65536 literals; a codec whose records all pay could not exceed the bounds as these
  do (C18, C19).
* `C80_large_violated`: the advertised sizes drop to 0, or wrap around, for sizes that are not supported, so a buffer made for such a
  size is refused for every block.
* `C82_behind_violated`: every compressor of symbols of more than 8 bits gives different streams for the same 16 bytes, depending on what
  lies behind them in memory. Both can be decompressed, but files compressed twice may differ.
* `C63_violated`: the compressors of 16, 24, 32, 48, 64 and 128 bit symbols
  load a whole symbol at the last positions of the input, and the symbol behind
  it. They read up to 2, 4, 4, 8, 8 and 16 bytes behind the end, and do so for
  every input in which no byte equals one of the 16 behind it.
* `C60_rle8m_violated`, `C60_rle8m_linear_violated`: rle8m takes the offsets of the sections from the stream and does
  not require that they grow. A stream of `46 + 8 j + N` bytes whose table lists the end and the start of the payload in
  turn is decoded without an error, and the payload is decoded `j + 1` times: quadratic work (a 2 MB stream: 10^11 byte
  copies).
* `C54_constant_violated`: for a stream of equal bytes `GetInformationRatio` divides 0 by `log2(1)`, and the column
  shows a `NaN`. Any benchmark of a file of equal bytes ends with such a line (`MemCopy`).
* `C53_unordered_violated`: the mark `_CpuFeaturesDetected` is a plain variable. If the compiler (or a processor
  with weaker ordering than x86) moves its store before those of the flags, a second thread's first call of
  `rle8_packed_multi` writes other bytes than later calls.
* `C49_random_violated`: `fuzz_read_rand` never sets `initialized`, so each call seeds it again and returns the
  complement of the clocks; the AES step has no effect on what is drawn.
* `C42_size_violated`, `C42_short_violated`: `--x-size` looks at one or two
  characters only (`30` is taken for 32); `--low-entropy-short` silently
  withdraws an earlier `--not-short`.

## Testing the theorems

`seeded/LOG.jsonl` records edits of the model that mimic realistic bugs, made
in a scratch copy, and the theorems that no longer build. (In the rounds before r7 the script that collects the
names could add theorems that stand after a failing one in the same file; the failing one is always in the list.)
